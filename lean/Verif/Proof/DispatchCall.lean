import Verif.Proof.DispatchSort
import Mathlib.Tactic.Tauto
/-! Which methods a call selects, and the order it puts them in. -/
namespace Gauche.Dispatch
open Spec
open scoped Classical

theorem subclassP_iff (w : World) (c s : Nat) (hb : c ≠ w.bottom) (hs : s ≠ w.top) :
    subclassP w c s = true ↔ IsA w c s := by
  unfold subclassP IsA
  simp [hb, hs]

theorem specsOk_spec (w : World) (types args : List Nat) (hb : ∀ c ∈ args, c ≠ w.bottom) : ∀ (sp : List Nat) (n : Nat),
    n + sp.length ≤ args.length → (∀ i, i < n + sp.length → types[i]? = args[i]?) →
    specsOk w types n sp = some (decide (∀ (i s c : Nat), sp[i]? = some s → args[n + i]? = some c → IsA w c s)) := by
  intro sp
  induction sp with
  | nil => intro n _ _; simp [specsOk]
  | cons s sp ih =>
    intro n hl ht
    simp only [List.length_cons] at hl ht
    have hlt : n < args.length := by omega
    have ih' := ih (n + 1) (by omega) (fun i hi => ht i (by omega))
    have key : (∀ (i s' c : Nat), (s :: sp)[i]? = some s' → args[n + i]? = some c → IsA w c s') ↔
        IsA w args[n] s ∧ (∀ (i s' c : Nat), sp[i]? = some s' → args[n + 1 + i]? = some c → IsA w c s') := by
      constructor
      · intro h
        exact ⟨h 0 s _ rfl (by simp [hlt]), fun i s' c h1 h2 => h (i + 1) s' c (by simpa using h1)
          (by rw [← h2]; congr 1; omega)⟩
      · rintro ⟨h1, h2⟩ i s' c e1 e2
        cases i with
        | zero =>
          simp at e1
          subst e1
          rw [Nat.add_zero, List.getElem?_eq_getElem hlt] at e2
          cases e2
          exact h1
        | succ i => exact h2 i s' c (by simpa using e1) (by rw [← e2]; congr 1; omega)
    unfold specsOk
    by_cases h1 : s = w.top
    · rw [if_pos h1, ih']
      have : IsA w args[n] s := Or.inl h1
      simp only [key, this, true_and]
    · rw [if_neg h1, ht n (by omega), List.getElem?_eq_getElem hlt]
      simp only []
      have hsub := subclassP_iff w args[n] s (hb _ (List.getElem_mem _)) h1
      by_cases h2 : subclassP w args[n] s = true
      · rw [if_pos h2, ih']
        simp only [key, hsub.1 h2, true_and]
      · rw [if_neg h2]
        have : ¬ IsA w args[n] s := fun h => h2 (hsub.2 h)
        simp only [key, this, false_and, decide_false]

theorem applicable_spec (w : World) (m : Method) (types args : List Nat) (hb : ∀ c ∈ args, c ≠ w.bottom)
    (ht : ∀ i, i < m.specs.length → types[i]? = args[i]?) :
    applicableForClasses w m types args.length = some (decide (Applicable w m args)) := by
  unfold applicableForClasses
  by_cases h : args.length < m.specs.length ∨ (m.opt = false ∧ args.length ≠ m.specs.length)
  · rw [if_pos h]
    have : ¬ Applicable w m args := by
      rintro ⟨h1, _⟩
      unfold Accepts at h1
      cases ho : m.opt
      · simp [ho] at h1 h; omega
      · simp [ho] at h1 h; omega
    simp [this]
  · rw [if_neg h, specsOk_spec w types args hb m.specs 0 (by omega) (fun i hi => ht i (by omega))]
    have : Accepts m args.length := by
      unfold Accepts
      cases ho : m.opt
      · simp [ho] at h ⊢; omega
      · simp [ho] at h ⊢; omega
    unfold Applicable
    simp only [this, true_and, Nat.zero_add]

theorem selectMethods_spec (w : World) (types args : List Nat) (hb : ∀ c ∈ args, c ≠ w.bottom) : ∀ ms : List Method,
    (∀ m ∈ ms, ∀ i, i < m.specs.length → i < args.length → types[i]? = args[i]?) →
    selectMethods w types args.length ms =
      some (ms.filter fun m => decide (m.placeholder = false ∧ Applicable w m args)) := by
  intro ms
  induction ms with
  | nil => intro _; rfl
  | cons m ms ih =>
    intro h
    have ih' := ih (fun m' hm' => h m' (List.mem_cons_of_mem _ hm'))
    unfold selectMethods
    by_cases hp : m.placeholder = true
    · rw [if_pos hp, ih', List.filter_cons_of_neg (by simp [hp])]
    · rw [if_neg hp]
      have hp' : m.placeholder = false := by simpa using hp
      have e : applicableForClasses w m types args.length = some (decide (Applicable w m args)) := by
        by_cases hl : m.specs.length ≤ args.length
        · exact applicable_spec w m types args hb (fun i hi => h m (List.mem_cons_self ..) i hi (by omega))
        · have : ¬ Applicable w m args := fun ha => hl (applicable_len ha)
          unfold applicableForClasses
          rw [if_pos (Or.inl (by omega))]
          simp [this]
      rw [e, ih']
      by_cases ha : Applicable w m args
      · rw [List.filter_cons_of_pos (by simp [hp', ha])]
        simp [ha]
      · rw [List.filter_cons_of_neg (by simp [ha])]
        simp [ha]

theorem fillTypev_spec (cap : Nat) : ∀ (args : List Nat) (nsel : Nat) (acc : List Nat),
    acc.length + min args.length (nsel + 1) ≤ cap →
    fillTypev cap args (nsel : Int) acc = some (acc ++ args.take (nsel + 1), (nsel : Int) - min args.length (nsel + 1)) := by
  intro args
  induction args with
  | nil => intro nsel acc _; simp [fillTypev]
  | cons c args ih =>
    intro nsel acc h
    simp only [List.length_cons] at h
    unfold fillTypev
    rw [if_pos (by omega), if_pos (by omega)]
    cases nsel with
    | zero =>
      have e : (((0 : Nat) : Int) - 1) = -1 := by omega
      rw [e]
      cases args with
      | nil => simp [fillTypev]
      | cons d args =>
        unfold fillTypev
        rw [if_neg (by omega)]
        simp
    | succ n =>
      have e : (((n + 1 : Nat) : Int) - 1) = (n : Int) := by omega
      rw [e, ih n (acc ++ [c]) (by simp; omega)]
      simp

/-- What the methods of a generic function satisfy. -/
structure GFOk (gf : GF) : Prop where
  distinct : gf.methods.Pairwise fun a b => ¬ SameSig a b
  req : ∀ m ∈ gf.methods, m.specs.length ≤ gf.maxReqargs

theorem sameSig_refl (a : Method) : SameSig a a := ⟨rfl, rfl⟩

theorem distinct_nodup {l : List Method} (h : l.Pairwise fun a b => ¬ SameSig a b) : l.Nodup := by
  unfold List.Nodup
  refine h.imp ?_
  intro a b hab e
  subst e
  exact hab (sameSig_refl _)

theorem distinct_uniq {l : List Method} (h : l.Pairwise fun a b => ¬ SameSig a b) {a b : Method} (ha : a ∈ l)
    (hb : b ∈ l) (hab : a ≠ b) : ¬ SameSig a b := by
  induction l with
  | nil => simp at ha
  | cons x l ih =>
    rw [List.pairwise_cons] at h
    rcases List.mem_cons.1 ha with e1 | h1
    · rcases List.mem_cons.1 hb with e2 | h2
      · exact absurd (e1.trans e2.symm) hab
      · rw [e1]; exact h.1 b h2
    · rcases List.mem_cons.1 hb with e2 | h2
      · rw [e2]; exact fun hs => h.1 a h1 ⟨hs.1.symm, hs.2.symm⟩
      · exact ih h.2 h1 h2

theorem GFOk.nodup {gf : GF} (h : GFOk gf) : gf.methods.Nodup := distinct_nodup h.distinct

theorem GFOk.uniq {gf : GF} (h : GFOk gf) {a b : Method} (ha : a ∈ gf.methods) (hb : b ∈ gf.methods) (hab : a ≠ b) :
    ¬ SameSig a b := distinct_uniq h.distinct ha hb hab

/-- The arguments' classes that are written to the array. -/
theorem typev_spec (gf : GF) (args : List Nat) (hcap : gf.maxReqargs < 32 ∨ args.length ≤ gf.maxReqargs) :
    typevArgc gf args none = some (args.take (gf.maxReqargs + 1), args.length) := by
  unfold typevArgc
  rw [fillTypev_spec (typevCap gf) args gf.maxReqargs [] (by
    unfold typevCap preallocSize
    by_cases h : gf.maxReqargs > 32
    · rw [if_pos h]; simp; omega
    · rw [if_neg h]; simp; omega)]
  simp

/-- The applicable methods, as a list in the order of the method list. -/
noncomputable def applicableOf (w : World) (args : List Nat) (ms : List Method) : List Method :=
  ms.filter fun m => decide (m.placeholder = false ∧ Applicable w m args)

theorem mem_applicableOf {w : World} {args : List Nat} {ms : List Method} {m : Method} :
    m ∈ applicableOf w args ms ↔ m ∈ ms ∧ m.placeholder = false ∧ Applicable w m args := by
  unfold applicableOf
  simp

theorem computeApplicable_spec (hf : HashFn) (w : World) (gf : GF) (args : List Nat) (hok : GFOk gf)
    (hb : ∀ c ∈ args, c ≠ w.bottom) (hcap : gf.maxReqargs < 32 ∨ args.length ≤ gf.maxReqargs)
    (hd : gf.dispatcher = none) : computeApplicable hf w gf args none = some (applicableOf w args gf.methods) := by
  unfold computeApplicable
  by_cases h0 : gf.methods = []
  · rw [if_pos h0, h0]; rfl
  · rw [if_neg h0, typev_spec gf args hcap, hd]
    exact selectMethods_spec w _ args hb gf.methods (fun m hm i hi _ => by
      rw [List.getElem?_take, if_pos (by have := hok.req m hm; omega)])

theorem sort_applicable (w : World) (args : List Nat) (ms : List Method)
    (hd : ms.Pairwise fun a b => ¬ SameSig a b) (ha : ∀ m ∈ ms, Applicable w m args) :
    ∃ l, sortMethods w ms args = some l ∧ l.Perm ms ∧ l.Pairwise (MoreSpecific w args) := by
  have hn : ms.Nodup := distinct_nodup hd
  apply sortMethods_spec (moreSpecific_trans w args) ms hn
  intro x hx y hy hxy
  have hs : ¬ SameSig x y := distinct_uniq hd hx hy hxy
  exact methodMoreSpecific_spec w args x y (ha x hx) (ha y hy) hs

theorem adjustArgs_applicable {w : World} {m : Method} {args : List Nat} (h : Applicable w m args)
    (nm : Option (List Method)) : adjustArgs m args.length nm = .invoke m nm := by
  have h1 := h.1
  unfold Accepts at h1
  unfold adjustArgs
  cases ho : m.opt
  · simp [ho] at h1 ⊢; omega
  · simp [ho] at h1 ⊢; omega

/-- What a call does, given the list of methods that are to be called in order. -/
def outcomeOf : List Method → Outcome
  | [] => .fallback
  | m :: l => .invoke m (makeNext m l)

/-- A call from the list of the applicable methods on. -/
theorem callGeneric_of (hf : HashFn) (w : World) (gf : GF) (args : List Nat) (ms : List Method)
    (hc : computeApplicable hf w gf args none = some ms)
    (hd : ms.Pairwise fun a b => ¬ SameSig a b) (ha : ∀ m ∈ ms, Applicable w m args) :
    ∃ l, l.Perm ms ∧ l.Pairwise (MoreSpecific w args) ∧ callGeneric hf w gf args none = some (outcomeOf l) := by
  unfold callGeneric
  rw [hc]
  cases ms with
  | nil => exact ⟨[], List.Perm.refl _, List.Pairwise.nil, rfl⟩
  | cons m ms =>
    cases ms with
    | nil =>
      refine ⟨[m], List.Perm.refl _, List.pairwise_singleton _ _, ?_⟩
      simp [outcomeOf, adjustArgs_applicable (ha m (by simp))]
    | cons m' ms =>
      obtain ⟨l, e, p, s⟩ := sort_applicable w args (m :: m' :: ms) hd ha
      refine ⟨l, p, s, ?_⟩
      simp only [Option.bind_some, Option.getD_none, List.append_nil]
      rw [e]
      cases l with
      | nil => exact absurd p.length_eq (by simp)
      | cons a l => simp [outcomeOf, adjustArgs_applicable (ha a (p.mem_iff.1 (by simp)))]

/-- The chain of methods from a call on. -/
theorem callChain_of (hf : HashFn) (w : World) (gf : GF) (args : List Nat) (l : List Method)
    (ha : ∀ m ∈ l, Applicable w m args) (hc : callGeneric hf w gf args none = some (outcomeOf l)) :
    ∀ i, i ≤ l.length → (∀ (j : Nat) (m : Method), j < i → l[j]? = some m → m.leaf = false) →
      callChain hf w gf args i = some (outcomeOf (l.drop i)) := by
  intro i
  induction i with
  | zero => intro _ _; simpa [callChain] using hc
  | succ i ih =>
    intro hi hleaf
    unfold callChain
    rw [ih (by omega) (fun j m hj => hleaf j m (by omega))]
    have hlt : i < l.length := by omega
    rw [List.drop_eq_getElem_cons hlt]
    simp only [outcomeOf]
    have hl : l[i].leaf = false := hleaf i l[i] (by omega) (List.getElem?_eq_getElem hlt)
    unfold makeNext
    rw [hl]
    simp only [Bool.false_eq_true, if_false]
    cases hdr : l.drop (i + 1) with
    | nil => rfl
    | cons m l' =>
      have hm : m ∈ l := List.mem_of_mem_drop (by rw [hdr]; simp : m ∈ l.drop (i + 1))
      simp [callNext, adjustArgs_applicable (ha m hm), outcomeOf, makeNext]

/-! ### Histories -/

theorem findSameSig_spec (m : Method) : ∀ l : List Method,
    match findSameSig m l with
    | none => ∀ y ∈ l, ¬ SameSig m y
    | some y => y ∈ l ∧ SameSig m y := by
  intro l
  induction l with
  | nil => simp [findSameSig]
  | cons a l ih =>
    unfold findSameSig
    by_cases h : m.specs.length = a.specs.length ∧ m.opt = a.opt ∧ m.specs = a.specs
    · rw [if_pos h]
      exact ⟨by simp, h.2.2, h.2.1⟩
    · rw [if_neg h]
      cases hf : findSameSig m l with
      | none =>
        rw [hf] at ih
        intro y hy
        rcases List.mem_cons.1 hy with rfl | hy
        · rintro ⟨h1, h2⟩; exact h ⟨by rw [h1], h2, h1⟩
        · exact ih y hy
      | some y =>
        rw [hf] at ih
        exact ⟨List.mem_cons_of_mem _ ih.1, ih.2⟩

theorem mem_replaceFirst {old new x : Method} : ∀ {l : List Method}, l.Nodup → old ∈ l →
    (x ∈ replaceFirst old new l ↔ x = new ∨ (x ∈ l ∧ x ≠ old)) := by
  intro l
  induction l with
  | nil => simp
  | cons a l ih =>
    intro hn ho
    unfold replaceFirst
    rw [List.nodup_cons] at hn
    by_cases h : a = old
    · rw [if_pos h, List.mem_cons, List.mem_cons]
      subst h
      constructor
      · rintro (h | h)
        · exact Or.inl h
        · exact Or.inr ⟨Or.inr h, fun e => hn.1 (e ▸ h)⟩
      · rintro (h | ⟨h, h'⟩)
        · exact Or.inl h
        · exact Or.inr (h.resolve_left h')
    · rw [if_neg h, List.mem_cons, List.mem_cons, ih hn.2 ((List.mem_cons.1 ho).resolve_left (Ne.symm h))]
      constructor
      · rintro (h1 | h1 | h1)
        · exact Or.inr ⟨Or.inl h1, h1 ▸ h⟩
        · exact Or.inl h1
        · exact Or.inr ⟨Or.inr h1.1, h1.2⟩
      · tauto

theorem replaceFirst_distinct {old new : Method} (hs : SameSig new old) : ∀ {l : List Method},
    l.Pairwise (fun a b => ¬ SameSig a b) → old ∈ l →
    (replaceFirst old new l).Pairwise (fun a b => ¬ SameSig a b) := by
  intro l
  induction l with
  | nil => simp
  | cons a l ih =>
    intro hd ho
    have hn : l.Nodup := distinct_nodup hd.of_cons
    unfold replaceFirst
    rw [List.pairwise_cons] at hd
    by_cases h : a = old
    · subst h
      rw [if_pos rfl, List.pairwise_cons]
      refine ⟨fun x hx hnx => hd.1 x hx ⟨hs.1.symm.trans hnx.1, hs.2.symm.trans hnx.2⟩, hd.2⟩
    · have ho' := (List.mem_cons.1 ho).resolve_left (Ne.symm h)
      rw [if_neg h, List.pairwise_cons]
      refine ⟨fun x hx hax => ?_, ih hd.2 ho'⟩
      rcases (mem_replaceFirst hn ho').1 hx with h1 | h1
      · subst h1
        exact hd.1 old ho' ⟨hax.1.trans hs.1, hax.2.trans hs.2⟩
      · exact hd.1 x h1.1 hax

theorem removeFirst_sublist (m : Method) : ∀ l : List Method, (removeFirst m l).Sublist l := by
  intro l
  induction l with
  | nil => exact List.Sublist.refl _
  | cons a l ih =>
    unfold removeFirst
    split
    · exact List.sublist_cons_self _ _
    · exact ih.cons_cons a

theorem mem_removeFirst {m x : Method} : ∀ {l : List Method}, l.Nodup →
    (x ∈ removeFirst m l ↔ x ∈ l ∧ x ≠ m) := by
  intro l
  induction l with
  | nil => simp [removeFirst]
  | cons a l ih =>
    intro hn
    rw [List.nodup_cons] at hn
    unfold removeFirst
    by_cases h : a = m
    · subst h
      rw [if_pos rfl, List.mem_cons]
      constructor
      · intro h; exact ⟨Or.inr h, fun e => hn.1 (e ▸ h)⟩
      · rintro ⟨h, h'⟩; exact h.resolve_left h'
    · rw [if_neg h, List.mem_cons, List.mem_cons, ih hn.2]
      constructor
      · rintro (h1 | h1)
        · exact ⟨Or.inl h1, h1 ▸ h⟩
        · exact ⟨Or.inr h1.1, h1.2⟩
      · tauto

theorem syncReqargs_ge : ∀ (l : List Method) (n : Nat), n ≤ syncReqargs l n ∧ ∀ m ∈ l, m.specs.length ≤ syncReqargs l n := by
  intro l
  induction l with
  | nil => intro n; simp [syncReqargs]
  | cons a l ih =>
    intro n
    unfold syncReqargs
    obtain ⟨h1, h2⟩ := ih (if a.specs.length > n then a.specs.length else n)
    have : n ≤ (if a.specs.length > n then a.specs.length else n) ∧
        a.specs.length ≤ (if a.specs.length > n then a.specs.length else n) := by split <;> omega
    refine ⟨by omega, fun m hm => ?_⟩
    rcases List.mem_cons.1 hm with rfl | hm
    · omega
    · exact h2 m hm

theorem syncReqargs_eq : ∀ (l : List Method) (n : Nat), (∀ m ∈ l, m.specs.length ≤ n) → syncReqargs l n = n := by
  intro l
  induction l with
  | nil => intro n _; rfl
  | cons a l ih =>
    intro n h
    unfold syncReqargs
    rw [if_neg (by have := h a (by simp); omega)]
    exact ih n fun m hm => h m (List.mem_cons_of_mem _ hm)

/-- The generic function holds the methods `S`, and no method had `b` or more required arguments. -/
structure Holds (b : Nat) (S : Method → Prop) (gf : GF) : Prop extends GFOk gf where
  set : ∀ m, m ∈ gf.methods ↔ S m
  bound : gf.maxReqargs < b

theorem addMethod_holds (hf : HashFn) {b : Nat} {S : Method → Prop} {gf gf' : GF} (h : Holds b S gf) (m : Method)
    (hm : m.specs.length < b) (he : addMethod hf gf m = some gf') :
    Holds b (step S (.add m)) gf' := by
  unfold addMethod at he
  by_cases hin : m ∈ gf.methods
  · rw [if_pos hin] at he
    cases he
    refine { h with set := fun x => ?_ }
    rw [h.set]
    unfold step
    have hu : ∀ y, S y → SameSig m y → y = m := fun y hy hs => by
      by_contra hne
      exact h.uniq hin ((h.set y).2 hy) (Ne.symm hne) hs
    constructor
    · intro hx
      by_cases hex : ∃ y, S y ∧ y.locked = true ∧ SameSig m y
      · exact Or.inl ⟨hx, hex⟩
      · refine Or.inr ⟨?_, hex⟩
        by_cases hs : SameSig m x
        · exact Or.inl (hu x hx hs)
        · exact Or.inr ⟨hx, hs⟩
    · rintro (hx | ⟨hx | hx, _⟩)
      · exact hx.1
      · subst hx; exact (h.set x).1 hin
      · exact hx.1
  · rw [if_neg hin] at he
    have hfs := findSameSig_spec m gf.methods
    cases hc : findSameSig m gf.methods with
    | some old =>
      rw [hc] at he hfs
      simp only [] at he hfs
      obtain ⟨ho, hs⟩ := hfs
      have hu : ∀ y, S y → SameSig m y → y = old := fun y hy hs' => by
        by_contra hne
        exact h.uniq ((h.set y).2 hy) ho hne ⟨hs'.1.symm.trans hs.1, hs'.2.symm.trans hs.2⟩
      by_cases hl : old.locked = true
      · rw [if_pos hl] at he
        cases he
        refine { h with set := fun x => ?_ }
        rw [h.set]
        unfold step
        have hex : ∃ y, S y ∧ y.locked = true ∧ SameSig m y := ⟨old, (h.set old).1 ho, hl, hs⟩
        constructor
        · exact fun hx => Or.inl ⟨hx, hex⟩
        · rintro (hx | hx)
          · exact hx.1
          · exact absurd hex hx.2
      · rw [if_neg hl] at he
        have key : gf'.methods = replaceFirst old m gf.methods ∧ gf'.maxReqargs = gf.maxReqargs := by
          cases hd : gf.dispatcher with
          | none => rw [hd] at he; cases he; exact ⟨rfl, rfl⟩
          | some d =>
            rw [hd] at he
            simp only [Option.map_eq_some_iff] at he
            obtain ⟨_, _, e⟩ := he
            subst e; exact ⟨rfl, rfl⟩
        have hex : ¬ ∃ y, S y ∧ y.locked = true ∧ SameSig m y := by
          rintro ⟨y, h1, h2, h3⟩
          rw [hu y h1 h3] at h2
          exact hl h2
        refine { distinct := ?_, req := ?_, set := fun x => ?_, bound := by rw [key.2]; exact h.bound }
        · rw [key.1]; exact replaceFirst_distinct hs h.distinct ho
        · rw [key.1, key.2]
          intro x hx
          rcases (mem_replaceFirst h.nodup ho).1 hx with rfl | h1
          · rw [hs.1]; exact h.req old ho
          · exact h.req x h1.1
        · rw [key.1, mem_replaceFirst h.nodup ho, h.set]
          unfold step
          constructor
          · intro hx
            refine Or.inr ⟨?_, hex⟩
            rcases hx with hx | hx
            · exact Or.inl hx
            · exact Or.inr ⟨hx.1, fun hs' => hx.2 (hu x hx.1 hs')⟩
          · rintro (hx | ⟨hx | hx, _⟩)
            · exact absurd hx.2 hex
            · exact Or.inl hx
            · exact Or.inr ⟨hx.1, fun e => hx.2 (e ▸ hs)⟩
    | none =>
      rw [hc] at he hfs
      simp only [] at he hfs
      have key : gf'.methods = m :: gf.methods ∧
          gf'.maxReqargs = (if m.specs.length > gf.maxReqargs then m.specs.length else gf.maxReqargs) := by
        cases hd : gf.dispatcher with
        | none => rw [hd] at he; cases he; exact ⟨rfl, rfl⟩
        | some d =>
          rw [hd] at he
          simp only [Option.map_eq_some_iff] at he
          obtain ⟨_, _, e⟩ := he
          subst e; exact ⟨rfl, rfl⟩
      have hex : ¬ ∃ y, S y ∧ y.locked = true ∧ SameSig m y := by
        rintro ⟨y, h1, h2, h3⟩
        exact hfs y ((h.set y).2 h1) h3
      refine { distinct := ?_, req := ?_, set := fun x => ?_, bound := ?_ }
      · rw [key.1, List.pairwise_cons]; exact ⟨hfs, h.distinct⟩
      · rw [key.1, key.2]
        intro x hx
        rcases List.mem_cons.1 hx with rfl | hx
        · split <;> omega
        · have := h.req x hx; split <;> omega
      · rw [key.1, List.mem_cons, h.set]
        unfold step
        constructor
        · intro hx
          refine Or.inr ⟨?_, hex⟩
          rcases hx with hx | hx
          · exact Or.inl hx
          · exact Or.inr ⟨hx, hfs x ((h.set x).2 hx)⟩
        · rintro (hx | ⟨hx | hx, _⟩)
          · exact absurd hx.2 hex
          · exact Or.inl hx
          · exact Or.inr hx.1
      · rw [key.2]
        have := h.bound
        split <;> omega

theorem deleteMethod_holds (hf : HashFn) {b : Nat} {S : Method → Prop} {gf gf' : GF} (h : Holds b S gf) (m : Method)
    (he : deleteMethod hf gf m = some gf') : Holds b (step S (.del m)) gf' := by
  unfold deleteMethod at he
  by_cases hin : m ∈ gf.methods
  · rw [if_pos hin] at he
    simp only [Option.map_eq_some_iff] at he
    obtain ⟨d, _, e⟩ := he
    subst e
    have hsub := removeFirst_sublist m gf.methods
    have hreq : ∀ x ∈ removeFirst m gf.methods, x.specs.length ≤ gf.maxReqargs := fun x hx => h.req x (hsub.subset hx)
    refine { distinct := h.distinct.sublist hsub, req := ?_, set := fun x => ?_, bound := ?_ }
    · exact (syncReqargs_ge _ _).2
    · simp only [step]
      rw [mem_removeFirst h.nodup, h.set]
    · simp only []
      rw [syncReqargs_eq _ _ hreq]; exact h.bound
  · rw [if_neg hin] at he
    cases he
    refine { h with set := fun x => ?_ }
    rw [h.set]
    unfold step
    exact ⟨fun hx => ⟨hx, fun e => hin ((h.set m).2 (e ▸ hx))⟩, fun hx => hx.1⟩

theorem runOps_holds (hf : HashFn) {b : Nat} : ∀ (ops : List Op) (S : Method → Prop) (gf gf' : GF), Holds b S gf →
    (∀ m, Op.add m ∈ ops → m.specs.length < b) → runOps hf ops gf = some gf' → Holds b (live ops S) gf' := by
  intro ops
  induction ops with
  | nil => intro S gf gf' h _ he; cases he; exact h
  | cons op ops ih =>
    intro S gf gf' h hm he
    cases op with
    | add m =>
      unfold runOps at he
      rw [Option.bind_eq_some_iff] at he
      obtain ⟨g1, e1, e2⟩ := he
      exact ih _ g1 gf' (addMethod_holds hf h m (hm m (by simp)) e1) (fun x hx => hm x (by simp [hx])) e2
    | del m =>
      unfold runOps at he
      rw [Option.bind_eq_some_iff] at he
      obtain ⟨g1, e1, e2⟩ := he
      exact ih _ g1 gf' (deleteMethod_holds hf h m e1) (fun x hx => hm x (by simp [hx])) e2

/-- Without a dispatcher, every history runs. -/
theorem runOps_total (hf : HashFn) : ∀ (ops : List Op) (gf : GF), gf.dispatcher = none →
    ∃ gf', runOps hf ops gf = some gf' ∧ gf'.dispatcher = none := by
  intro ops
  induction ops with
  | nil => intro gf h; exact ⟨gf, rfl, h⟩
  | cons op ops ih =>
    intro gf h
    cases op with
    | add m =>
      have : ∃ g1, addMethod hf gf m = some g1 ∧ g1.dispatcher = none := by
        unfold addMethod
        by_cases h1 : m ∈ gf.methods
        · rw [if_pos h1]; exact ⟨gf, rfl, h⟩
        · rw [if_neg h1]
          cases findSameSig m gf.methods with
          | none => simp only [h]; exact ⟨_, rfl, rfl⟩
          | some old =>
            simp only [h]
            by_cases h2 : old.locked = true
            · rw [if_pos h2]; exact ⟨gf, rfl, h⟩
            · rw [if_neg h2]; exact ⟨_, rfl, rfl⟩
      obtain ⟨g1, e1, d1⟩ := this
      obtain ⟨g2, e2, d2⟩ := ih g1 d1
      exact ⟨g2, by unfold runOps; rw [e1]; exact e2, d2⟩
    | del m =>
      have : ∃ g1, deleteMethod hf gf m = some g1 ∧ g1.dispatcher = none := by
        unfold deleteMethod
        by_cases h1 : m ∈ gf.methods
        · rw [if_pos h1]
          simp only [h]
          exact ⟨_, rfl, rfl⟩
        · rw [if_neg h1]; exact ⟨gf, rfl, h⟩
      obtain ⟨g1, e1, d1⟩ := this
      obtain ⟨g2, e2, d2⟩ := ih g1 d1
      exact ⟨g2, by unfold runOps; rw [e1]; exact e2, d2⟩

end Gauche.Dispatch

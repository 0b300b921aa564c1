import Verif.Proof.DispatchTab
import Verif.Proof.DispatchCall
/-! A call through the dispatcher against a call without it. -/
namespace Gauche.Dispatch
open Spec

/-- The map holds, for every key, the methods that `P` tells. -/
def RepP (P : Method → Key → Prop) (F : TabMap) : Prop :=
  ∀ κ, (F κ).1.Nodup ∧ (∀ m, m ∈ (F κ).1 ↔ P m κ ∧ m.leaf = true) ∧ (∀ m, m ∈ (F κ).2 ↔ P m κ ∧ m.leaf = false)

theorem repP_ins {P : Method → Key → Prop} {F : TabMap} (h : RepP P F) (κ0 : Key) (m : Method) (hn : ¬ P m κ0) :
    RepP (fun x κ => P x κ ∨ (x = m ∧ κ = κ0)) (F.ins κ0 m) := by
  intro κ
  obtain ⟨h1, h2, h3⟩ := h κ
  unfold TabMap.ins
  by_cases hk : κ = κ0
  · subst hk
    rw [if_pos rfl]
    cases hl : m.leaf
    · simp only [Bool.false_eq_true, if_false]
      refine ⟨h1, fun x => ?_, fun x => ?_⟩
      · rw [h2]
        constructor
        · rintro ⟨a, b⟩; exact ⟨Or.inl a, b⟩
        · rintro ⟨a | a, b⟩
          · exact ⟨a, b⟩
          · rw [a.1, hl] at b; exact absurd b (by decide)
      · rw [List.mem_cons, h3]
        constructor
        · rintro (a | a)
          · exact ⟨Or.inr ⟨a, trivial⟩, a ▸ hl⟩
          · exact ⟨Or.inl a.1, a.2⟩
        · rintro ⟨a | a, b⟩
          · exact Or.inr ⟨a, b⟩
          · exact Or.inl a.1
    · simp only [if_true]
      refine ⟨?_, fun x => ?_, fun x => ?_⟩
      · rw [List.nodup_cons]
        exact ⟨fun hm => hn ((h2 m).1 hm).1, h1⟩
      · rw [List.mem_cons, h2]
        constructor
        · rintro (a | a)
          · exact ⟨Or.inr ⟨a, trivial⟩, a ▸ hl⟩
          · exact ⟨Or.inl a.1, a.2⟩
        · rintro ⟨a | a, b⟩
          · exact Or.inr ⟨a, b⟩
          · exact Or.inl a.1
      · rw [h3]
        constructor
        · rintro ⟨a, b⟩; exact ⟨Or.inl a, b⟩
        · rintro ⟨a | a, b⟩
          · exact ⟨a, b⟩
          · rw [a.1, hl] at b; exact absurd b (by decide)
  · rw [if_neg hk]
    simp only [hk, and_false, or_false]
    exact ⟨h1, h2, h3⟩

theorem repP_congr {P Q : Method → Key → Prop} {F : TabMap} (h : RepP P F) (he : ∀ m κ, P m κ ↔ Q m κ) : RepP Q F := by
  intro κ
  obtain ⟨h1, h2, h3⟩ := h κ
  exact ⟨h1, fun m => by rw [h2, he], fun m => by rw [h3, he]⟩

/-- The keys a method is put under. -/
def InKey (axis : Nat) (m : Method) (κ : Key) : Prop :=
  axis ≤ m.specs.length ∧ m.specs[axis]? = κ.1 ∧
    (if m.opt then m.specs.length ≤ κ.2 ∧ κ.2 < 4 else κ.2 = m.specs.length)

/-- The table is well-formed and holds the methods that `P` tells. -/
def TabHas (hf : HashFn) (h : MHash) (P : Method → Key → Prop) : Prop :=
  ∃ F, TabRep hf h F ∧ 4 ≤ h.bins.length ∧ RepP P F

theorem TabHas.congr {hf : HashFn} {h : MHash} {P Q : Method → Key → Prop} (ht : TabHas hf h P)
    (he : ∀ m κ, P m κ ↔ Q m κ) : TabHas hf h Q := by
  obtain ⟨F, h1, h2, h3⟩ := ht
  exact ⟨F, h1, h2, repP_congr h3 he⟩

theorem insert_has {hf : HashFn} {h : MHash} {P : Method → Key → Prop} (ht : TabHas hf h P) (κ : Key) (m : Method)
    (hn : ¬ P m κ) : ∃ h', mhashInsert hf h κ.1 κ.2 m = some h' ∧ TabHas hf h' (fun x κ' => P x κ' ∨ (x = m ∧ κ' = κ)) := by
  obtain ⟨F, h1, h2, h3⟩ := ht
  obtain ⟨h', a1, a2, a3⟩ := mhashInsert_spec h1 h2 κ m
  exact ⟨h', a1, _, a2, a3, repP_ins h3 κ m hn⟩

theorem forNargs_has {hf : HashFn} (k0 : Option Nat) (m : Method) : ∀ (n k : Nat) (h : MHash) (P : Method → Key → Prop),
    TabHas hf h P → (∀ κ, ¬ P m κ ∨ κ.2 < k) →
    ∃ h', forNargs (fun h k => mhashInsert hf h k0 k m) n k h = some h' ∧
      TabHas hf h' (fun x κ => P x κ ∨ (x = m ∧ κ.1 = k0 ∧ k ≤ κ.2 ∧ κ.2 < k + n)) := by
  intro n
  induction n with
  | zero =>
    intro k h P ht _
    refine ⟨h, rfl, ht.congr fun x κ => ?_⟩
    constructor
    · exact Or.inl
    · rintro (a | ⟨_, _, a, b⟩)
      · exact a
      · omega
  | succ n ih =>
    intro k h P ht hn
    unfold forNargs
    obtain ⟨h1, a1, a2⟩ := insert_has ht (k0, k) m (by
      rcases hn (k0, k) with h | h
      · exact h
      · exact absurd h (by simp))
    simp only [] at a1
    rw [a1]
    obtain ⟨h2, b1, b2⟩ := ih (k + 1) h1 _ a2 (by
      intro κ
      by_cases hκ : κ.2 < k + 1
      · exact Or.inr hκ
      · left
        rintro (a | ⟨_, a⟩)
        · rcases hn κ with h | h
          · exact h a
          · omega
        · rw [a] at hκ; simp at hκ)
    refine ⟨h2, b1, b2.congr fun x κ => ?_⟩
    constructor
    · rintro ((a | ⟨a, b⟩) | ⟨a, b, c, d⟩)
      · exact Or.inl a
      · subst b; exact Or.inr ⟨a, rfl, Nat.le_refl _, by simp⟩
      · exact Or.inr ⟨a, b, by omega, by omega⟩
    · rintro (a | ⟨a, b, c, d⟩)
      · exact Or.inl (Or.inl a)
      · by_cases hk : κ.2 = k
        · exact Or.inl (Or.inr ⟨a, Prod.ext b hk⟩)
        · exact Or.inr ⟨a, b, by omega, by omega⟩

theorem addTo_has {hf : HashFn} (axis : Nat) (h : MHash) (P : Method → Key → Prop) (m : Method) (ht : TabHas hf h P)
    (hn : ∀ κ, ¬ P m κ) :
    ∃ h', addToDispatcher hf axis h m = some h' ∧ TabHas hf h' (fun x κ => P x κ ∨ (x = m ∧ InKey axis m κ)) := by
  unfold addToDispatcher
  by_cases ha : axis ≤ m.specs.length
  · rw [if_pos ha]
    cases ho : m.opt
    · simp only [Bool.false_eq_true, if_false]
      obtain ⟨h', a1, a2⟩ := insert_has ht (specAt m axis, m.specs.length) m (hn _)
      refine ⟨h', a1, a2.congr fun x κ => ?_⟩
      unfold InKey
      simp only [ho, Bool.false_eq_true, if_false, ha, true_and]
      constructor
      · rintro (a | ⟨a, b⟩)
        · exact Or.inl a
        · subst b; exact Or.inr ⟨a, rfl, rfl⟩
      · rintro (a | ⟨a, b, c⟩)
        · exact Or.inl a
        · exact Or.inr ⟨a, Prod.ext b.symm c⟩
    · simp only [if_true]
      obtain ⟨h', a1, a2⟩ := forNargs_has (hf := hf) (specAt m axis) m (maxNargs - m.specs.length) m.specs.length h P ht
        (fun κ => Or.inl (hn κ))
      refine ⟨h', a1, a2.congr fun x κ => ?_⟩
      unfold InKey maxNargs
      simp only [ho, if_true, ha, true_and]
      constructor
      · rintro (a | ⟨a, b, c, d⟩)
        · exact Or.inl a
        · exact Or.inr ⟨a, b.symm, c, by omega⟩
      · rintro (a | ⟨a, b, c, d⟩)
        · exact Or.inl a
        · exact Or.inr ⟨a, b.symm, c, by omega⟩
  · rw [if_neg ha]
    refine ⟨h, rfl, ht.congr fun x κ => ?_⟩
    unfold InKey
    simp [ha]

theorem addAll_has {hf : HashFn} (axis : Nat) : ∀ (ms : List Method) (h : MHash) (P : Method → Key → Prop), TabHas hf h P →
    ms.Nodup → (∀ m ∈ ms, ∀ κ, ¬ P m κ) →
    ∃ h', addAll hf axis ms h = some h' ∧ TabHas hf h' (fun x κ => P x κ ∨ (x ∈ ms ∧ InKey axis x κ)) := by
  intro ms
  induction ms with
  | nil => intro h P ht _ _; exact ⟨h, rfl, ht.congr fun x κ => by simp⟩
  | cons m ms ih =>
    intro h P ht hnd hn
    rw [List.nodup_cons] at hnd
    unfold addAll
    obtain ⟨h1, a1, a2⟩ := addTo_has (hf := hf) axis h P m ht (hn m (by simp))
    rw [a1]
    obtain ⟨h2, b1, b2⟩ := ih h1 _ a2 hnd.2 (by
      intro x hx κ
      rintro (a | ⟨a, _⟩)
      · exact hn x (by simp [hx]) κ a
      · exact hnd.1 (a ▸ hx))
    refine ⟨h2, b1, b2.congr fun x κ => ?_⟩
    rw [List.mem_cons]
    constructor
    · rintro ((a | ⟨a, b⟩) | ⟨a, b⟩)
      · exact Or.inl a
      · subst a; exact Or.inr ⟨Or.inl rfl, b⟩
      · exact Or.inr ⟨Or.inr a, b⟩
    · rintro (a | ⟨a | a, b⟩)
      · exact Or.inl (Or.inl a)
      · subst a; exact Or.inl (Or.inr ⟨rfl, b⟩)
      · exact Or.inr ⟨a, b⟩

theorem empty_has (hf : HashFn) : TabHas hf (makeMHash 32) (fun _ _ => False) := by
  refine ⟨fun _ => ([], []), ?_, by simp [makeMHash], fun κ => by simp⟩
  refine { tabOk_empty hf 5 with count := ?_, load := by simp [makeMHash], val := ?_, dom := by simp }
  · rw [List.countP_eq_zero.2]
    · rfl
    · intro b hb
      simp only [makeMHash, List.mem_replicate] at hb
      simp [hb.2, isEntry]
  · intro e he
    simp [makeMHash] at he

theorem build_has (hf : HashFn) (ms : List Method) (axis : Nat) (hn : ms.Nodup) :
    ∃ h, buildDispatcher hf ms axis = some { axis := axis, hash := h } ∧
      TabHas hf h (fun x κ => x ∈ ms ∧ InKey axis x κ) := by
  unfold buildDispatcher
  obtain ⟨h1, a1, a2⟩ := addAll_has (hf := hf) axis (ms.filter fun m => m.leaf) (makeMHash 32) _ (empty_has hf)
    (hn.filter _) (fun _ _ _ h => h)
  rw [a1]
  obtain ⟨h2, b1, b2⟩ := addAll_has (hf := hf) axis (ms.filter fun m => !m.leaf) h1 _ a2 (hn.filter _) (by
    intro m hm κ h
    simp at hm h
    rw [hm.2] at h
    exact absurd h.1.2 (by decide))
  simp only [Option.bind_some]
  rw [b1]
  refine ⟨h2, rfl, b2.congr fun x κ => ?_⟩
  simp only [List.mem_filter, false_or]
  cases x.leaf <;> simp

/-- The dispatcher of the generic function holds its methods. -/
def DispOk (hf : HashFn) (gf : GF) : Prop :=
  ∃ h, gf.dispatcher = some { axis := 0, hash := h } ∧ TabHas hf h (fun x κ => x ∈ gf.methods ∧ InKey 0 x κ)

/-- The generic function without its dispatcher. -/
def GF.plain (gf : GF) : GF := { gf with dispatcher := none }

/-- Adding a method of a new signature. -/
theorem addMethod_disp {hf : HashFn} {gf : GF} (hd : DispOk hf gf) (m : Method)
    (hnew : ∀ x ∈ gf.methods, ¬ SameSig m x) :
    ∃ gf', addMethod hf gf m = some gf' ∧ DispOk hf gf' ∧ addMethod hf gf.plain m = some gf'.plain := by
  obtain ⟨h, e, ht⟩ := hd
  have hm : m ∉ gf.methods := fun hm => hnew m hm (sameSig_refl m)
  have hfs : findSameSig m gf.methods = none := by
    have := findSameSig_spec m gf.methods
    cases hc : findSameSig m gf.methods with
    | none => rfl
    | some y => rw [hc] at this; exact absurd this.2 (hnew y this.1)
  obtain ⟨h', a1, a2⟩ := addTo_has (hf := hf) 0 h _ m ht (fun κ hp => hm hp.1)
  unfold addMethod GF.plain
  rw [if_neg hm, hfs, e]
  simp only [a1, Option.map_some]
  refine ⟨_, rfl, ⟨h', rfl, a2.congr fun x κ => ?_⟩, ?_⟩
  · simp only [List.mem_cons]
    constructor
    · rintro (a | ⟨a, b⟩)
      · exact ⟨Or.inr a.1, a.2⟩
      · subst a; exact ⟨Or.inl rfl, b⟩
    · rintro ⟨a | a, b⟩
      · subst a; exact Or.inr ⟨rfl, b⟩
      · exact Or.inl ⟨a, b⟩
  · rw [if_neg hm]

/-- The heads of the two orders agree. -/
theorem head_eq {w : World} {c : Nat} {as : List Nat} {A A' L L' : List Method}
    (hsub : ∀ x, x ∈ A' ↔ x ∈ A ∧ x.specs[0]? = some c)
    (hp : L.Perm A) (hp' : L'.Perm A') (hs : L.Pairwise (MoreSpecific w (c :: as)))
    (hs' : L'.Pairwise (MoreSpecific w (c :: as))) (hne : A' ≠ []) :
    ∃ m l l', L = m :: l ∧ L' = m :: l' ∧ m ∈ A' := by
  cases L' with
  | nil => exact absurd (hp'.symm.eq_nil) hne
  | cons y l' =>
    have hy : y ∈ A' := hp'.mem_iff.1 (by simp)
    cases L with
    | nil => exact absurd (hp.symm.mem_iff.1 ((hsub y).1 hy).1) (by simp)
    | cons x l =>
      have hx : x ∈ A := hp.mem_iff.1 (by simp)
      rw [List.pairwise_cons] at hs hs'
      have hxy : x = y := by
        by_contra hne'
        have hyl : y ∈ l := by
          have := hp.symm.mem_iff.1 ((hsub y).1 hy).1
          exact (List.mem_cons.1 this).resolve_left (Ne.symm hne')
        have hms := hs.1 y hyl
        have hy0 := ((hsub y).1 hy).2
        have hx0 : x.specs[0]? = some c := by
          rcases hms with ⟨i, s, t, d, a1, a2, a3, a4, a5⟩ | ⟨r, _, a2⟩ | ⟨a1, _⟩
          · cases i with
            | zero =>
              rw [hy0] at a3
              simp at a4
              cases a3
              subst a4
              obtain ⟨pre, post, b1, b2, b3⟩ := a5
              cases pre with
              | nil => simp at b1; exact absurd b1.1 b3
              | cons p pre => simp at b1 b2; exact absurd b1.1 b2.1
            | succ i => rw [take_getElem? a1 (by omega), hy0]
          · rw [a2, List.getElem?_append_left (List.getElem?_eq_some_iff.1 hy0).1, hy0]
          · rw [a1, hy0]
        have hxA : x ∈ A' := (hsub x).2 ⟨hx, hx0⟩
        have hxl : x ∈ l' := (List.mem_cons.1 (hp'.symm.mem_iff.1 hxA)).resolve_left hne'
        exact moreSpecific_irrefl w _ x (moreSpecific_trans w _ x y x hms (hs'.1 x hxl))
      subst hxy
      exact ⟨x, l, l', rfl, rfl, hy⟩

/-- The methods a call looks at. -/
def pick (ms : List Method) : Option (List Method) → List Method
  | some (m :: l) => m :: l
  | _ => ms

/-- A call through the dispatcher. -/
theorem call_disp (hf : HashFn) (w : World) (gf : GF) (c : Nat) (as : List Nat) (hok : GFOk gf) (hd : DispOk hf gf)
    (hb : ∀ x ∈ c :: as, x ≠ w.bottom) (hcap : gf.maxReqargs < 32)
    (h4 : (c :: as).length ≠ 4 ∨ ∀ m ∈ gf.methods, m.opt = false)
    (hit : (∃ m ∈ gf.methods, m.specs[0]? = some c ∧ Accepts m (c :: as).length) →
      ∃ m ∈ gf.methods, m.specs[0]? = some c ∧ m.placeholder = false ∧ Applicable w m (c :: as)) :
    callGeneric hf w gf (c :: as) none = callGeneric hf w gf.plain (c :: as) none := by
  have hokp : GFOk gf.plain := ⟨hok.distinct, hok.req⟩
  have hplain := computeApplicable_spec hf w gf.plain (c :: as) hokp hb (Or.inl hcap) rfl
  have hA : (applicableOf w (c :: as) gf.methods).Pairwise (fun a b => ¬ SameSig a b) :=
    hok.distinct.sublist List.filter_sublist
  have hsel : ∀ ms : List Method, (∀ m ∈ ms, m ∈ gf.methods) →
      selectMethods w ((c :: as).take (gf.maxReqargs + 1)) (c :: as).length ms = some (applicableOf w (c :: as) ms) :=
    fun ms hms => selectMethods_spec w _ (c :: as) hb ms (fun m hm i hi _ => by
      rw [List.getElem?_take, if_pos (by have := hok.req m (hms m hm); omega)])
  obtain ⟨L, p, s, hcall⟩ := callGeneric_of hf w gf.plain (c :: as) _ hplain hA (fun m hm => (mem_applicableOf.1 hm).2.2)
  -- the case where the dispatcher is not used
  have hsame : computeApplicable hf w gf (c :: as) none = some (applicableOf w (c :: as) gf.methods) →
      callGeneric hf w gf (c :: as) none = callGeneric hf w gf.plain (c :: as) none := by
    intro h
    unfold callGeneric
    rw [h, hplain]
    rfl
  obtain ⟨h, e, F, ht, hlen, hP⟩ := hd
  by_cases h0 : gf.methods = []
  · apply hsame
    unfold computeApplicable
    rw [if_pos h0, h0]; rfl
  · by_cases hn : (c :: as).length ≤ maxNargs ∧ 1 ≤ (c :: as).length
    · obtain ⟨r, r1, r2, r3⟩ := mhashProbe_spec ht (some c, (c :: as).length)
      have hlk : dispatcherLookup hf { axis := 0, hash := h } ((c :: as).take (gf.maxReqargs + 1)) (c :: as).length = some r := by
        unfold dispatcherLookup
        rw [if_pos (Nat.zero_le _)]
        simpa using r1
      have hcomp : ∀ ms : List Method, pick gf.methods r = ms →
          (∀ m ∈ ms, m ∈ gf.methods) → computeApplicable hf w gf (c :: as) none = some (applicableOf w (c :: as) ms) := by
        intro ms hms hsubm
        unfold computeApplicable
        rw [if_neg h0, typev_spec gf (c :: as) (Or.inl hcap), e]
        simp only [Option.bind_some]
        rw [if_pos hn, hlk]
        simp only [Option.map_some, Option.bind_some]
        rw [← hsel ms hsubm, ← hms]
        cases r with
        | none => rfl
        | some l => cases l <;> rfl
      cases hr : r with
      | none => exact hsame (hcomp gf.methods (by rw [hr]; rfl) (fun _ h => h))
      | some l =>
        cases l with
        | nil => exact hsame (hcomp gf.methods (by rw [hr]; rfl) (fun _ h => h))
        | cons m0 ms0 =>
          have hFκ := r2 m0 ms0 hr
          obtain ⟨q1, q2, q3⟩ := hP (some c, (c :: as).length)
          rw [hFκ] at q1 q2 q3
          simp only [] at q1 q2 q3
          have hin : ∀ m ∈ m0 :: ms0, m ∈ gf.methods := fun m hm => ((q2 m).1 hm).1.1
          have hc' := hcomp (m0 :: ms0) (by rw [hr]; rfl) hin
          have hkey : ∀ m, m ∈ gf.methods → m.specs[0]? = some c → Accepts m (c :: as).length →
              InKey 0 m (some c, (c :: as).length) := by
            intro m hm h1 h2
            refine ⟨Nat.zero_le _, h1, ?_⟩
            unfold Accepts at h2
            cases ho : m.opt
            · rw [ho] at h2; simpa using h2.symm
            · rw [ho] at h2
              simp only [if_true] at h2 ⊢
              refine ⟨h2, ?_⟩
              rcases h4 with h4 | h4
              · unfold maxNargs at hn; omega
              · rw [h4 m hm] at ho; exact absurd ho (by decide)
          have hleaf : ∀ m, m ∈ gf.methods → m.specs[0]? = some c → Accepts m (c :: as).length → m ∈ m0 :: ms0 := by
            intro m hm h1 h2
            cases hl : m.leaf
            · exact absurd ((q3 m).2 ⟨⟨hm, hkey m hm h1 h2⟩, hl⟩) (by simp)
            · exact (q2 m).2 ⟨⟨hm, hkey m hm h1 h2⟩, hl⟩
          have hsub : ∀ x, x ∈ applicableOf w (c :: as) (m0 :: ms0) ↔
              x ∈ applicableOf w (c :: as) gf.methods ∧ x.specs[0]? = some c := by
            intro x
            rw [mem_applicableOf, mem_applicableOf]
            constructor
            · rintro ⟨a1, a2, a3⟩
              exact ⟨⟨hin x a1, a2, a3⟩, ((q2 x).1 a1).1.2.2.1⟩
            · rintro ⟨⟨a1, a2, a3⟩, a4⟩
              exact ⟨hleaf x a1 a4 a3.1, a2, a3⟩
          have hdist : (m0 :: ms0).Pairwise (fun a b => ¬ SameSig a b) := by
            rw [List.pairwise_iff_getElem]
            intro i j hi hj hij
            exact hok.uniq (hin _ (List.getElem_mem _)) (hin _ (List.getElem_mem _))
              (fun he => by have := (List.Nodup.getElem_inj_iff q1).1 he; omega)
          obtain ⟨L', p', s', hcall'⟩ := callGeneric_of hf w gf (c :: as) _ hc' (hdist.sublist List.filter_sublist)
            (fun m hm => (mem_applicableOf.1 hm).2.2)
          have hne : applicableOf w (c :: as) (m0 :: ms0) ≠ [] := by
            have hacc : Accepts m0 (c :: as).length := by
              have hk := ((q2 m0).1 (by simp)).1.2.2.2
              unfold Accepts
              cases ho : m0.opt
              · rw [ho] at hk; simpa using hk.symm
              · rw [ho] at hk; simpa using hk.1
            obtain ⟨m, a1, a2, a3, a4⟩ := hit ⟨m0, hin m0 (by simp), ((q2 m0).1 (by simp)).1.2.2.1, hacc⟩
            intro h0
            have : m ∈ applicableOf w (c :: as) (m0 :: ms0) := (hsub m).2 ⟨mem_applicableOf.2 ⟨a1, a3, a4⟩, a2⟩
            rw [h0] at this
            simp at this
          obtain ⟨m, l, l', e1, e2, e3⟩ := head_eq hsub p p' s s' hne
          have hml : m.leaf = true := ((q2 m).1 (mem_applicableOf.1 e3).1).2
          rw [hcall', hcall, e1, e2]
          simp [outcomeOf, makeNext, hml]
    · apply hsame
      unfold computeApplicable
      rw [if_neg h0, typev_spec gf (c :: as) (Or.inl hcap), e]
      simp only [Option.bind_some]
      rw [if_neg hn]
      exact hsel gf.methods (fun _ h => h)

theorem callChain_congr (hf : HashFn) (w : World) (gf gf' : GF) (args : List Nat)
    (h : callGeneric hf w gf args none = callGeneric hf w gf' args none) :
    ∀ i, callChain hf w gf args i = callChain hf w gf' args i := by
  intro i
  induction i with
  | zero => exact h
  | succ i ih => unfold callChain; rw [ih]

end Gauche.Dispatch

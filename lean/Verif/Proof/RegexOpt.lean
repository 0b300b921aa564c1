import Verif.Proof.RegexCode

/-!
# The optimizer keeps the first way
-/

namespace Gauche.Regex

open Gauche.Utf8 Gauche.Spec.Utf8 Spec

section
variable {cfg : Cfg}

/-! ## lists of ways that cannot be told apart -/

/-- The same first success, whatever follows. -/
def Eqv (W V : St → List St) : Prop :=
  ∀ (st : St) (κ : St → Option St), (W st).findSome? κ = (V st).findSome? κ

theorem findSome?_ext {α β : Type} {l : List α} {f g : α → Option β} (h : ∀ a ∈ l, f a = g a) :
    l.findSome? f = l.findSome? g := by
  induction l with
  | nil => rfl
  | cons a l ih =>
    rw [List.findSome?_cons, List.findSome?_cons, h a (by simp), ih fun b hb => h b (by simp [hb])]

theorem findSome?_filter' {l : List St} {p : St → Bool} {κ : St → Option St} :
    (l.filter p).findSome? κ = l.findSome? fun t => if p t then κ t else none := by
  induction l with
  | nil => rfl
  | cons a l ih =>
    by_cases h : p a = true
    · rw [List.filter_cons_of_pos h, List.findSome?_cons, List.findSome?_cons, if_pos h, ih]
    · rw [List.filter_cons_of_neg h, List.findSome?_cons, if_neg h, ih]

theorem Eqv.comp {W W' V V' : St → List St} (h : Eqv W W') (h' : Eqv V V') :
    Eqv (fun st => (W st).flatMap V) (fun st => (W' st).flatMap V') := by
  intro st κ
  rw [findSome?_flatMap', findSome?_flatMap', h st]
  exact findSome?_ext fun t _ => h' t κ

theorem Eqv.iter {f g : St → List St} (h : Eqv f g) (k : Nat) : Eqv (iter f k) (iter g k) := by
  induction k with
  | zero => intro st κ; rfl
  | succ k ih => exact h.comp ih

theorem Eqv.star {f g : St → List St} (h : Eqv f g) (n : Nat) : Eqv (star f n) (star g n) := by
  induction n with
  | zero => intro st κ; rfl
  | succ n ih =>
    intro st κ
    simp only [Spec.star]
    rw [List.findSome?_append, List.findSome?_append, findSome?_flatMap', findSome?_flatMap',
      findSome?_filter', findSome?_filter', h st]
    congr 1
    exact findSome?_ext fun t _ => by rw [ih t κ]

theorem Eqv.starLazy {f g : St → List St} (h : Eqv f g) (n : Nat) :
    Eqv (starLazy f n) (starLazy g n) := by
  induction n with
  | zero => intro st κ; rfl
  | succ n ih =>
    intro st κ
    simp only [Spec.starLazy]
    rw [List.findSome?_cons, List.findSome?_cons, findSome?_flatMap', findSome?_flatMap',
      findSome?_filter', findSome?_filter', h st]
    have : (g st).findSome? (fun t => if decide (st.pos < t.pos) = true
        then (Spec.starLazy f n t).findSome? κ else none) =
      (g st).findSome? (fun t => if decide (st.pos < t.pos) = true
        then (Spec.starLazy g n t).findSome? κ else none) :=
      findSome?_ext fun t _ => by rw [ih t κ]
    rw [this]

theorem Eqv.upTo {f g : St → List St} (h : Eqv f g) (n : Nat) : Eqv (upTo f n) (upTo g n) := by
  intro st κ
  simp only [Spec.upTo]
  rw [findSome?_flatMap', findSome?_flatMap']
  exact findSome?_ext fun k _ => h.iter k st κ

theorem Eqv.upToLazy {f g : St → List St} (h : Eqv f g) (n : Nat) :
    Eqv (upToLazy f n) (upToLazy g n) := by
  intro st κ
  simp only [Spec.upToLazy]
  rw [findSome?_flatMap', findSome?_flatMap']
  exact findSome?_ext fun k _ => h.iter k st κ

theorem Eqv.repW {f g : St → List St} (h : Eqv f g) (lazy : Bool) (m : Nat) (n : Option Nat) :
    Eqv (repW cfg lazy f m n) (repW cfg lazy g m n) := by
  refine (h.iter m).comp ?_
  intro t κ
  cases n with
  | some n =>
    cases lazy with
    | true => exact h.upToLazy _ t κ
    | false => exact h.upTo _ t κ
  | none =>
    cases lazy with
    | true => exact h.starLazy _ t κ
    | false => exact h.star _ t κ

theorem head?_eq (l : List St) : l.head? = l.findSome? some := by cases l <;> rfl

theorem findSome?_take_one {l : List St} {κ : St → Option St} :
    (l.take 1).findSome? κ = l.head?.bind κ := by
  cases l with
  | nil => rfl
  | cons a l =>
    simp only [List.take_succ_cons, List.take_zero, List.findSome?_cons, List.head?_cons,
      Option.bind_some]
    cases κ a <;> rfl

theorem findSome?_total {l : List St} {κ : St → Option St} (h : ∀ t, κ t ≠ none) :
    l.findSome? κ = l.head?.bind κ := by
  cases l with
  | nil => rfl
  | cons a l =>
    rw [List.findSome?_cons]
    simp only [List.head?_cons, Option.bind_some]
    cases hk : κ a with
    | none => exact absurd hk (h a)
    | some y => rfl

/-- Scanning is enough if what follows cannot begin with such a character. -/
theorem star_take (P : Nat → Bool) {κ : St → Option St}
    (h : ∀ t c, cfg.text[t.pos]? = some c → P c = true → κ t = none) (n : Nat) (st : St) :
    ((star (one cfg P) n st).take 1).findSome? κ = (star (one cfg P) n st).findSome? κ := by
  induction n generalizing st with
  | zero => rfl
  | succ n ih =>
    simp only [star, one]
    cases ht : cfg.text[st.pos]? with
    | none => rfl
    | some x =>
      dsimp only
      by_cases hp : P x = true
      · rw [if_pos hp]
        have e : ([{ st with pos := st.pos + 1 }].filter fun t => decide (st.pos < t.pos)) =
            [{ st with pos := st.pos + 1 }] := by simp
        rw [e]
        simp only [List.flatMap_cons, List.flatMap_nil, List.append_nil]
        have ih := ih { st with pos := st.pos + 1 }
        rw [List.findSome?_append]
        have hk : [st].findSome? κ = none := by
          rw [List.findSome?_cons, h st x ht hp]; rfl
        rw [hk, Option.or_none, ← ih]
        cases hs : star (one cfg P) n { st with pos := st.pos + 1 } with
        | nil =>
          have := star_one_take (cfg := cfg) P n { st with pos := st.pos + 1 }
          rw [hs] at this; simp at this
        | cons a l => rfl
      · rw [if_neg hp]; rfl

theorem waysSeq_append (a b : List Ast) (fold last : Bool) (st : St) :
    waysSeq cfg (a ++ b) fold last st =
      (waysSeq cfg a fold (last && b.isEmpty) st).flatMap (waysSeq cfg b fold last) := by
  induction a generalizing st with
  | nil => simp [waysSeq]
  | cons x a ih =>
    simp only [List.cons_append, waysSeq]
    rw [List.flatMap_assoc]
    have : (last && (a ++ b).isEmpty) = (last && b.isEmpty && a.isEmpty) := by
      cases last <;> cases a <;> cases b <;> rfl
    rw [this]
    exact flatMap_ext fun t _ => ih t

/-! ## heads -/

/-- What a character or a set matches. -/
def fitsHead : Ast → Nat → Prop
  | .char d, c => c = d
  | .cset s, c => inSet s c = true
  | .comp s, c => inSet s c = false
  | _, _ => True

/-- The sets of a head are known. -/
def headIn (A B : List CSet) : Ast → Prop
  | .cset t => t ∈ B
  | .comp s => s ∈ A
  | _ => True

/-- The head of an item describes how it begins. -/
def HeadOK (cfg : Cfg) (A B : List CSet) (y : Ast) : Prop :=
  ∀ h, headOf y = some h → headIn A B h ∧
    ∀ last st t, t ∈ ways cfg y false last st → ∃ c, cfg.text[st.pos]? = some c ∧ fitsHead h c

theorem one_mem {P : Nat → Bool} {st t : St} (h : t ∈ one cfg P st) :
    ∃ c, cfg.text[st.pos]? = some c ∧ P c = true := by
  unfold one at h
  cases ht : cfg.text[st.pos]? with
  | none => rw [ht] at h; simp at h
  | some c =>
    rw [ht] at h
    dsimp only at h
    by_cases hp : P c = true
    · exact ⟨c, rfl, hp⟩
    · rw [if_neg hp] at h; simp at h

theorem headOK_none {A B : List CSet} {y : Ast} (h : headOf y = none) : HeadOK cfg A B y := by
  intro a ha; rw [h] at ha; cases ha

theorem headOK_group {A B : List CSet} {g : Nat} {l : List Ast}
    (h : ∀ y ∈ l, HeadOK cfg A B y) : HeadOK cfg A B (.group g l) := by
  cases l with
  | nil => exact headOK_none (by simp [headOf])
  | cons x l =>
    intro a ha
    simp only [headOf] at ha
    obtain ⟨h1, h2⟩ := h x (by simp) a ha
    refine ⟨h1, ?_⟩
    intro last st t ht
    simp only [ways] at ht
    obtain ⟨u, hu, _⟩ := List.mem_map.1 ht
    simp only [waysSeq] at hu
    obtain ⟨v, hv, _⟩ := List.mem_flatMap.1 hu
    exact h2 _ st v hv

mutual
theorem headOK_opt {A B : List CSet} : ∀ (a : Ast) (rest : List Ast) (tail : Bool),
    plain tail a = true → (∀ s ∈ setsIn true a, s ∈ A) → (∀ s ∈ setsIn false a, s ∈ B) →
    HeadOK cfg A B (optimize rest a)
  | .char c, _, _, _, _, _ => by
    intro h hh
    simp only [optimize, headOf] at hh
    injection hh with hh; subst hh
    refine ⟨trivial, fun last st t ht => ?_⟩
    simp only [optimize, ways] at ht
    obtain ⟨x, hx, hp⟩ := one_mem ht
    exact ⟨x, hx, by simpa [fitsHead] using hp⟩
  | .cset s, _, _, _, _, hB => by
    intro h hh
    simp only [optimize, headOf] at hh
    injection hh with hh; subst hh
    refine ⟨hB s (by simp [setsIn]), fun last st t ht => ?_⟩
    simp only [optimize, ways] at ht
    obtain ⟨x, hx, hp⟩ := one_mem ht
    exact ⟨x, hx, hp⟩
  | .comp s, _, _, _, hA, _ => by
    intro h hh
    simp only [optimize, headOf] at hh
    injection hh with hh; subst hh
    refine ⟨hA s (by simp [setsIn]), fun last st t ht => ?_⟩
    simp only [optimize, ways] at ht
    obtain ⟨x, hx, hp⟩ := one_mem ht
    exact ⟨x, hx, by simpa [fitsHead] using hp⟩
  | .group g l, rest, tail, h, hA, hB => by
    simp only [plain] at h
    simp only [setsIn] at hA hB
    simp only [optimize]
    exact headOK_group (headOK_optSeq l rest tail h hA hB)
  | .uncase _, _, _, h, _, _ => by simp [plain] at h
  | .case_ _, _, _, h, _, _ => by simp [plain] at h
  | .any, _, _, _, _, _ => headOK_none (by simp [optimize, headOf])
  | .bos, _, _, _, _, _ => headOK_none (by simp [optimize, headOf])
  | .eos, _, _, _, _, _ => headOK_none (by simp [optimize, headOf])
  | .bol, _, _, _, _, _ => headOK_none (by simp [optimize, headOf])
  | .eol, _, _, _, _, _ => headOK_none (by simp [optimize, headOf])
  | .wb, _, _, _, _, _ => headOK_none (by simp [optimize, headOf])
  | .nwb, _, _, _, _, _ => headOK_none (by simp [optimize, headOf])
  | .bow, _, _, _, _, _ => headOK_none (by simp [optimize, headOf])
  | .eow, _, _, _, _, _ => headOK_none (by simp [optimize, headOf])
  | .seq _, _, _, _, _, _ => headOK_none (by simp [optimize, headOf])
  | .alt _, _, _, _, _, _ => headOK_none (by simp [optimize, headOf])
  | .rep _ _ _ _, _, _, _, _, _ => headOK_none (by simp [optimize, headOf])
  | .backref _, _, _, _, _, _ => headOK_none (by simp [optimize, headOf])
  | .once _, _, _, _, _, _ => headOK_none (by simp [optimize, headOf])
  | .assert _, _, _, _, _, _ => headOK_none (by simp [optimize, headOf])
  | .nassert _, _, _, _, _, _ => headOK_none (by simp [optimize, headOf])
theorem headOK_optSeq {A B : List CSet} : ∀ (l : List Ast) (rest : List Ast) (tail : Bool),
    plainSeq tail l = true → (∀ s ∈ setsIns true l, s ∈ A) → (∀ s ∈ setsIns false l, s ∈ B) →
    ∀ y ∈ optimizeSeq rest l, HeadOK cfg A B y
  | [], _, _, _, _, _ => by simp [optimizeSeq]
  | a :: s, rest, tail, h, hA, hB => by
    simp only [plainSeq, Bool.and_eq_true] at h
    obtain ⟨⟨_, h1⟩, h2⟩ := h
    simp only [setsIns, List.mem_append] at hA hB
    have hs := headOK_optSeq s rest tail h2 (fun x hx => hA x (Or.inr hx))
      (fun x hx => hB x (Or.inr hx))
    have ha := fun r => headOK_opt a r _ h1 (fun x hx => hA x (Or.inl hx))
      (fun x hx => hB x (Or.inl hx))
    cases a with
    | seq l =>
      simp only [optimizeSeq]
      intro y hy
      rcases List.mem_append.1 hy with hy | hy
      · simp only [plain] at h1
        simp only [setsIn] at hA hB
        exact headOK_optSeq l _ _ h1 (fun x hx => hA x (Or.inl hx)) (fun x hx => hB x (Or.inl hx)) y hy
      · exact hs y hy
    | rep k m n l =>
      cases k with
      | greedy =>
        simp only [optimizeSeq]
        intro y hy
        have hrep : ∀ k b, HeadOK cfg A B (.rep k m n b) := fun k b => headOK_none (by simp [headOf])
        generalize hb : optimizeSeq (if (optimizeSeq rest s).isEmpty = true then rest
          else optimizeSeq rest s) l = body at hy
        generalize hr : (if (optimizeSeq rest s).isEmpty = true then rest
          else optimizeSeq rest s) = rest' at hy
        cases body with
        | nil => exact hs y hy
        | cons x body =>
          cases rest' with
          | nil =>
            rcases List.mem_cons.1 hy with rfl | hy
            · exact hrep _ _
            · exact hs y hy
          | cons z rest' =>
            dsimp only at hy
            by_cases hd : isDistinct x z = true
            · rw [if_pos hd] at hy
              rcases List.mem_cons.1 hy with rfl | hy
              · exact hrep _ _
              · exact hs y hy
            · rw [if_neg hd] at hy
              rcases List.mem_cons.1 hy with rfl | hy
              · exact hrep _ _
              · exact hs y hy
      | _ =>
        simp only [optimizeSeq]
        intro y hy
        rcases List.mem_cons.1 hy with rfl | hy
        · exact ha _
        · exact hs y hy
    | _ =>
      simp only [optimizeSeq]
      intro y hy
      rcases List.mem_cons.1 hy with rfl | hy
      · exact ha _
      · exact hs y hy
end

/-- Sets that are separated. -/
def Sep (A B : List CSet) : Prop :=
  ∀ s ∈ A, ∀ t ∈ B,
    (∀ c, inSet s c = true → inSet t c = false) ∨ (∀ c, inSet t c = true → inSet s c = true)

theorem disjoint_spec {s t : CSet} (h : s.disjoint t = true) {c : Nat} (hs : inSet s c = true) :
    inSet t c = false := by
  unfold CSet.disjoint at h
  unfold inSet at hs ⊢
  rw [List.all_eq_true] at h
  rw [List.any_eq_true] at hs
  obtain ⟨r, hr, hc⟩ := hs
  rw [List.any_eq_false]
  intro q hq
  have := List.all_eq_true.1 (h r hr) q hq
  simp at this hc ⊢
  omega

theorem distinct_spec {A B : List CSet} (hsep : Sep A B) {x y : Ast} (h : distinctHeads x y = true)
    (hx : headIn A B x) (hy : headIn A B y) {c : Nat} (h1 : fitsHead x c) (h2 : fitsHead y c) :
    False := by
  cases x <;> cases y <;> simp only [distinctHeads, distinctComp, distinctAtom] at h <;>
    try (cases h; done)
  case char.char a b => simp [fitsHead] at *; omega
  case char.cset a s =>
    simp only [fitsHead] at h1 h2; subst h1
    rw [inSet_eq] at h2; simp [h2] at h
  case char.comp a s =>
    simp only [fitsHead] at h1 h2; subst h1
    rw [inSet_eq] at h2; simp [h2] at h
  case cset.char s a =>
    simp only [fitsHead] at h1 h2; subst h2
    rw [inSet_eq] at h1; simp [h1] at h
  case cset.cset s t =>
    simp only [fitsHead] at h1 h2
    rw [disjoint_spec h h1] at h2; cases h2
  case cset.comp t s =>
    simp only [fitsHead] at h1 h2
    rcases hsep s hy t hx with hd | hd
    · have hdis : s.disjoint t = true := by
        unfold CSet.disjoint
        rw [List.all_eq_true]
        intro r hr
        rw [List.all_eq_true]
        intro q hq
        by_cases e1 : r.2 < r.1
        · simp [e1]
        by_cases e2 : q.2 < q.1
        · simp [e2]
        by_cases e3 : r.2 < q.1
        · simp [e3]
        by_cases e4 : q.2 < r.1
        · simp [e4]
        -- they meet at the larger of the two lower ends
        have m1 : inSet s (max r.1 q.1) = true := by
          unfold inSet
          rw [List.any_eq_true]
          exact ⟨r, hr, by simp; omega⟩
        have m2 : inSet t (max r.1 q.1) = true := by
          unfold inSet
          rw [List.any_eq_true]
          exact ⟨q, hq, by simp; omega⟩
        rw [hd _ m1] at m2; cases m2
      simp [hdis] at h
    · rw [hd c h1] at h2; cases h2
  case comp.char s a =>
    simp only [fitsHead] at h1 h2; subst h2
    rw [inSet_eq] at h1; simp [h1] at h
  case comp.cset s t =>
    simp only [fitsHead] at h1 h2
    rcases hsep s hx t hy with hd | hd
    · have hdis : s.disjoint t = true := by
        unfold CSet.disjoint
        rw [List.all_eq_true]
        intro r hr
        rw [List.all_eq_true]
        intro q hq
        by_cases e1 : r.2 < r.1
        · simp [e1]
        by_cases e2 : q.2 < q.1
        · simp [e2]
        by_cases e3 : r.2 < q.1
        · simp [e3]
        by_cases e4 : q.2 < r.1
        · simp [e4]
        have m1 : inSet s (max r.1 q.1) = true := by
          unfold inSet
          rw [List.any_eq_true]
          exact ⟨r, hr, by simp; omega⟩
        have m2 : inSet t (max r.1 q.1) = true := by
          unfold inSet
          rw [List.any_eq_true]
          exact ⟨q, hq, by simp; omega⟩
        rw [hd _ m1] at m2; cases m2
      simp [hdis] at h
    · rw [hd c h2] at h1; cases h1

end
end Gauche.Regex

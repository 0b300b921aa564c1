import Verif.Proof.C3
/-
C30: monotonic merge and class precedence lists.  Specification of "an order compatible with the sequences":
`Verif.Spec.Linear`.
-/
namespace Gauche.C3
open Gauche.Linear

section
variable {α : Type} [DecidableEq α]

/-- Any duplicate-free list that has all sequences as sublists can be cut down to their elements. -/
theorem linear_of_sublists {seqs : List (List α)} {r : List α} (hn : r.Nodup) (h : ∀ s ∈ seqs, s.Sublist r) :
    ∃ q, Linear seqs q := by
  refine ⟨r.filter fun x => decide (x ∈ seqs.flatten), hn.filter _, fun s hs => ?_, fun x hx => ?_⟩
  · have : s.filter (fun x => decide (x ∈ seqs.flatten)) = s := by
      rw [List.filter_eq_self]
      intro y hy
      simp only [List.mem_flatten, decide_eq_true_eq]
      exact ⟨s, hs, hy⟩
    rw [← this]
    exact (h s hs).filter _
  · have := (List.mem_filter.1 hx).2
    simp only [List.mem_flatten, decide_eq_true_eq] at this
    exact this

/-- **C30.**  `monotonic-merge` always terminates.  Its result contains exactly the elements of the sequences, each
once, in an order that agrees with every sequence; it returns `#f` only if there is no such order, not even
one with further elements. -/
theorem C30_merge (isF : α → Bool) (seqs : List (List α)) (hF : ∀ s ∈ seqs, ∀ x ∈ s, isF x = false) :
    ∃ o, merge isF seqs = some o ∧
      match o with
      | some r => Linear seqs r
      | none => ¬ ∃ r : List α, r.Nodup ∧ ∀ s ∈ seqs, s.Sublist r := by
  obtain ⟨o, ho⟩ := mergeLoop_total isF (seqs.flatten.length + 1) seqs [] (Nat.lt_succ_self _)
  refine ⟨o, ho, ?_⟩
  cases o with
  | some r =>
    obtain ⟨q, hq, hl⟩ := mergeLoop_sound isF _ _ _ _ ho
    simp only [List.reverse_nil, List.nil_append] at hq
    rw [hq]; exact hl
  | none =>
    rintro ⟨r, hn, hs⟩
    obtain ⟨q, hq⟩ := linear_of_sublists hn hs
    obtain ⟨r', hr'⟩ := mergeLoop_complete isF (seqs.flatten.length + 1) seqs [] q (Nat.lt_succ_self _) hF hq
    rw [hr'] at ho; cases ho

/-- **C30, the order chosen.**  Every element of the result is, at its place, the first remaining element of some
sequence, may come there, and no earlier sequence has a first remaining element that may come there. -/
theorem C30_merge_choice (isF : α → Bool) (seqs : List (List α)) (pre post : List α) (x : α)
    (h : merge isF seqs = some (some (pre ++ x :: post))) :
    ∃ a s b, seqs = a ++ s :: b ∧ firstNotIn pre s = some x ∧ Free seqs pre x ∧
      ∀ s' ∈ a, ∀ y, firstNotIn pre s' = some y → ¬ Free seqs pre y := by
  have hrem : seqs.map (rem []) = seqs := by
    conv_rhs => rw [← List.map_id seqs]
    refine List.map_congr_left fun s _ => ?_
    unfold rem
    cases s <;> simp
  refine mergeLoop_greedy isF seqs (seqs.flatten.length + 1) [] _ ?_ (by simp) pre x post rfl (by simp)
  rw [hrem]; exact h

/-- **C30, the disagreement.**  `#f` as an element makes the merge fail although an order exists. -/
theorem C30_bug_false_element : merge (fun x : Option Nat => x.isNone) [[none, some 1]] = some none ∧
    Linear [[none, some 1]] [none, some 1] := by
  refine ⟨by decide, by decide, ?_, ?_⟩ <;> simp
end

/-! ### Class precedence lists -/

/-- `d` is a direct superclass of `k`: as declared, or `<object>` for every class defined later. -/
def Step (t : Table) (k d : Nat) : Prop := ∃ c, t[k]? = some c ∧ (d ∈ c.supers ∨ (2 ≤ k ∧ d = 1))

/-- `d` is `k` or a superclass of `k`, at any distance. -/
def Anc (t : Table) : Nat → Nat → Prop := Relation.ReflTransGen (Step t)

/-- What the precedence list of class `k` must be like. -/
structure GoodClass (t : Table) (k : Nat) (c : Cls) : Prop where
  head : c.cpl.head? = some k
  nodup : c.cpl.Nodup
  /-- exactly the class and its superclasses -/
  mem : ∀ x, x ∈ c.cpl ↔ Anc t k x
  /-- monotonic -/
  mono : ∀ d ∈ c.supers, (cplOf t d).Sublist c.cpl
  /-- the declared order of the direct superclasses is kept -/
  locl : (c.supers.filter fun d => decide (d ≠ 0 ∧ d ≠ 1)).Sublist c.cpl
  /-- `<object>` and `<top>` come last -/
  tail : 1 ≤ k → ∃ p, c.cpl = p ++ [1, 0]
  below : ∀ d ∈ c.supers, d < k

def GoodTable (t : Table) : Prop :=
  t[0]? = some ⟨[], [0]⟩ ∧ t[1]? = some ⟨[0], [1, 0]⟩ ∧ ∀ k c, t[k]? = some c → GoodClass t k c

theorem before_of_pair {r u v : List Nat} {x y : Nat} (hr : r = u ++ x :: v) (hn : r.Nodup) (h : [y, x].Sublist r) : y ∈ u := by
  subst hr
  have hxv : x ∉ v := by
    have := (List.nodup_append.1 hn).2.1
    exact (List.nodup_cons.1 this).1
  have hxu : x ∉ u := fun hx => (List.nodup_append.1 hn).2.2 x hx x (by simp) rfl
  obtain ⟨l1, l2, e, h1, h2⟩ := List.sublist_append_iff.1 h
  match l1, e, h1 with
  | [], e, _ =>
    simp only [List.nil_append] at e
    subst e
    exfalso
    rcases List.sublist_cons_iff.1 h2 with h3 | ⟨w, h3, h4⟩
    · exact hxv (h3.subset (by simp))
    · cases h3; exact hxv (h4.subset (by simp))
  | [a], e, h1 =>
    simp only [List.cons_append, List.nil_append, List.cons.injEq] at e
    obtain ⟨rfl, _⟩ := e
    exact h1.subset (by simp)
  | a :: b :: l, e, h1 =>
    simp only [List.cons_append, List.cons.injEq] at e
    obtain ⟨rfl, rfl, _⟩ := e
    exact absurd (h1.subset (by simp)) hxu

theorem ends_object_top {r : List Nat} (hn : r.Nodup) (h10 : [1, 0].Sublist r)
    (hp : ∀ x ∈ r, x ≠ 0 → x ≠ 1 → [x, 1].Sublist r) : ∃ p, r = p ++ [1, 0] := by
  obtain ⟨u, v, rfl⟩ := List.append_of_mem (h10.subset (by simp : (1 : Nat) ∈ [1, 0]))
  have hv : ∀ y ∈ v, y = 0 := by
    intro y hy
    by_contra h0
    have h1 : y ≠ 1 := by
      rintro rfl
      exact (List.nodup_cons.1 (List.nodup_append.1 hn).2.1).1 hy
    have := before_of_pair rfl hn (hp y (by simp [hy]) h0 h1)
    exact (List.nodup_append.1 hn).2.2 y this y (by simp [hy]) rfl
  have h0u : 0 ∉ u := by
    intro h0
    obtain ⟨a, b, rfl⟩ := List.append_of_mem h0
    have := before_of_pair (u := a) (x := 0) (v := b ++ 1 :: v) (y := 1) (by simp) hn h10
    exact (List.nodup_append.1 hn).2.2 1 (by simp [this]) 1 (by simp) rfl
  have hv0 : 0 ∈ v := by
    have := h10.subset (by simp : (0 : Nat) ∈ [1, 0])
    simpa [h0u] using this
  have hvn : v.Nodup := (List.nodup_cons.1 (List.nodup_append.1 hn).2.1).2
  refine ⟨u, ?_⟩
  congr 2
  match v, hv, hv0, hvn with
  | [a], hv, _, _ => rw [hv a (by simp)]
  | a :: b :: w, hv, _, hvn =>
    have e1 := hv a (by simp)
    have e2 := hv b (by simp)
    subst e1; subst e2
    simp at hvn

theorem good_len {t : Table} (h : GoodTable t) : 2 ≤ t.length := by
  have := List.getElem?_eq_some_iff.1 h.2.1
  obtain ⟨h1, _⟩ := this
  omega

theorem cplOf_some {t : Table} {d : Nat} {c : Cls} (h : t[d]? = some c) : cplOf t d = c.cpl := by
  simp [cplOf, h]

theorem anc_le {t : Table} (h : GoodTable t) {k x : Nat} (ha : Anc t k x) : x ≤ k := by
  induction ha with
  | refl => exact Nat.le_refl _
  | tail _ hs ih =>
    obtain ⟨c, hc, hd | ⟨h2, rfl⟩⟩ := hs
    · have := (h.2.2 _ c hc).below _ hd; omega
    · omega

theorem step_ext {t : Table} {c : Cls} {k d : Nat} (hk : k < t.length) : Step (t ++ [c]) k d ↔ Step t k d := by
  unfold Step
  rw [List.getElem?_append_left hk]

theorem anc_ext {t : Table} (h : GoodTable t) {c : Cls} {k x : Nat} (hk : k < t.length) :
    Anc (t ++ [c]) k x ↔ Anc t k x := by
  constructor
  · intro ha
    have : Anc t k x ∧ x ≤ k := by
      induction ha with
      | refl => exact ⟨.refl, Nat.le_refl _⟩
      | tail _ hs ih =>
        have hs' := (step_ext (by omega)).1 hs
        refine ⟨ih.1.tail hs', ?_⟩
        exact anc_le h (ih.1.tail hs')
    exact this.1
  · intro ha
    induction ha with
    | refl => exact .refl
    | tail hp hs ih =>
      have := anc_le h hp
      exact ih.tail ((step_ext (by omega)).2 hs)

theorem cplOf_ext {t : Table} {c : Cls} {d : Nat} (hd : d < t.length) : cplOf (t ++ [c]) d = cplOf t d := by
  unfold cplOf
  rw [List.getElem?_append_left hd]

theorem mem_directSeq {supers : List Nat} {x : Nat} : x ∈ directSeq supers ↔ (x ∈ supers ∧ x ≠ 0 ∧ x ≠ 1) ∨ x = 1 := by
  unfold directSeq
  simp only [List.mem_append, List.mem_filter, List.mem_singleton, decide_eq_true_eq]
  tauto

theorem filter_eq (supers : List Nat) :
    (supers.filter (· ≠ 1)).filter (· ≠ 0) = supers.filter fun d => decide (d ≠ 0 ∧ d ≠ 1) := by
  rw [List.filter_filter]
  congr 1
  funext d
  simp only [Bool.decide_and]

theorem mem_cplSeqs {t : Table} {supers s : List Nat} : s ∈ cplSeqs t supers ↔
    (∃ d ∈ supers, d ≠ 0 ∧ d ≠ 1 ∧ s = cplOf t d) ∨ s = cplOf t 1 ∨ s = directSeq supers := by
  unfold cplSeqs
  simp only [List.mem_append, List.mem_map, List.mem_filter, List.mem_singleton, decide_eq_true_eq, not_or]
  constructor
  · rintro ((⟨d, ⟨h1, h2, h3⟩, rfl⟩ | h) | h)
    · exact .inl ⟨d, h1, h3, h2, rfl⟩
    · exact .inr (.inl h)
    · exact .inr (.inr h)
  · rintro (⟨d, h1, h2, h3, rfl⟩ | h | h)
    · exact .inl (.inl ⟨d, ⟨h1, h3, h2⟩, rfl⟩)
    · exact .inl (.inr h)
    · exact .inr h

theorem good_new {t : Table} (h : GoodTable t) {supers r : List Nat} (hs : ∀ d ∈ supers, d < t.length)
    (hl : Linear (cplSeqs t supers) r) : GoodTable (t ++ [⟨supers, t.length :: r⟩]) := by
  obtain ⟨hn, hsub, hmem⟩ := hl
  have hlen := good_len h
  have h1 : cplOf t 1 = [1, 0] := cplOf_some h.2.1
  have hget : ∀ d, d < t.length → ∃ c, t[d]? = some c := fun d hd => ⟨t[d], by simp [hd]⟩
  have h10 : [1, 0].Sublist r := by rw [← h1]; exact hsub _ (mem_cplSeqs.2 (.inr (.inl rfl)))
  -- every element of `r` is below the new class
  have hlt : ∀ x ∈ r, x < t.length := by
    intro x hx
    obtain ⟨s, hs1, hxs⟩ := hmem x hx
    rcases mem_cplSeqs.1 hs1 with ⟨d, hd, _, _, rfl⟩ | rfl | rfl
    · obtain ⟨c, hc⟩ := hget d (hs d hd)
      rw [cplOf_some hc, (h.2.2 d c hc).mem] at hxs
      have := anc_le h hxs
      have := hs d hd
      omega
    · rw [h1] at hxs; simp at hxs; omega
    · rcases mem_directSeq.1 hxs with h2 | h2
      · exact hs x h2.1
      · omega
  have hnew : (t ++ [(⟨supers, t.length :: r⟩ : Cls)])[t.length]? = some ⟨supers, t.length :: r⟩ := by simp
  refine ⟨by rw [List.getElem?_append_left (by omega)]; exact h.1,
    by rw [List.getElem?_append_left (by omega)]; exact h.2.1, fun k c hk => ?_⟩
  rcases Nat.lt_or_ge k t.length with hkt | hkt
  · rw [List.getElem?_append_left hkt] at hk
    have g := h.2.2 k c hk
    refine ⟨g.head, g.nodup, fun x => by rw [anc_ext h hkt]; exact g.mem x, fun d hd => ?_, g.locl, g.tail, g.below⟩
    rw [cplOf_ext (by have := g.below d hd; omega)]
    exact g.mono d hd
  · have hk' : k = t.length := by
      have := (List.getElem?_eq_some_iff.1 hk).1
      simp at this; omega
    subst hk'
    rw [hnew] at hk
    cases hk
    have hmono : ∀ d ∈ supers, (cplOf t d).Sublist r := by
      intro d hd
      by_cases hd0 : d = 0
      · subst hd0
        rw [cplOf_some h.1]
        exact (List.singleton_sublist.2 (h10.subset (by simp)))
      · by_cases hd1 : d = 1
        · subst hd1; rw [h1]; exact h10
        · exact hsub _ (mem_cplSeqs.2 (.inl ⟨d, hd, hd0, hd1, rfl⟩))
    have hdir : (directSeq supers).Sublist r := hsub _ (mem_cplSeqs.2 (.inr (.inr rfl)))
    refine ⟨rfl, ?_, ?_, ?_, ?_, ?_, hs⟩
    · rw [List.nodup_cons]
      exact ⟨fun hx => absurd (hlt _ hx) (Nat.lt_irrefl _), hn⟩
    · intro x
      constructor
      · intro hx
        rcases List.mem_cons.1 hx with rfl | hx
        · exact .refl
        · have hvia : ∀ d, (d ∈ supers ∨ d = 1) → Anc t d x → Anc (t ++ [⟨supers, t.length :: r⟩]) t.length x := by
            intro d hd ha
            have hdl : d < t.length := by
              rcases hd with hd | rfl
              · exact hs d hd
              · omega
            refine Relation.ReflTransGen.head ⟨_, hnew, ?_⟩ ((anc_ext h hdl).2 ha)
            rcases hd with hd | rfl
            · exact .inl hd
            · exact .inr ⟨hlen, rfl⟩
          obtain ⟨s, hs1, hxs⟩ := hmem x hx
          rcases mem_cplSeqs.1 hs1 with ⟨d, hd, _, _, rfl⟩ | rfl | rfl
          · obtain ⟨c, hc⟩ := hget d (hs d hd)
            rw [cplOf_some hc, (h.2.2 d c hc).mem] at hxs
            exact hvia d (.inl hd) hxs
          · rw [cplOf_some h.2.1, (h.2.2 1 _ h.2.1).mem] at hxs
            exact hvia 1 (.inr rfl) hxs
          · rcases mem_directSeq.1 hxs with h2 | h2
            · exact hvia x (.inl h2.1) .refl
            · exact hvia x (.inr h2) .refl
      · intro ha
        rcases Relation.ReflTransGen.cases_head ha with rfl | ⟨d, ⟨c, hc, hd⟩, hda⟩
        · simp
        · rw [hnew] at hc
          cases hc
          have hd' : d ∈ supers ∨ d = 1 := hd.imp id And.right
          have hdl : d < t.length := by
            rcases hd' with hd | rfl
            · exact hs d hd
            · omega
          have hda' := (anc_ext h hdl).1 hda
          obtain ⟨c, hc⟩ := hget d hdl
          have hx : x ∈ cplOf t d := by rw [cplOf_some hc]; exact ((h.2.2 d c hc).mem x).2 hda'
          have : (cplOf t d).Sublist r := by
            rcases hd' with hd | rfl
            · exact hmono d hd
            · rw [h1]; exact h10
          exact List.mem_cons_of_mem _ (this.subset hx)
    · intro d hd
      rw [cplOf_ext (hs d hd)]
      exact (hmono d hd).cons _
    · refine List.Sublist.cons _ ?_
      show (supers.filter fun d => decide (d ≠ 0 ∧ d ≠ 1)).Sublist r
      rw [← filter_eq]
      unfold directSeq at hdir
      exact (List.sublist_append_left _ _).trans hdir
    · intro _
      obtain ⟨p, hp⟩ := ends_object_top hn h10 (by
        intro x hx hx0 hx1
        obtain ⟨s, hs1, hxs⟩ := hmem x hx
        have key : ∀ (p q : List Nat), s = p ++ 1 :: q → x ∈ p → [x, 1].Sublist r := by
          intro p q e hxp
          refine List.Sublist.trans ?_ (hsub s hs1)
          rw [e]
          exact (List.singleton_sublist.2 hxp).append (List.singleton_sublist.2 (by simp))
        rcases mem_cplSeqs.1 hs1 with ⟨d, hd, hd0, hd1, e⟩ | e | e
        · obtain ⟨c, hc⟩ := hget d (hs d hd)
          obtain ⟨p, hp⟩ := (h.2.2 d c hc).tail (by omega)
          rw [cplOf_some hc, hp] at e
          refine key p [0] e ?_
          rw [e] at hxs
          simpa [hx0, hx1] using hxs
        · rw [h1] at e; rw [e] at hxs; simp at hxs; omega
        · refine key _ [] e ?_
          rw [e, mem_directSeq] at hxs
          rcases hxs with hxs | hxs
          · simp [hxs]
          · exact absurd hxs hx1)
      exact ⟨t.length :: p, by rw [hp]; rfl⟩

theorem defClass_spec {t : Table} (h : GoodTable t) (supers : List Nat) :
    (∃ c : Cls, defClass t supers = some (some (t ++ [c])) ∧ c.supers = supers ∧ GoodTable (t ++ [c])) ∨
    (defClass t supers = some none ∧ ¬ ((∀ d ∈ supers, d < t.length) ∧
      ∃ r : List Nat, r.Nodup ∧ ∀ s ∈ cplSeqs t supers, s.Sublist r)) := by
  unfold defClass
  by_cases hs : supers.all (· < t.length) = true
  · rw [if_pos hs]
    have hs' : ∀ d ∈ supers, d < t.length := by simpa using hs
    obtain ⟨o, ho, hm⟩ := C30_merge (fun _ => false) (cplSeqs t supers) (by simp)
    unfold computeCPL
    rw [ho]
    cases o with
    | some r => exact .inl ⟨_, rfl, rfl, good_new h hs' hm⟩
    | none => exact .inr ⟨rfl, fun hx => hm hx.2⟩
  · rw [if_neg hs]
    refine .inr ⟨rfl, fun hx => hs ?_⟩
    simpa using hx.1

theorem good_base : GoodTable base := by
  refine ⟨rfl, rfl, fun k c hk => ?_⟩
  have h0 : ∀ x, Anc base 0 x ↔ x = 0 := by
    intro x
    constructor
    · intro ha
      rcases Relation.ReflTransGen.cases_head ha with h | ⟨d, ⟨c, hc, hd⟩, _⟩
      · exact h.symm
      · cases hc; simp at hd
    · rintro rfl; exact .refl
  have h1 : ∀ x, Anc base 1 x ↔ x = 1 ∨ x = 0 := by
    intro x
    constructor
    · intro ha
      rcases Relation.ReflTransGen.cases_head ha with h | ⟨d, ⟨c, hc, hd⟩, hx⟩
      · exact .inl h.symm
      · cases hc
        simp at hd
        subst hd
        exact .inr ((h0 x).1 hx)
    · rintro (rfl | rfl)
      · exact .refl
      · exact .single ⟨_, rfl, .inl (by simp)⟩
  match k, hk with
  | 0, hk =>
    cases hk
    exact ⟨rfl, by simp, fun x => by rw [h0]; simp, by simp, by simp, by simp, by simp⟩
  | 1, hk =>
    cases hk
    exact ⟨rfl, by simp, fun x => by rw [h1]; simp, by simp [cplOf, base], by simp, fun _ => ⟨[], rfl⟩, by simp⟩
  | k + 2, hk => simp [base] at hk

theorem run_good (p : List (List Nat)) : ∀ {t : Table}, GoodTable t → ∃ t', run p t = some t' ∧ GoodTable t' := by
  induction p with
  | nil => intro t h; exact ⟨t, rfl, h⟩
  | cons s p ih =>
    intro t h
    rw [run]
    rcases defClass_spec h s with ⟨c, e, _, hg⟩ | ⟨e, _⟩
    · rw [e]; exact ih hg
    · rw [e]; exact ih h

/-- **C30.**  After every program of class definitions, the precedence list of each class starts with the class,
contains exactly the class and its superclasses, each once, has the precedence list of every direct superclass
as a sublist (monotonicity), keeps the declared order of the direct superclasses, and ends with `<object>` and
`<top>`. -/
theorem C30_hierarchy (p : List (List Nat)) : ∃ t, run p base = some t ∧
    ∀ k c, t[k]? = some c → c.cpl.head? = some k ∧ c.cpl.Nodup ∧ (∀ x, x ∈ c.cpl ↔ Anc t k x) ∧
      (∀ d ∈ c.supers, (cplOf t d).Sublist c.cpl) ∧
      (c.supers.filter fun d => decide (d ≠ 0 ∧ d ≠ 1)).Sublist c.cpl ∧
      (1 ≤ k → ∃ q, c.cpl = q ++ [1, 0]) := by
  obtain ⟨t, h1, h2⟩ := run_good p good_base
  refine ⟨t, h1, fun k c hk => ?_⟩
  have g := h2.2.2 k c hk
  exact ⟨g.head, g.nodup, g.mem, g.mono, g.locl, g.tail⟩

/-- **C30.**  A definition with existing superclasses succeeds exactly if some duplicate-free list has as sublists the
precedence lists of the direct superclasses, the declared order of the direct superclasses followed by
`<object>`, and `<object> <top>`; otherwise it is an error and no class is made. -/
theorem C30_error_iff (p : List (List Nat)) (supers : List Nat) : ∃ t, run p base = some t ∧
    ((∀ d ∈ supers, d < t.length) →
      ((∃ r : List Nat, r.Nodup ∧ (∀ d ∈ supers, (cplOf t d).Sublist r) ∧
          ((supers.filter fun d => decide (d ≠ 0 ∧ d ≠ 1)) ++ [1]).Sublist r ∧ [1, 0].Sublist r) ∧
        ∃ c : Cls, c.supers = supers ∧ defClass t supers = some (some (t ++ [c]))) ∨
      (¬ (∃ r : List Nat, r.Nodup ∧ (∀ d ∈ supers, (cplOf t d).Sublist r) ∧
          ((supers.filter fun d => decide (d ≠ 0 ∧ d ≠ 1)) ++ [1]).Sublist r ∧ [1, 0].Sublist r) ∧
        defClass t supers = some none)) := by
  obtain ⟨t, h1, h2⟩ := run_good p good_base
  refine ⟨t, h1, fun hs => ?_⟩
  have hc1 : cplOf t 1 = [1, 0] := cplOf_some h2.2.1
  have key : (∃ r : List Nat, r.Nodup ∧ (∀ d ∈ supers, (cplOf t d).Sublist r) ∧
      ((supers.filter fun d => decide (d ≠ 0 ∧ d ≠ 1)) ++ [1]).Sublist r ∧ [1, 0].Sublist r) ↔
      ∃ r : List Nat, r.Nodup ∧ ∀ s ∈ cplSeqs t supers, s.Sublist r := by
    constructor
    · rintro ⟨r, a, b, c, d⟩
      refine ⟨r, a, fun s hs1 => ?_⟩
      rcases mem_cplSeqs.1 hs1 with ⟨e, he, _, _, rfl⟩ | rfl | rfl
      · exact b e he
      · rw [hc1]; exact d
      · unfold directSeq; rw [filter_eq]; exact c
    · rintro ⟨r, a, b⟩
      have d : [1, 0].Sublist r := by rw [← hc1]; exact b _ (mem_cplSeqs.2 (.inr (.inl rfl)))
      refine ⟨r, a, fun e he => ?_, ?_, d⟩
      · by_cases he0 : e = 0
        · subst he0
          rw [cplOf_some h2.1]
          exact List.singleton_sublist.2 (d.subset (by simp))
        · by_cases he1 : e = 1
          · subst he1; rw [hc1]; exact d
          · exact b _ (mem_cplSeqs.2 (.inl ⟨e, he, he0, he1, rfl⟩))
      · rw [← filter_eq]; exact b _ (mem_cplSeqs.2 (.inr (.inr rfl)))
  rcases defClass_spec h2 supers with ⟨c, e1, e2, hg⟩ | ⟨e, hno⟩
  · refine .inl ⟨?_, c, e2, e1⟩
    · rw [key]
      have g := hg.2.2 t.length c (by simp)
      refine ⟨c.cpl, g.nodup, fun s hs1 => ?_⟩
      rw [← e2] at hs hs1
      rcases mem_cplSeqs.1 hs1 with ⟨d, hd, _, _, rfl⟩ | rfl | rfl
      · have := g.mono d hd
        rwa [cplOf_ext (hs d hd)] at this
      · obtain ⟨q, hq⟩ := g.tail (by have := good_len h2; omega)
        rw [hc1, hq]; exact List.sublist_append_right _ _
      · obtain ⟨q, hq⟩ := g.tail (by have := good_len h2; omega)
        have hl := g.locl
        rw [hq] at hl ⊢
        unfold directSeq
        rw [filter_eq]
        obtain ⟨l1, l2, e3, e4, e5⟩ := List.sublist_append_iff.1 hl
        have hl2 : l2 = [] := by
          cases l2 with
          | nil => rfl
          | cons a l =>
            exfalso
            have ha : a ∈ c.supers.filter fun d => decide (d ≠ 0 ∧ d ≠ 1) := by rw [e3]; simp
            have ha2 := e5.subset (by simp : a ∈ a :: l)
            simp at ha ha2
            omega
        rw [hl2, List.append_nil] at e3
        rw [e3]
        exact e4.append (List.singleton_sublist.2 (by simp))
  · refine .inr ⟨?_, e⟩
    rw [key]; exact fun hx => hno ⟨hs, hx⟩

/-! ### Examples: the hypotheses are met -/

/-- The example of the C3 paper: pedal-wheel-boat etc., with 2 = boat, 3 = day-boat, 4 = wheel-boat,
5 = engine-less, 6 = pedal-wheel-boat, 7 = small-multihull, 8 = small-catamaran, 9 = pedalo. -/
example : (run [[1], [2], [2], [3], [5, 4], [3], [7], [6, 8]] base).map (fun t => cplOf t 9) =
    some [9, 6, 5, 8, 7, 3, 4, 2, 1, 0] := by decide +kernel

/-- Conflicting orders: `(2 3)` against `(3 2)`. -/
example : ((run [[1], [1], [2, 3], [3, 2], [4, 5]] base).map List.length) = some 6 := by decide +kernel
example : ((run [[1], [1], [2, 3], [3, 2]] base).map fun t => defClass t [4, 5]) = some (some none) := by decide +kernel
example : merge (fun _ => false) [[1, 2, 4], [1, 3, 4], [2, 3]] = some (some [1, 2, 3, 4]) := by decide +kernel
example : merge (fun _ => false) [[1, 2], [2, 1]] = some none := by decide +kernel

end Gauche.C3

import Init.Data.Order.Ord
/-
Specification of ordered finite maps as sorted association lists, for an arbitrary comparison
function `cmp` that is a total preorder (`Std.TransCmp`: oriented and transitive).
Used for tree-map, imap, and other ordered containers.
-/
set_option linter.unusedSectionVars false
set_option linter.unusedSimpArgs false
namespace Gauche.OrdList
open Std
variable {κ ν : Type}

/-- Keys strictly ascending: each key occurs once. -/
def Sorted (cmp : κ → κ → Ordering) (l : List (κ × ν)) : Prop :=
  l.Pairwise (fun a b => cmp a.1 b.1 = .lt)

/-- The entry whose key is equivalent to `k`. -/
def getL (cmp : κ → κ → Ordering) (k : κ) (l : List (κ × ν)) : Option (κ × ν) :=
  l.find? (fun p => cmp p.1 k == .eq)

/-- Entries with smaller keys, the new entry, entries with larger keys. -/
def putL (cmp : κ → κ → Ordering) (e : κ × ν) (l : List (κ × ν)) : List (κ × ν) :=
  l.filter (fun p => cmp p.1 e.1 == .lt) ++ e :: l.filter (fun p => cmp p.1 e.1 == .gt)

/-- All entries but the one with key equivalent to `k`. -/
def delL (cmp : κ → κ → Ordering) (k : κ) (l : List (κ × ν)) : List (κ × ν) :=
  l.filter (fun p => cmp p.1 k != .eq)

section
variable {cmp : κ → κ → Ordering} [TransCmp cmp]

theorem cmp_swap (a b : κ) : cmp a b = (cmp b a).swap := OrientedCmp.eq_swap

theorem lt_trans {a b c : κ} (h1 : cmp a b = .lt) (h2 : cmp b c = .lt) : cmp a c = .lt :=
  TransCmp.lt_trans h1 h2
theorem lt_of_lt_eq {a b c : κ} (h1 : cmp a b = .lt) (h2 : cmp b c = .eq) : cmp a c = .lt :=
  TransCmp.lt_of_lt_of_eq h1 h2
theorem lt_of_eq_lt {a b c : κ} (h1 : cmp a b = .eq) (h2 : cmp b c = .lt) : cmp a c = .lt :=
  TransCmp.lt_of_eq_of_lt h1 h2
theorem gt_iff {a b : κ} : cmp a b = .gt ↔ cmp b a = .lt := OrientedCmp.gt_iff_lt
theorem eq_symm {a b : κ} (h : cmp a b = .eq) : cmp b a = .eq := OrientedCmp.eq_symm h

theorem sorted_mid {a b : List (κ × ν)} {p : κ × ν} :
    Sorted cmp (a ++ p :: b) ↔ Sorted cmp a ∧ Sorted cmp b ∧ (∀ x ∈ a, cmp x.1 p.1 = .lt) ∧
      (∀ x ∈ b, cmp p.1 x.1 = .lt) := by
  unfold Sorted
  rw [List.pairwise_append]
  simp only [List.pairwise_cons, List.mem_cons]
  constructor
  · rintro ⟨h1, ⟨h2, h3⟩, h4⟩
    exact ⟨h1, h3, fun x hx => h4 x hx p (.inl rfl), h2⟩
  · rintro ⟨h1, h2, h3, h4⟩
    refine ⟨h1, ⟨h4, h2⟩, ?_⟩
    rintro x hx y (rfl | hy)
    · exact h3 x hx
    · exact lt_trans (h3 x hx) (h4 y hy)

section mid
variable {a b : List (κ × ν)} {p : κ × ν} {k : κ}

private theorem fa_lt (h : ∀ x ∈ a, cmp x.1 k = .lt) :
    a.filter (fun p => cmp p.1 k == .lt) = a ∧ a.filter (fun p => cmp p.1 k == .gt) = [] ∧
    a.filter (fun p => cmp p.1 k != .eq) = a ∧ a.find? (fun p => cmp p.1 k == .eq) = none := by
  refine ⟨?_, ?_, ?_, ?_⟩
  · rw [List.filter_eq_self]; intro x hx; simp [h x hx]
  · rw [List.filter_eq_nil_iff]; intro x hx; simp [h x hx]
  · rw [List.filter_eq_self]; intro x hx; simp [h x hx]
  · rw [List.find?_eq_none]; intro x hx; simp [h x hx]

private theorem fa_gt (h : ∀ x ∈ b, cmp k x.1 = .lt) :
    b.filter (fun p => cmp p.1 k == .lt) = [] ∧ b.filter (fun p => cmp p.1 k == .gt) = b ∧
    b.filter (fun p => cmp p.1 k != .eq) = b ∧ b.find? (fun p => cmp p.1 k == .eq) = none := by
  have h : ∀ x ∈ b, cmp x.1 k = .gt := fun x hx => gt_iff.2 (h x hx)
  refine ⟨?_, ?_, ?_, ?_⟩
  · rw [List.filter_eq_nil_iff]; intro x hx; simp [h x hx]
  · rw [List.filter_eq_self]; intro x hx; simp [h x hx]
  · rw [List.filter_eq_self]; intro x hx; simp [h x hx]
  · rw [List.find?_eq_none]; intro x hx; simp [h x hx]

theorem mid_lt (hs : Sorted cmp (a ++ p :: b)) (h : cmp k p.1 = .lt) (v : ν) :
    putL cmp (k, v) (a ++ p :: b) = putL cmp (k, v) a ++ p :: b ∧
    delL cmp k (a ++ p :: b) = delL cmp k a ++ p :: b ∧
    getL cmp k (a ++ p :: b) = getL cmp k a := by
  obtain ⟨_, _, h3, h4⟩ := sorted_mid.1 hs
  obtain ⟨e1, e2, e3, e4⟩ := fa_gt (cmp := cmp) (k := k) (fun x hx => lt_trans h (h4 x hx))
  have hp : cmp p.1 k = .gt := gt_iff.2 h
  simp [putL, delL, getL, e1, e2, e3, e4, hp]

theorem mid_gt (hs : Sorted cmp (a ++ p :: b)) (h : cmp k p.1 = .gt) (v : ν) :
    putL cmp (k, v) (a ++ p :: b) = a ++ p :: putL cmp (k, v) b ∧
    delL cmp k (a ++ p :: b) = a ++ p :: delL cmp k b ∧
    getL cmp k (a ++ p :: b) = getL cmp k b := by
  obtain ⟨_, _, h3, h4⟩ := sorted_mid.1 hs
  have hp : cmp p.1 k = .lt := gt_iff.1 h
  obtain ⟨e1, e2, e3, e4⟩ := fa_lt (cmp := cmp) (k := k) (fun x hx => lt_trans (h3 x hx) hp)
  simp [putL, delL, getL, e1, e2, e3, e4, hp]

theorem mid_eq (hs : Sorted cmp (a ++ p :: b)) (h : cmp k p.1 = .eq) (v : ν) :
    putL cmp (k, v) (a ++ p :: b) = a ++ (k, v) :: b ∧
    delL cmp k (a ++ p :: b) = a ++ b ∧
    getL cmp k (a ++ p :: b) = some p := by
  obtain ⟨_, _, h3, h4⟩ := sorted_mid.1 hs
  have hp : cmp p.1 k = .eq := eq_symm h
  obtain ⟨e1, e2, e3, e4⟩ := fa_lt (cmp := cmp) (k := k) (fun x hx => lt_of_lt_eq (h3 x hx) hp)
  obtain ⟨f1, f2, f3, f4⟩ := fa_gt (cmp := cmp) (k := k) (fun x hx => lt_of_eq_lt h (h4 x hx))
  simp [putL, delL, getL, e1, e2, e3, e4, f1, f2, f3, f4, hp]
end mid

theorem sorted_nil : Sorted cmp ([] : List (κ × ν)) := List.Pairwise.nil

theorem putL_sorted {l : List (κ × ν)} (h : Sorted cmp l) (e : κ × ν) : Sorted cmp (putL cmp e l) := by
  unfold putL
  rw [sorted_mid]
  refine ⟨h.filter _, h.filter _, ?_, ?_⟩
  · intro x hx; simpa using (List.mem_filter.1 hx).2
  · intro x hx
    have : cmp x.1 e.1 = .gt := by simpa using (List.mem_filter.1 hx).2
    exact gt_iff.1 this

theorem delL_sorted {l : List (κ × ν)} (h : Sorted cmp l) (k : κ) : Sorted cmp (delL cmp k l) :=
  h.filter _

theorem getL_eq_some {l : List (κ × ν)} (h : Sorted cmp l) {k : κ} {e : κ × ν} :
    getL cmp k l = some e ↔ e ∈ l ∧ cmp e.1 k = .eq := by
  unfold getL
  constructor
  · intro hf
    exact ⟨List.mem_of_find?_eq_some hf, by simpa using List.find?_some hf⟩
  · rintro ⟨hm, he⟩
    induction l with
    | nil => cases hm
    | cons x l ih =>
      simp only [Sorted, List.pairwise_cons] at h
      rcases List.mem_cons.1 hm with rfl | hm'
      · simp [he]
      · have : cmp x.1 k = .lt := lt_of_lt_eq (h.1 e hm') he
        simp [List.find?_cons, this]
        simpa using ih h.2 hm'

theorem getL_eq_none {l : List (κ × ν)} {k : κ} :
    getL cmp k l = none ↔ ∀ e ∈ l, cmp e.1 k ≠ .eq := by
  simp [getL, List.find?_eq_none]

/-- Looking up after `putL`. -/
theorem getL_putL {l : List (κ × ν)} (h : Sorted cmp l) (e : κ × ν) (k : κ) :
    getL cmp k (putL cmp e l) = if cmp e.1 k = .eq then some e else getL cmp k l := by
  split
  · next he => rw [getL_eq_some (putL_sorted h e)]; exact ⟨by simp [putL], he⟩
  · next he =>
    cases hg : getL cmp k l with
    | some x =>
      rw [getL_eq_some h] at hg
      rw [getL_eq_some (putL_sorted h e)]
      refine ⟨?_, hg.2⟩
      cases hc : cmp x.1 e.1 with
      | lt => simp [putL, hc, hg.1]
      | gt => simp [putL, hc, hg.1]
      | eq => exact absurd (TransCmp.eq_trans (eq_symm hc) hg.2) he
    | none =>
      rw [getL_eq_none] at hg ⊢
      intro x hx
      simp only [putL, List.mem_append, List.mem_filter, List.mem_cons] at hx
      rcases hx with hx | rfl | hx
      · exact hg x hx.1
      · exact he
      · exact hg x hx.1

/-- Looking up after `delL`. -/
theorem getL_delL {l : List (κ × ν)} (h : Sorted cmp l) (k k' : κ) :
    getL cmp k (delL cmp k' l) = if cmp k' k = .eq then none else getL cmp k l := by
  split
  · next he =>
    rw [getL_eq_none]; intro x hx hc
    have := (List.mem_filter.1 hx).2
    simp at this
    exact this (TransCmp.eq_trans hc (eq_symm he))
  · next he =>
    cases hg : getL cmp k l with
    | some x =>
      rw [getL_eq_some h] at hg
      rw [getL_eq_some (delL_sorted h _)]
      refine ⟨List.mem_filter.2 ⟨hg.1, ?_⟩, hg.2⟩
      simp; intro hc; exact he (TransCmp.eq_trans (eq_symm hc) hg.2)
    | none =>
      rw [getL_eq_none] at hg ⊢
      exact fun x hx => hg x (List.mem_filter.1 hx).1

theorem getL_congr {l : List (κ × ν)} {k k' : κ} (h : cmp k k' = .eq) :
    getL cmp k l = getL cmp k' l := by
  unfold getL
  congr 1; funext p
  have : cmp p.1 k = cmp p.1 k' := TransCmp.congr_right h
  rw [this]

theorem sorted_append {a b : List (κ × ν)} :
    Sorted cmp (a ++ b) ↔ Sorted cmp a ∧ Sorted cmp b ∧ ∀ x ∈ a, ∀ y ∈ b, cmp x.1 y.1 = .lt := by
  simp [Sorted, List.pairwise_append]
end
end Gauche.OrdList

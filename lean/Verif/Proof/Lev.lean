import Verif.Spec.Lev
import Verif.Model.Lev
namespace Gauche.Lev

variable {α : Type} {eq : α → α → Bool} {ok : Nat → Nat → Bool}

/-! ## The distance of reversed sequences -/

def dist (eq : α → α → Bool) (ok : Nat → Nat → Bool) : List α → List α → Nat
  | [], b => b.length
  | x :: a, [] => (x :: a).length
  | x :: a, y :: b =>
    let d := min (min (dist eq ok a (y :: b) + 1) (dist eq ok (x :: a) b + 1)) (dist eq ok a b + if eq x y then 0 else 1)
    match a, b with
    | x' :: a', y' :: b' =>
      if ok a'.length b'.length && eq x y' && eq x' y then min d (dist eq ok a' b' + if eq x y then 0 else 1) else d
    | _, _ => d
  termination_by a b => a.length + b.length

theorem dist_nil_left (b : List α) : dist eq ok [] b = b.length := by rw [dist]
theorem dist_nil_right (a : List α) : dist eq ok a [] = a.length := by cases a <;> rw [dist] <;> rfl

theorem dist_cons (x y : α) (a b : List α) : dist eq ok (x :: a) (y :: b) =
    (let d := min (min (dist eq ok a (y :: b) + 1) (dist eq ok (x :: a) b + 1)) (dist eq ok a b + if eq x y then 0 else 1)
    match a, b with
    | x' :: a', y' :: b' =>
      if ok a'.length b'.length && eq x y' && eq x' y then min d (dist eq ok a' b' + if eq x y then 0 else 1) else d
    | _, _ => d) := by rw [dist.eq_def]

theorem dist_le (x y : α) (a b : List α) : dist eq ok (x :: a) (y :: b) ≤
    min (min (dist eq ok a (y :: b) + 1) (dist eq ok (x :: a) b + 1)) (dist eq ok a b + if eq x y then 0 else 1) := by
  rw [dist_cons]
  cases a with
  | nil => exact Nat.le_refl _
  | cons x' a =>
    cases b with
    | nil => exact Nat.le_refl _
    | cons y' b =>
      dsimp only
      by_cases h : (ok a.length b.length && eq x y' && eq x' y) = true
      · rw [if_pos h]; exact Nat.min_le_left _ _
      · rw [if_neg h]; exact Nat.le_refl _

theorem dist_del (x : α) (a b : List α) : dist eq ok (x :: a) b ≤ dist eq ok a b + 1 := by
  cases b with
  | nil => rw [dist_nil_right, dist_nil_right]; simp
  | cons y b => have := dist_le (eq := eq) (ok := ok) x y a b; omega

theorem dist_ins (y : α) (a b : List α) : dist eq ok a (y :: b) ≤ dist eq ok a b + 1 := by
  cases a with
  | nil => rw [dist_nil_left, dist_nil_left]; simp
  | cons x a => have := dist_le (eq := eq) (ok := ok) x y a b; omega

theorem dist_swap (x x' y y' : α) (a b : List α) (h1 : eq x y' = true) (h2 : eq x' y = true) (h : ok a.length b.length = true) :
    dist eq ok (x :: x' :: a) (y :: y' :: b) ≤ dist eq ok a b + if eq x y then 0 else 1 := by
  rw [dist_cons]
  simp only [h, h1, h2, Bool.and_self, if_true]
  exact Nat.min_le_right _ _

theorem dist_le_of_edit {a b : List α} {n : Nat} (h : REdit eq ok a b n) : dist eq ok a.reverse b.reverse ≤ n := by
  induction h with
  | nil => simp [dist_nil_left]
  | del x h ih => rw [List.reverse_append]; exact Nat.le_trans (dist_del _ _ _) (by simpa using ih)
  | ins y h ih => rw [List.reverse_append]; exact Nat.le_trans (dist_ins _ _ _) (by simpa using ih)
  | sub x y h ih =>
    rw [List.reverse_append, List.reverse_append]
    refine Nat.le_trans (dist_le x y _ _) ?_
    change min _ (dist eq ok (List.reverse _) (List.reverse _) + _) ≤ _
    by_cases hc : eq x y = true
    · rw [if_pos hc]; omega
    · rw [if_neg hc]; omega
  | keep x y hc h ih =>
    rw [List.reverse_append, List.reverse_append]
    refine Nat.le_trans (dist_le x y _ _) ?_
    change min _ (dist eq ok (List.reverse _) (List.reverse _) + _) ≤ _
    rw [if_pos hc]; omega
  | swap x' x y' y h1 h2 h3 h ih =>
    rw [List.reverse_append, List.reverse_append]
    refine Nat.le_trans (dist_swap x x' y y' _ _ h1 h2 (by simpa using h3)) ?_
    exact Nat.add_le_add_right ih _

theorem edit_nil_left (b : List α) : REdit eq ok [] b.reverse b.length := by
  induction b with
  | nil => exact .nil
  | cons y b ih => rw [List.reverse_cons]; exact .ins y ih

theorem edit_nil_right (a : List α) : REdit eq ok a.reverse [] a.length := by
  induction a with
  | nil => exact .nil
  | cons y b ih => rw [List.reverse_cons]; exact .del y ih

theorem min_cases (P : Nat → Prop) {a b : Nat} (ha : P a) (hb : P b) : P (min a b) := by
  rcases Nat.le_total a b with h | h
  · rwa [Nat.min_eq_left h]
  · rwa [Nat.min_eq_right h]

theorem edit_dist : ∀ (k : Nat) (a b : List α), a.length + b.length ≤ k → REdit eq ok a.reverse b.reverse (dist eq ok a b) := by
  intro k
  induction k with
  | zero =>
    intro a b h
    have ha : a = [] := List.length_eq_zero_iff.1 (by omega)
    have hb : b = [] := List.length_eq_zero_iff.1 (by omega)
    subst ha; subst hb; rw [dist_nil_left]; exact .nil
  | succ k ih =>
    intro a b h
    cases a with
    | nil => rw [dist_nil_left]; exact edit_nil_left b
    | cons x a =>
      cases b with
      | nil => rw [dist_nil_right]; exact edit_nil_right _
      | cons y b =>
        simp only [List.length_cons] at h
        have hsub : REdit eq ok (x :: a).reverse (y :: b).reverse (dist eq ok a b + if eq x y then 0 else 1) := by
          rw [List.reverse_cons, List.reverse_cons]
          by_cases hc : eq x y = true
          · rw [if_pos hc]; exact .keep x y hc (ih a b (by omega))
          · rw [if_neg hc]; exact .sub x y (ih a b (by omega))
        have hd : REdit eq ok (x :: a).reverse (y :: b).reverse
            (min (min (dist eq ok a (y :: b) + 1) (dist eq ok (x :: a) b + 1)) (dist eq ok a b + if eq x y then 0 else 1)) := by
          refine min_cases _ (min_cases _ ?_ ?_) hsub
          · rw [List.reverse_cons (a := x)]; exact .del x (ih a (y :: b) (by simp only [List.length_cons]; omega))
          · rw [List.reverse_cons (a := y)]; exact .ins y (ih (x :: a) b (by simp only [List.length_cons]; omega))
        rw [dist_cons]
        cases a with
        | nil => exact hd
        | cons x' a =>
          cases b with
          | nil => exact hd
          | cons y' b =>
            dsimp only
            by_cases hc : (ok a.length b.length && eq x y' && eq x' y) = true
            · rw [if_pos hc]
              refine min_cases _ hd ?_
              simp only [Bool.and_eq_true] at hc
              have := REdit.swap (eq := eq) (ok := ok) x' x y' y hc.1.2 hc.2 (by simpa using hc.1.1)
                (ih a b (by simp only [List.length_cons] at h; omega))
              simpa using this
            · rw [if_neg hc]; exact hd

theorem dist_least (a b : List α) : Least (REdit eq ok a b) (dist eq ok a.reverse b.reverse) := by
  refine ⟨?_, fun m h => dist_le_of_edit h⟩
  have := edit_dist (eq := eq) (ok := ok) _ a.reverse b.reverse (Nat.le_refl _)
  simpa using this

theorem edit_iff (a b : List α) (n : Nat) : Edit eq a b n ↔ REdit eq (fun _ _ => false) a b n := by
  constructor
  · intro h
    induction h with
    | nil => exact .nil
    | del x _ ih => exact .del x ih
    | ins x _ ih => exact .ins x ih
    | sub x y _ ih => exact .sub x y ih
    | keep x y hc _ ih => exact .keep x y hc ih
  · intro h
    induction h with
    | nil => exact .nil
    | del x _ ih => exact .del x ih
    | ins x _ ih => exact .ins x ih
    | sub x y _ ih => exact .sub x y ih
    | keep x y hc _ ih => exact .keep x y hc ih
    | swap _ _ _ _ _ _ h => cases h

/-! ## Prefixes -/

/-- The distance of the prefixes of length `i` and `j`. -/
def D (eq : α → α → Bool) (ok : Nat → Nat → Bool) (A B : List α) (i j : Nat) : Nat :=
  dist eq ok (A.take i).reverse (B.take j).reverse

theorem D_zero (A B : List α) {j : Nat} (h : j ≤ B.length) : D eq ok A B 0 j = j := by
  simp [D, dist_nil_left, h]

theorem D_zero' (A B : List α) {i : Nat} (h : i ≤ A.length) : D eq ok A B i 0 = i := by
  simp [D, dist_nil_right, h]

theorem D_full (A B : List α) : D eq ok A B A.length B.length = dist eq ok A.reverse B.reverse := by simp [D]

theorem take_rev {A : List α} {i : Nat} {a : α} (h : A[i]? = some a) : (A.take (i + 1)).reverse = a :: (A.take i).reverse := by
  rw [List.take_succ, h]; simp

theorem D_succ {A B : List α} {i j : Nat} {a b : α} (hi : A[i]? = some a) (hj : B[j]? = some b) :
    D eq ok A B (i + 1) (j + 1) =
    (let d := min (min (D eq ok A B i (j + 1) + 1) (D eq ok A B (i + 1) j + 1)) (D eq ok A B i j + if eq a b then 0 else 1)
    if i > 0 && j > 0 && ok (i - 1) (j - 1) && refEq eq A B i (j - 1) && refEq eq A B (i - 1) j then
      min d (D eq ok A B (i - 1) (j - 1) + if eq a b then 0 else 1) else d) := by
  have hil := (List.getElem?_eq_some_iff.1 hi).1
  have hjl := (List.getElem?_eq_some_iff.1 hj).1
  have e : D eq ok A B (i + 1) (j + 1) = dist eq ok (a :: (A.take i).reverse) (b :: (B.take j).reverse) := by
    rw [D, take_rev hi, take_rev hj]
  rw [e, dist_cons]
  rw [← take_rev hi, ← take_rev hj]
  cases i with
  | zero => simp only [List.take_zero, List.reverse_nil, D, gt_iff_lt, Nat.lt_irrefl, decide_false, Bool.false_and]; rfl
  | succ i =>
    cases j with
    | zero =>
      simp only [List.take_zero, List.reverse_nil, D, gt_iff_lt, Nat.lt_irrefl, decide_false, Bool.false_and, Bool.and_false]
      cases (List.take (i + 1) A).reverse <;> rfl
    | succ j =>
      obtain ⟨a', ha'⟩ : ∃ a', A[i]? = some a' := ⟨A[i], List.getElem?_eq_getElem (by omega)⟩
      obtain ⟨b', hb'⟩ : ∃ b', B[j]? = some b' := ⟨B[j], List.getElem?_eq_getElem (by omega)⟩
      have e1 : (A.take i).reverse.length = i := by simp; omega
      have e2 : (B.take j).reverse.length = j := by simp; omega
      simp only [D, Nat.add_sub_cancel, refEq, hi, hj, ha', hb', take_rev ha', take_rev hb', e1, e2, gt_iff_lt, Nat.zero_lt_succ,
        decide_true, Bool.true_and]

theorem D_row {A B : List α} {m j : Nat} (hj : j + 1 < B.length)
    (h0 : ∀ k, k ≤ A.length → m ≤ D eq ok A B k j) (h1 : ∀ k, k ≤ A.length → m ≤ D eq ok A B k (j + 1)) :
    ∀ k, k ≤ A.length → m ≤ D eq ok A B k (j + 2) := by
  intro k
  induction k with
  | zero =>
    intro _
    have := h1 0 (Nat.zero_le _)
    rw [D_zero _ _ (by omega)] at this ⊢
    omega
  | succ k ih =>
    intro hk
    have hi : A[k]? = some A[k] := List.getElem?_eq_getElem (by omega)
    have hj' : B[j + 1]? = some B[j + 1] := List.getElem?_eq_getElem (by omega)
    rw [D_succ hi hj']
    have a1 := ih (by omega)
    have a2 := h1 (k + 1) hk
    have a3 := h1 k (by omega)
    have a4 := h0 (k - 1) (by omega)
    dsimp only
    have hd : m ≤ min (min (D eq ok A B k (j + 2) + 1) (D eq ok A B (k + 1) (j + 1) + 1))
        (D eq ok A B k (j + 1) + if eq A[k] B[j + 1] then 0 else 1) := by
      simp only [Nat.le_min]; exact ⟨⟨by omega, by omega⟩, by omega⟩
    split
    · refine Nat.le_min.2 ⟨hd, ?_⟩
      exact Nat.le_trans a4 (Nat.le_add_right _ _)
    · exact hd

theorem D_rows {A B : List α} {m : Nat} : ∀ (r j : Nat), j + 1 + r ≤ B.length →
    (∀ k, k ≤ A.length → m ≤ D eq ok A B k j) → (∀ k, k ≤ A.length → m ≤ D eq ok A B k (j + 1)) →
    ∀ k, k ≤ A.length → m ≤ D eq ok A B k (j + 1 + r) := by
  intro r
  induction r with
  | zero => intro j _ _ h1; exact h1
  | succ r ih =>
    intro j hj h0 h1
    have := ih (j + 1) (by omega) h1 (D_row (by omega) h0 h1)
    have e : j + 1 + (r + 1) = j + 1 + 1 + r := by omega
    rw [e]; exact this

theorem D_rows_l {A B : List α} {m : Nat} : ∀ (r j : Nat), j + r ≤ B.length →
    (∀ k, k ≤ A.length → m ≤ D eq (fun _ _ => false) A B k j) →
    ∀ k, k ≤ A.length → m ≤ D eq (fun _ _ => false) A B k (j + r) := by
  intro r
  induction r with
  | zero => intro j _ h1; exact h1
  | succ r ih =>
    intro j hj h0
    have e : j + (r + 1) = j + 1 + r := by omega
    rw [e]
    refine ih (j + 1) (by omega) ?_
    intro k
    induction k with
    | zero =>
      intro _
      have := h0 0 (Nat.zero_le _)
      rw [D_zero _ _ (by omega)] at this ⊢
      omega
    | succ k ihk =>
      intro hk
      have hi : A[k]? = some A[k] := List.getElem?_eq_getElem (by omega)
      have hj' : B[j]? = some B[j] := List.getElem?_eq_getElem (by omega)
      rw [D_succ hi hj']
      have a1 := ihk (by omega)
      have a2 := h0 (k + 1) hk
      have a3 := h0 k (by omega)
      simp only [Bool.and_false, Bool.false_and, Bool.false_eq_true, if_false, Nat.le_min]
      exact ⟨⟨by omega, by omega⟩, by omega⟩

/-! ## The loops of `l-base` -/

theorem drop_eq {A : List α} {i : Nat} {a : α} {l : List α} (h : A.drop i = a :: l) : A[i]? = some a ∧ A.drop (i + 1) = l := by
  constructor
  · have := congrArg (·[0]?) h; simpa using this
  · rw [← List.tail_drop, h]; rfl

abbrev no : Nat → Nat → Bool := fun _ _ => false

theorem lInner_spec {A0 B0 : List α} {b : α} {j : Nat} {row1 : Row} (hj : B0[j]? = some b)
    (h1 : ∀ k, k ≤ A0.length → row1 k = D eq no A0 B0 k j) : ∀ (A : List α) (i : Nat) (row0 : Row) (dmin : Nat),
    A0.drop i = A → i ≤ A0.length → (∀ k, k ≤ i → row0 k = D eq no A0 B0 k (j + 1)) → (∀ k, k ≤ i → dmin ≤ D eq no A0 B0 k (j + 1)) →
    (∀ k, k ≤ A0.length → (lInner eq b row1 i A row0 dmin).1 k = D eq no A0 B0 k (j + 1)) ∧
    (∀ k, k ≤ A0.length → (lInner eq b row1 i A row0 dmin).2 ≤ D eq no A0 B0 k (j + 1)) := by
  intro A
  induction A with
  | nil =>
    intro i row0 dmin hA hi h0 hm
    have : A0.length ≤ i := List.drop_eq_nil_iff.1 hA
    exact ⟨fun k hk => h0 k (by omega), fun k hk => hm k (by omega)⟩
  | cons a A ih =>
    intro i row0 dmin hA hi h0 hm
    obtain ⟨ha, hA'⟩ := drop_eq hA
    have hil := (List.getElem?_eq_some_iff.1 ha).1
    rw [lInner]
    have hd : min (min (row0 i + 1) (row1 (i + 1) + 1)) (row1 i + if eq a b then 0 else 1) = D eq no A0 B0 (i + 1) (j + 1) := by
      rw [D_succ ha hj, h0 i (Nat.le_refl _), h1 _ hil, h1 _ hi]
      simp only [Bool.and_false, Bool.false_and, Bool.false_eq_true, if_false]
    rw [hd]
    refine ih (i + 1) _ _ hA' hil ?_ ?_
    · intro k hk
      rw [vset]
      by_cases hki : k = i + 1
      · rw [if_pos hki, hki]
      · rw [if_neg hki]; exact h0 k (by omega)
    · intro k hk
      have : (if D eq no A0 B0 (i + 1) (j + 1) < dmin then D eq no A0 B0 (i + 1) (j + 1) else dmin) ≤ min (D eq no A0 B0 (i + 1) (j + 1)) dmin := by
        split <;> omega
      by_cases hki : k = i + 1
      · rw [hki]; omega
      · have := hm k (by omega); omega

theorem lOuter_spec {A0 B0 : List α} {cutoff : Option Nat} : ∀ (B : List α) (j : Nat) (rows : Row × Row),
    B0.drop j = B → j ≤ B0.length → (∀ k, k ≤ A0.length → rows.2 k = D eq no A0 B0 k j) →
    if (lOuter eq A0 cutoff j B rows).1 = true then (lOuter eq A0 cutoff j B rows).2.2 A0.length = D eq no A0 B0 A0.length B0.length
    else exceeds cutoff (D eq no A0 B0 A0.length B0.length) = true := by
  intro B
  induction B with
  | nil =>
    intro j rows hB hj h1
    have : B0.length ≤ j := List.drop_eq_nil_iff.1 hB
    have e : j = B0.length := by omega
    rw [lOuter, if_pos rfl, h1 _ (Nat.le_refl _), e]
  | cons b B ih =>
    intro j rows hB hj h1
    obtain ⟨hb, hB'⟩ := drop_eq hB
    have hjl := (List.getElem?_eq_some_iff.1 hb).1
    have hin := lInner_spec (eq := eq) hb h1 A0 0 (vset rows.1 0 (j + 1)) (j + 1) (by simp) (Nat.zero_le _)
      (by intro k hk; have : k = 0 := by omega
          subst this; rw [D_zero _ _ hjl]; simp [vset])
      (by intro k hk; have : k = 0 := by omega
          subst this; rw [D_zero _ _ hjl]; exact Nat.le_refl _)
    rw [lOuter]
    by_cases hx : exceeds cutoff (lInner eq b rows.2 0 A0 (vset rows.1 0 (j + 1)) (j + 1)).2 = true
    · rw [if_pos hx, if_neg (by simp)]
      have hle := D_rows_l (eq := eq) (A := A0) (B := B0) (B0.length - (j + 1)) (j + 1) (by omega) hin.2 A0.length (Nat.le_refl _)
      have e : j + 1 + (B0.length - (j + 1)) = B0.length := by omega
      rw [e] at hle
      cases cutoff with
      | none => cases hx
      | some c => simp only [exceeds, decide_eq_true_eq] at hx ⊢; exact Nat.lt_of_lt_of_le hx hle
    · rw [if_neg hx]
      exact ih (j + 1) _ hB' hjl hin.1

theorem exceeds_cut (cutoff : Option Nat) (d : Nat) : (if exceeds cutoff d = true then none else some d) = withCutoff cutoff d := by
  cases cutoff with
  | none => rfl
  | some c =>
    simp only [exceeds, withCutoff, decide_eq_true_eq]
    by_cases h : c < d
    · rw [if_pos h, if_neg (by omega)]
    · rw [if_neg h, if_pos (by omega)]

theorem lRun_spec (A B : List α) (cutoff : Option Nat) (rows : Row × Row) :
    (lRun eq A cutoff rows B).1 = withCutoff cutoff (dist eq no A.reverse B.reverse) := by
  have h := lOuter_spec (eq := eq) (A0 := A) (B0 := B) (cutoff := cutoff) B 0
    (rows.1, fun k => if k < A.length + 1 then k else rows.2 k) (by simp) (Nat.zero_le _)
    (by intro k hk; rw [D_zero' _ _ hk]; dsimp only; rw [if_pos (by omega)])
  rw [lRun]
  rw [D_full] at h
  by_cases hq : (lOuter eq A cutoff 0 B (rows.1, fun k => if k < A.length + 1 then k else rows.2 k)).1 = true
  · rw [if_pos hq] at h ⊢
    dsimp only
    rw [h, exceeds_cut]
  · rw [if_neg hq] at h ⊢
    rw [← exceeds_cut, if_pos h]

theorem lBase_spec (A : List α) (cutoff : Option Nat) (Bs : List (List α)) (rows : Row × Row) :
    lBase eq A cutoff rows Bs = Bs.map (fun B => withCutoff cutoff (dist eq no A.reverse B.reverse)) := by
  induction Bs generalizing rows with
  | nil => rfl
  | cons B Bs ih => rw [lBase]; rw [lRun_spec, ih]; rfl

/-! ## The loops of `re-base` -/

abbrev inner : Nat → Nat → Bool := fun i j => i > 0 && j > 0

theorem rInner_spec {A0 B0 : List α} {b : α} {j : Nat} {row1 row2 : Row} (hj : B0[j]? = some b)
    (h1 : ∀ k, k ≤ A0.length → row1 (k + 1) = D eq inner A0 B0 k j)
    (h2 : 1 ≤ j → ∀ k, k ≤ A0.length → row2 (k + 1) = D eq inner A0 B0 k (j - 1)) : ∀ (A : List α) (i : Nat) (row0 : Row) (dmin : Nat),
    A0.drop i = A → i ≤ A0.length → (∀ k, k ≤ i → row0 (k + 1) = D eq inner A0 B0 k (j + 1)) →
    (∀ k, k ≤ i → dmin ≤ D eq inner A0 B0 k (j + 1)) →
    (∀ k, k ≤ A0.length → (rInner eq A0 B0 j b row1 row2 i A row0 dmin).1 (k + 1) = D eq inner A0 B0 k (j + 1)) ∧
    (∀ k, k ≤ A0.length → (rInner eq A0 B0 j b row1 row2 i A row0 dmin).2 ≤ D eq inner A0 B0 k (j + 1)) := by
  intro A
  induction A with
  | nil =>
    intro i row0 dmin hA hi h0 hm
    have : A0.length ≤ i := List.drop_eq_nil_iff.1 hA
    exact ⟨fun k hk => h0 k (by omega), fun k hk => hm k (by omega)⟩
  | cons a A ih =>
    intro i row0 dmin hA hi h0 hm
    obtain ⟨ha, hA'⟩ := drop_eq hA
    have hil := (List.getElem?_eq_some_iff.1 ha).1
    rw [rInner]
    have hd : (if (i > 1 && j > 1 && refEq eq A0 B0 i (j - 1) && refEq eq A0 B0 (i - 1) j) = true then
        min (min (min (row0 (i + 1) + 1) (row1 (i + 2) + 1)) (row1 (i + 1) + if eq a b = true then 0 else 1))
          (row2 i + if eq a b = true then 0 else 1)
        else min (min (row0 (i + 1) + 1) (row1 (i + 2) + 1)) (row1 (i + 1) + if eq a b = true then 0 else 1)) =
        D eq inner A0 B0 (i + 1) (j + 1) := by
      rw [D_succ ha hj, h0 i (Nat.le_refl _), h1 (i + 1) hil, h1 _ hi]
      dsimp only
      by_cases hij : i > 1 ∧ j > 1
      · have e : row2 i = D eq inner A0 B0 (i - 1) (j - 1) := by
          rw [← h2 (by omega) (i - 1) (by omega), Nat.sub_add_cancel (by omega)]
        have e1 : decide (i > 1) = true := decide_eq_true hij.1
        have e2 : decide (j > 1) = true := decide_eq_true hij.2
        have e3 : decide (i > 0) = true := decide_eq_true (by omega)
        have e4 : decide (j > 0) = true := decide_eq_true (by omega)
        have e5 : decide (i - 1 > 0) = true := decide_eq_true (by omega)
        have e6 : decide (j - 1 > 0) = true := decide_eq_true (by omega)
        rw [e]
        have e7 : inner (i - 1) (j - 1) = true := by change (decide _ && decide _) = true; rw [e5, e6]; rfl
        rw [e7, e1, e2, e3, e4]; rfl
      · have e1 : (decide (i > 1) && decide (j > 1)) = false := by
          rw [Bool.eq_false_iff]; intro h; simp at h; omega
        have e2 : (decide (i > 0) && decide (j > 0) && (decide (i - 1 > 0) && decide (j - 1 > 0))) = false := by
          rw [Bool.eq_false_iff]; intro h; simp at h; omega
        rw [e1, e2]
        simp only [Bool.false_and, Bool.false_eq_true, if_false]
    rw [hd]
    refine ih (i + 1) _ _ hA' hil ?_ ?_
    · intro k hk
      rw [vset]
      by_cases hki : k = i + 1
      · rw [if_pos (by omega), hki]
      · rw [if_neg (by omega)]; exact h0 k (by omega)
    · intro k hk
      have : (if D eq inner A0 B0 (i + 1) (j + 1) < dmin then D eq inner A0 B0 (i + 1) (j + 1) else dmin) ≤
          min (D eq inner A0 B0 (i + 1) (j + 1)) dmin := by
        split <;> omega
      by_cases hki : k = i + 1
      · rw [hki]; omega
      · have := hm k (by omega); omega

theorem rOuter_spec {A0 B0 : List α} {cutoff : Option Nat} : ∀ (B : List α) (j dmin1 : Nat) (rows : Row × Row × Row),
    B0.drop j = B → j ≤ B0.length → (∀ k, k ≤ A0.length → rows.2.1 (k + 1) = D eq inner A0 B0 k j) →
    (1 ≤ j → ∀ k, k ≤ A0.length → rows.2.2 (k + 1) = D eq inner A0 B0 k (j - 1)) →
    (∀ k, k ≤ A0.length → dmin1 ≤ D eq inner A0 B0 k j) →
    if (rOuter eq A0 B0 cutoff j B dmin1 rows).1 = true then
      (rOuter eq A0 B0 cutoff j B dmin1 rows).2.2.1 (A0.length + 1) = D eq inner A0 B0 A0.length B0.length
    else exceeds cutoff (D eq inner A0 B0 A0.length B0.length) = true := by
  intro B
  induction B with
  | nil =>
    intro j dmin1 rows hB hj h1 _ _
    have : B0.length ≤ j := List.drop_eq_nil_iff.1 hB
    have e : j = B0.length := by omega
    rw [rOuter, if_pos rfl, h1 _ (Nat.le_refl _), e]
  | cons b B ih =>
    intro j dmin1 rows hB hj h1 h2 hm
    obtain ⟨hb, hB'⟩ := drop_eq hB
    have hjl := (List.getElem?_eq_some_iff.1 hb).1
    have hin := rInner_spec (eq := eq) hb h1 h2 A0 0 (vset (vset rows.1 0 (A0.length + B0.length)) 1 (j + 1)) (j + 1) (by simp)
      (Nat.zero_le _)
      (by intro k hk; have : k = 0 := by omega
          subst this; rw [D_zero _ _ hjl]; simp [vset])
      (by intro k hk; have : k = 0 := by omega
          subst this; rw [D_zero _ _ hjl]; exact Nat.le_refl _)
    rw [rOuter]
    revert hin
    generalize rInner eq A0 B0 j b rows.2.1 rows.2.2 0 A0 (vset (vset rows.1 0 (A0.length + B0.length)) 1 (j + 1)) (j + 1) = p
    intro hin
    by_cases hx : exceeds cutoff (min p.2 dmin1) = true
    · rw [if_pos hx, if_neg (by simp)]
      have hle := D_rows (eq := eq) (ok := inner) (A := A0) (B := B0) (m := min p.2 dmin1) (B0.length - (j + 1)) j (by omega)
        (fun k hk => Nat.le_trans (Nat.min_le_right _ _) (hm k hk)) (fun k hk => Nat.le_trans (Nat.min_le_left _ _) (hin.2 k hk))
        A0.length (Nat.le_refl _)
      have e : j + 1 + (B0.length - (j + 1)) = B0.length := by omega
      rw [e] at hle
      cases cutoff with
      | none => cases hx
      | some c => simp only [exceeds, decide_eq_true_eq] at hx ⊢; omega
    · rw [if_neg hx]
      exact ih (j + 1) _ _ hB' hjl hin.1 (fun _ => by simpa using h1) hin.2

theorem rRun_spec (A B : List α) (cutoff : Option Nat) (rows : Row × Row × Row) :
    (rRun eq A cutoff rows B).1 = withCutoff cutoff (dist eq inner A.reverse B.reverse) := by
  have h := rOuter_spec (eq := eq) (A0 := A) (B0 := B) (cutoff := cutoff) B 0 0
    (rows.1, (fun k => if k < A.length + 2 then (if k = 0 then A.length + B.length else k - 1) else rows.2.1 k),
      (fun _ => A.length + B.length)) (by simp) (Nat.zero_le _)
    (by intro k hk; rw [D_zero' _ _ hk]; dsimp only; rw [if_pos (by omega), if_neg (by omega)]; rfl)
    (by intro h; omega) (fun _ _ => Nat.zero_le _)
  rw [rRun]
  rw [D_full] at h
  revert h
  generalize rOuter eq A B cutoff 0 B 0 _ = q
  intro h
  by_cases hq : q.1 = true
  · rw [if_pos hq] at h ⊢
    dsimp only
    rw [h, exceeds_cut]
  · rw [if_neg hq] at h ⊢
    rw [← exceeds_cut, if_pos h]

theorem rBase_spec (A : List α) (cutoff : Option Nat) (Bs : List (List α)) (rows : Row × Row × Row) :
    rBase eq A cutoff rows Bs = Bs.map (fun B => withCutoff cutoff (dist eq inner A.reverse B.reverse)) := by
  induction Bs generalizing rows with
  | nil => rfl
  | cons B Bs ih => rw [rBase]; rw [rRun_spec, ih]; rfl

end Gauche.Lev

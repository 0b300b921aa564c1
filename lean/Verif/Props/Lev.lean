import Verif.Proof.Lev
/-! C86: edit distances of `util.levenshtein`. -/
namespace Gauche.Lev

variable {α : Type}

/-- C86: `l-distances` gives for every sequence the least cost of an alignment, or `#f` if it exceeds the cutoff, whatever is in the rows. -/
theorem C86_l_distances (eq : α → α → Bool) (A : List α) (cutoff : Option Nat) (rows : Row × Row) (Bs : List (List α)) :
    (lBase eq A cutoff rows Bs).length = Bs.length ∧
    ∀ (k : Nat) B, Bs[k]? = some B → ∃ d, Least (Edit eq A B) d ∧ (lBase eq A cutoff rows Bs)[k]? = some (withCutoff cutoff d) := by
  rw [lBase_spec]
  refine ⟨by simp, fun k B hB => ⟨dist eq no A.reverse B.reverse, ?_, by simp [hB]⟩⟩
  have h := dist_least (eq := eq) (ok := no) A B
  exact ⟨(edit_iff A B _).2 h.1, fun m hm => h.2 m ((edit_iff A B m).1 hm)⟩

/-! ### Chains of edits -/

theorem edit_split {eq : α → α → Bool} {a b : List α} {n : Nat} (h : Edit eq a b n) : ∀ u v, b = u ++ v →
    ∃ a1 a2 n1 n2, a = a1 ++ a2 ∧ n1 + n2 = n ∧ Edit eq a1 u n1 ∧ Edit eq a2 v n2 := by
  induction h with
  | nil =>
    intro u v e
    obtain ⟨rfl, rfl⟩ := List.append_eq_nil_iff.1 e.symm
    exact ⟨[], [], 0, 0, rfl, rfl, .nil, .nil⟩
  | del x h ih =>
    intro u v e
    obtain ⟨a1, a2, n1, n2, rfl, rfl, h1, h2⟩ := ih u v e
    exact ⟨a1, a2 ++ [x], n1, n2 + 1, by simp, rfl, h1, .del x h2⟩
  | ins y h ih =>
    intro u v e
    rcases List.eq_nil_or_concat v with rfl | ⟨v, y', rfl⟩
    · rw [List.append_nil] at e; subst e
      exact ⟨_, [], _, 0, by simp, rfl, .ins y h, .nil⟩
    · rw [List.concat_eq_append, ← List.append_assoc] at e
      obtain ⟨e1, e2⟩ := List.append_inj' e rfl
      cases e2
      obtain ⟨a1, a2, n1, n2, rfl, rfl, h1, h2⟩ := ih u v e1
      rw [List.concat_eq_append]
      exact ⟨a1, a2, n1, n2 + 1, rfl, rfl, h1, .ins y h2⟩
  | sub x y h ih =>
    intro u v e
    rcases List.eq_nil_or_concat v with rfl | ⟨v, y', rfl⟩
    · rw [List.append_nil] at e; subst e
      exact ⟨_, [], _, 0, by simp, rfl, .sub x y h, .nil⟩
    · rw [List.concat_eq_append, ← List.append_assoc] at e
      obtain ⟨e1, e2⟩ := List.append_inj' e rfl
      cases e2
      obtain ⟨a1, a2, n1, n2, rfl, rfl, h1, h2⟩ := ih u v e1
      rw [List.concat_eq_append]
      exact ⟨a1, a2 ++ [x], n1, n2 + 1, by simp, rfl, h1, .sub x y h2⟩
  | keep x y hc h ih =>
    intro u v e
    rcases List.eq_nil_or_concat v with rfl | ⟨v, y', rfl⟩
    · rw [List.append_nil] at e; subst e
      exact ⟨_, [], _, 0, by simp, rfl, .keep x y hc h, .nil⟩
    · rw [List.concat_eq_append, ← List.append_assoc] at e
      obtain ⟨e1, e2⟩ := List.append_inj' e rfl
      cases e2
      obtain ⟨a1, a2, n1, n2, rfl, rfl, h1, h2⟩ := ih u v e1
      rw [List.concat_eq_append]
      exact ⟨a1, a2 ++ [x], n1, n2, by simp, rfl, h1, .keep x y hc h2⟩

theorem edit_append {eq : α → α → Bool} {a b : List α} {n : Nat} (h1 : Edit eq a b n) {c d : List α} {m : Nat} (h : Edit eq c d m) :
    Edit eq (a ++ c) (b ++ d) (n + m) := by
  induction h with
  | nil => simpa using h1
  | del x h ih => rw [← List.append_assoc]; exact .del x ih
  | ins y h ih => rw [← List.append_assoc]; exact .ins y ih
  | sub x y h ih => rw [← List.append_assoc, ← List.append_assoc]; exact .sub x y ih
  | keep x y hc h ih => rw [← List.append_assoc, ← List.append_assoc]; exact .keep x y hc ih

theorem edit_len {eq : α → α → Bool} {a b : List α} {n : Nat} (h : Edit eq a b n) : a.length ≤ b.length + n := by
  induction h <;> simp <;> omega

theorem edit_to_nil (eq : α → α → Bool) (a : List α) : Edit eq a [] a.length := by
  have := edit_nil_right (eq := eq) (ok := no) a.reverse
  rw [List.reverse_reverse, List.length_reverse] at this
  exact (edit_iff _ _ _).2 this

theorem edit_step {eq : α → α → Bool} {a b c : List α} {n : Nat} (h : Edit eq a b n) (hs : Step b c) : ∃ m, m ≤ n + 1 ∧ Edit eq a c m := by
  cases hs with
  | ins u v x =>
    obtain ⟨a1, a2, n1, n2, rfl, rfl, h1, h2⟩ := edit_split h u v rfl
    have := edit_append (Edit.ins x h1) h2
    rw [List.append_assoc] at this
    exact ⟨_, by omega, this⟩
  | del u v x =>
    obtain ⟨a1, a2, n1, n2, rfl, rfl, h1, h2⟩ := edit_split h u (x :: v) rfl
    obtain ⟨a3, a4, n3, n4, rfl, rfl, h3, h4⟩ := edit_split h2 [x] v rfl
    have hl := edit_len h3
    have := edit_append h1 (edit_append (edit_to_nil eq a3) h4)
    refine ⟨_, ?_, this⟩
    simp only [List.length_cons, List.length_nil] at hl
    omega
  | sub u v x y =>
    obtain ⟨a1, a2, n1, n2, rfl, rfl, h1, h2⟩ := edit_split h u (x :: v) rfl
    obtain ⟨a3, a4, n3, n4, rfl, rfl, h3, h4⟩ := edit_split h2 [x] v rfl
    have hl := edit_len h3
    simp only [List.length_cons, List.length_nil] at hl
    have h5 : ∃ m, m ≤ n3 + 1 ∧ Edit eq a3 [y] m := by
      rcases List.eq_nil_or_concat a3 with rfl | ⟨a3, z, rfl⟩
      · refine ⟨1, by omega, ?_⟩
        exact Edit.ins (b := []) y .nil
      · rw [List.concat_eq_append] at hl ⊢
        simp only [List.length_append, List.length_cons, List.length_nil] at hl
        refine ⟨a3.length + 1, by omega, ?_⟩
        exact Edit.sub (b := []) z y (edit_to_nil eq a3)
    obtain ⟨m, hm, h5⟩ := h5
    have := edit_append h1 (edit_append h5 h4)
    exact ⟨_, by omega, this⟩

theorem edit_refl {eq : α → α → Bool} (hq : ∀ x, eq x x = true) (a : List α) : Edit eq a a 0 := by
  have : ∀ r : List α, Edit eq r.reverse r.reverse 0 := by
    intro r
    induction r with
    | nil => exact .nil
    | cons x r ih => rw [List.reverse_cons]; exact .keep x x (hq x) ih
  simpa using this a.reverse

theorem steps_append {n : Nat} {a b : List α} (h : Steps n a b) (c : List α) : Steps n (a ++ c) (b ++ c) := by
  induction h with
  | zero a => exact .zero _
  | succ h hs ih =>
    refine .succ ih ?_
    cases hs with
    | ins u v x => have := Step.ins u (v ++ c) x; simpa using this
    | del u v x => have := Step.del u (v ++ c) x; simpa using this
    | sub u v x y => have := Step.sub u (v ++ c) x y; simpa using this

theorem steps_front {n : Nat} {a b c : List α} (hs : Step a b) (h : Steps n b c) : Steps (n + 1) a c := by
  induction h with
  | zero b => exact .succ (.zero a) hs
  | succ h hs' ih => exact .succ (ih hs) hs'

theorem steps_of_edit {eq : α → α → Bool} (hq : ∀ x y, eq x y = true → x = y) {a b : List α} {n : Nat} (h : Edit eq a b n) : Steps n a b := by
  induction h with
  | nil => exact .zero _
  | @del a b n x h ih =>
    have : Step (a ++ [x]) a := by simpa using Step.del a [] x
    exact steps_front this ih
  | @ins a b n y h ih =>
    have : Step b (b ++ [y]) := by simpa using Step.ins b [] y
    exact .succ ih this
  | @sub a b n x y h ih =>
    have : Step (b ++ [x]) (b ++ [y]) := Step.sub b [] x y
    exact .succ (steps_append ih [x]) this
  | keep x y hc h ih => rw [hq x y hc]; exact steps_append ih [y]

theorem edit_of_steps {eq : α → α → Bool} (hq : ∀ x, eq x x = true) {a b : List α} {n : Nat} (h : Steps n a b) :
    ∃ m, m ≤ n ∧ Edit eq a b m := by
  induction h with
  | zero a => exact ⟨0, Nat.le_refl _, edit_refl hq a⟩
  | succ h hs ih =>
    obtain ⟨m, hm, he⟩ := ih
    obtain ⟨m', hm', he'⟩ := edit_step he hs
    exact ⟨m', by omega, he'⟩

/-- C86: when the comparison is equality, the least cost of an alignment is the least number of edits, anywhere and in any order, that turn
one sequence into the other. -/
theorem C86_l_steps (eq : α → α → Bool) (hq : ∀ x y, eq x y = true ↔ x = y) (a b : List α) (d : Nat) :
    Least (Edit eq a b) d ↔ Least (fun n => Steps n a b) d := by
  have hr : ∀ x, eq x x = true := fun x => (hq x x).2 rfl
  constructor
  · rintro ⟨h1, h2⟩
    refine ⟨steps_of_edit (fun x y => (hq x y).1) h1, fun m hm => ?_⟩
    obtain ⟨k, hk, he⟩ := edit_of_steps hr hm
    exact Nat.le_trans (h2 k he) hk
  · rintro ⟨h1, h2⟩
    obtain ⟨k, hk, he⟩ := edit_of_steps hr h1
    have := h2 k (steps_of_edit (fun x y => (hq x y).1) he)
    have e : k = d := by omega
    subst e
    exact ⟨he, fun m hm => h2 m (steps_of_edit (fun x y => (hq x y).1) hm)⟩

/-! ### The restricted edit distance -/

/-- C86: `re-distances` gives the least cost of an alignment with transpositions of adjacent elements where no transposition is at the
beginning of either sequence. -/
theorem C86_re_distances (eq : α → α → Bool) (A : List α) (cutoff : Option Nat) (rows : Row × Row × Row) (Bs : List (List α)) :
    (rBase eq A cutoff rows Bs).length = Bs.length ∧
    ∀ (k : Nat) B, Bs[k]? = some B → ∃ d, Least (REdit eq (fun i j => decide (0 < i) && decide (0 < j)) A B) d ∧
      (rBase eq A cutoff rows Bs)[k]? = some (withCutoff cutoff d) := by
  rw [rBase_spec]
  exact ⟨by simp, fun k B hB => ⟨dist eq inner A.reverse B.reverse, dist_least A B, by simp [hB]⟩⟩

theorem redit_nil_left {eq : α → α → Bool} {ok ok' : Nat → Nat → Bool} {a b : List α} {n : Nat} (h : REdit eq ok a b n)
    (ha : a = [] ∨ b = []) : ∃ m, m ≤ n ∧ REdit eq ok' a b m := by
  have hl := dist_le_of_edit h
  rcases ha with rfl | rfl
  · rw [List.reverse_nil, dist_nil_left, List.length_reverse] at hl
    refine ⟨b.length, hl, ?_⟩
    have := edit_nil_left (eq := eq) (ok := ok') b.reverse
    rwa [List.reverse_reverse, List.length_reverse] at this
  · rw [List.reverse_nil, dist_nil_right, List.length_reverse] at hl
    refine ⟨a.length, hl, ?_⟩
    have := edit_nil_right (eq := eq) (ok := ok') a.reverse
    rwa [List.reverse_reverse, List.length_reverse] at this

theorem redit_inner {eq : α → α → Bool} {a b : List α} {n : Nat} (h : REdit eq (fun _ _ => true) a b n) :
    ∃ m, m ≤ n + 1 ∧ REdit eq inner a b m := by
  induction h with
  | nil => exact ⟨0, by omega, .nil⟩
  | del x _ ih => obtain ⟨m, hm, h⟩ := ih; exact ⟨m + 1, by omega, .del x h⟩
  | ins x _ ih => obtain ⟨m, hm, h⟩ := ih; exact ⟨m + 1, by omega, .ins x h⟩
  | sub x y _ ih => obtain ⟨m, hm, h⟩ := ih; exact ⟨m + 1, by omega, .sub x y h⟩
  | keep x y hc _ ih => obtain ⟨m, hm, h⟩ := ih; exact ⟨m, by omega, .keep x y hc h⟩
  | @swap a b n x' x y' y h1 h2 h3 h ih =>
    by_cases hab : a = [] ∨ b = []
    · obtain ⟨m, hm, h'⟩ := redit_nil_left (ok' := inner) h hab
      have e : ∀ (l : List α) (p q : α), l ++ [p, q] = (l ++ [p]) ++ [q] := by simp
      by_cases hc : eq x y = true
      · refine ⟨m + 1, by omega, ?_⟩
        rw [e, e]
        exact .keep x y hc (.sub x' y' h')
      · refine ⟨m + 1 + 1, by rw [if_neg hc]; omega, ?_⟩
        rw [e, e]
        exact .sub x y (.sub x' y' h')
    · obtain ⟨m, hm, h'⟩ := ih
      refine ⟨m + if eq x y = true then 0 else 1, by omega, .swap x' x y' y h1 h2 ?_ h'⟩
      rw [not_or] at hab
      have p1 := List.length_pos_iff.2 hab.1
      have p2 := List.length_pos_iff.2 hab.2
      simp [inner, p1, p2]

/-- C86: this is at least the restricted edit distance, exceeds it by at most one, and is at most the Levenshtein distance. -/
theorem C86_re_bounds (eq : α → α → Bool) (a b : List α) (d r l : Nat)
    (hd : Least (REdit eq (fun _ _ => true) a b) d) (hr : Least (REdit eq (fun i j => decide (0 < i) && decide (0 < j)) a b) r)
    (hl : Least (Edit eq a b) l) : d ≤ r ∧ r ≤ d + 1 ∧ r ≤ l := by
  refine ⟨?_, ?_, ?_⟩
  · have : ∀ {a b n}, REdit eq (fun i j => decide (0 < i) && decide (0 < j)) a b n → REdit eq (fun _ _ => true) a b n := by
      intro a b n h
      induction h with
      | nil => exact .nil
      | del x _ ih => exact .del x ih
      | ins x _ ih => exact .ins x ih
      | sub x y _ ih => exact .sub x y ih
      | keep x y hc _ ih => exact .keep x y hc ih
      | swap x' x y' y h1 h2 _ _ ih => exact .swap x' x y' y h1 h2 rfl ih
    exact hd.2 _ (this hr.1)
  · obtain ⟨m, hm, h⟩ := redit_inner hd.1
    exact Nat.le_trans (hr.2 m h) hm
  · have : ∀ {a b n}, Edit eq a b n → REdit eq (fun i j => decide (0 < i) && decide (0 < j)) a b n := by
      intro a b n h
      induction h with
      | nil => exact .nil
      | del x _ ih => exact .del x ih
      | ins x _ ih => exact .ins x ih
      | sub x y _ ih => exact .sub x y ih
      | keep x y hc _ ih => exact .keep x y hc ih
    exact hr.2 _ (this hl.1)

/-- What C86 does not give: the manual has `(re-distance "cat" "act")` as 1, the restricted edit distance, but the transposition is not
recognized at the beginning and the result is 2. -/
theorem C86_bug_re_first (rows : Row × Row × Row) :
    rBase (· == ·) "cat".toList none rows ["act".toList] = [some 2] ∧
    Least (REdit (· == ·) (fun _ _ => true) "cat".toList "act".toList) 1 := by
  constructor
  · rw [rBase_spec]; decide +kernel
  · have := dist_least (eq := fun a b : Char => a == b) (ok := fun _ _ => true) "cat".toList "act".toList
    have e : dist (fun a b : Char => a == b) (fun _ _ => true) "cat".toList.reverse "act".toList.reverse = 1 := by decide +kernel
    rw [e] at this
    exact this

/-! Non-vacuity. -/
example : lBase (· == ·) "kitten".toList none (fun _ => 7, fun _ => 9) ["sitting".toList, "kitten".toList, "".toList] =
    [some 3, some 0, some 6] := by decide +kernel
example : lBase (· == ·) "kitten".toList (some 2) (fun _ => 7, fun _ => 9) ["sitting".toList, "mitten".toList] = [none, some 1] := by
  decide +kernel
example : rBase (· == ·) "pepper".toList none (fun _ => 7, fun _ => 9, fun _ => 3) ["peppre".toList, "peper".toList] =
    [some 1, some 1] := by decide +kernel
example : ∀ x y : Nat, ((x == y) = true ↔ x = y) := fun _ _ => beq_iff_eq
example : ∃ d, Least (REdit (· == ·) (fun _ _ => true) [1, 2, 3] [2, 1, 3]) d := ⟨_, dist_least _ _⟩

end Gauche.Lev

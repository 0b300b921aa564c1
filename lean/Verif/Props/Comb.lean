import Verif.Proof.Comb
import Mathlib.Data.Nat.Choose.Basic
import Mathlib.Algebra.BigOperators.Group.List.Defs
import Mathlib.Algebra.BigOperators.Group.List.Basic
import Mathlib.Algebra.Group.Action.Defs
/-! C85: `util.combinations` enumerates exactly what it says, each once and in order. -/
namespace Gauche.Comb

variable {α β τ : Type}

theorem map_some_eq (l : List α) : l.map some = (List.range l.length).map (fun i => l[i]?) := by
  apply List.ext_getElem?
  intro i
  by_cases h : i < l.length
  · simp [h]
  · simp [h, List.getElem?_eq_none (Nat.le_of_not_lt h)]

/-- C85: `(permutations l)` lists the rearrangements of the positions of `l`, every one once, in lexicographic order of positions. -/
theorem C85_permutations (l : List α) : ∃ P : List (List Nat),
    (∀ q, q ∈ P ↔ q.Perm (List.range l.length)) ∧ P.Pairwise (List.Lex (· < ·)) ∧
    (perms l.length l).map (List.map some) = P.map (fun q => q.map (fun i => l[i]?)) := by
  refine ⟨perms l.length (List.range l.length), mem_perms _ _ (by simp), perms_lex _ _ (by simp) List.pairwise_lt_range, ?_⟩
  rw [← perms_map some l.length l rfl, map_some_eq, perms_map _ _ _ (by simp)]

/-- C85: a list is one of the permutations when it is a rearrangement of `l`, and there are `n!` of them. -/
theorem C85_permutations_mem (l : List α) :
    (∀ p, p ∈ perms l.length l ↔ p.Perm l) ∧ (perms l.length l).length = l.length.factorial := by
  refine ⟨mem_perms _ l rfl, ?_⟩
  have : ∀ (n : Nat) (l : List α), l.length = n → (perms n l).length = n.factorial := by
    intro n
    induction n with
    | zero => intro l _; rfl
    | succ n ih =>
      intro l hl
      cases l with
      | nil => cases hl
      | cons x l =>
        have hl' : l.length = n := by simpa using hl
        rw [perms_step n x l hl']
        unfold expand
        rw [List.length_flatMap]
        have hc : (picks (x :: l)).map (fun q => ((perms n q.2).map (q.1 :: ·)).length)
            = (picks (x :: l)).map (fun _ => n.factorial) := by
          apply List.map_congr_left
          rintro ⟨y, r⟩ h
          have hr : r.length = n := by have := picks_len _ _ h; simp at this; omega
          simp [ih r hr]
        have hp : (picks (x :: l)).length = n + 1 := by
          have := congrArg List.length (picks_fst (x :: l))
          rw [List.length_map] at this
          rw [this]; simp [hl']
        rw [hc, List.map_const', List.sum_replicate, hp, Nat.factorial_succ, smul_eq_mul]
  exact this _ l rfl

/-- C85: `permutations-for-each` calls its procedure on the permutations, in the same order, when the list is not empty. -/
theorem C85_permutations_for_each (proc : List α → List τ) (l : List α) (hl : l ≠ []) :
    permsForEach proc l = (perms l.length l).flatMap proc := permsForEach_eq proc l hl

/-- What C85 does not give: the empty list has one permutation, the empty list, but the `-for-each` procedures do not call their procedure. -/
theorem C85_bug_for_each_empty (proc : List α → List τ) (eq : α → α → Bool) :
    perms 0 ([] : List α) = [[]] ∧ permsForEach proc [] = [] ∧ permsStarForEach eq 0 proc [] = [] ∧
    permsStar eq 0 ([] : List α) = [[]] ∧ combForEach 0 proc [] = proc [] := ⟨rfl, rfl, rfl, rfl, rfl⟩

/-- C85: `permutations*`, where `eq` compares keys: rearrangements of the list, every sequence of keys that can be formed, and none twice. -/
theorem C85_permutations_star (eq : α → α → Bool) (key : α → β) (hk : ∀ a b, eq a b = true ↔ key a = key b) (l : List α) :
    (∀ p ∈ permsStar eq l.length l, p.Perm l) ∧
    (∀ w, w.Perm (l.map key) → ∃ p ∈ permsStar eq l.length l, p.map key = w) ∧
    (permsStar eq l.length l).Pairwise (fun p q => p.map key ≠ q.map key) ∧
    (∀ proc : List α → List τ, l ≠ [] → permsStarForEach eq l.length proc l = (permsStar eq l.length l).flatMap proc) :=
  ⟨permsStar_perm hk _ l rfl, permsStar_complete hk _ l rfl, permsStar_pairwise hk _ l rfl,
    fun proc h => permsStarForEach_eq (eq_symm hk) _ proc l rfl h⟩

/-- C85: `(combinations l n)` lists the increasing choices of `n` positions of `l`, every one once, in lexicographic order. -/
theorem C85_combinations (l : List α) (n : Nat) : ∃ P : List (List Nat),
    (∀ q, q ∈ P ↔ q.Sublist (List.range l.length) ∧ q.length = n) ∧ P.Pairwise (List.Lex (· < ·)) ∧
    (combinations l n).map (List.map some) = P.map (fun q => q.map (fun i => l[i]?)) := by
  refine ⟨combinations (List.range l.length) n, ?_, ?_, ?_⟩
  · intro q; rw [combinations_eq, mem_combs]
  · rw [combinations_eq]; exact combs_lex _ List.pairwise_lt_range n
  · rw [combinations_eq, combinations_eq, ← combs_map, map_some_eq, combs_map]

/-- C85: a list is one of the combinations when it is a sublist of `n` elements; there are `(l choose n)` of them, and
`combinations-for-each` calls its procedure on them in the same order. -/
theorem C85_combinations_mem (l : List α) (n : Nat) (proc : List α → List τ) :
    (∀ c, c ∈ combinations l n ↔ c.Sublist l ∧ c.length = n) ∧ (combinations l n).length = l.length.choose n ∧
    combForEach n proc l = (combinations l n).flatMap proc := by
  rw [combinations_eq]
  refine ⟨mem_combs l n, ?_, combForEach_eq n proc l⟩
  induction l generalizing n with
  | nil => cases n <;> simp [combs]
  | cons x l ih =>
    cases n with
    | zero => simp [combs]
    | succ n => rw [combs, List.length_append, List.length_map, ih, ih, List.length_cons, Nat.choose_succ_succ]

/-- C85: `combinations*`, where `eq` compares keys: sublists of `n` elements, every multiset of `n` keys that the list has, and none twice. -/
theorem C85_combinations_star [DecidableEq β] (eq : α → α → Bool) (key : α → β) (hk : ∀ a b, eq a b = true ↔ key a = key b)
    (l : List α) (n : Nat) (proc : List α → List τ) :
    (∀ c ∈ combStar eq n l, c.Sublist l ∧ c.length = n) ∧
    (∀ w : List β, w.Subperm (l.map key) → w.length = n → ∃ c ∈ combStar eq n l, (c.map key).Perm w) ∧
    (combStar eq n l).Pairwise (fun c d => ¬ (c.map key).Perm (d.map key)) ∧
    combStarForEach eq n proc l = (combStar eq n l).flatMap proc := by
  refine ⟨combStar_sub n l, ?_, combStar_pairwise hk n l, combStarForEach_eq n proc l⟩
  rintro w ⟨w', hp, hs⟩ hl
  obtain ⟨c, hc, h⟩ := combStar_complete hk n l w' hs (by rw [hp.length_eq, hl])
  exact ⟨c, hc, h.trans hp⟩

/-- C85: `(power-set l)` lists all choices of positions, every one once, the smaller ones first and those of a size in lexicographic order. -/
theorem C85_power_set (l : List α) (proc : List α → List τ) : ∃ P : List (List Nat),
    (∀ q, q ∈ P ↔ q.Sublist (List.range l.length)) ∧
    P.Pairwise (fun a b => a.length < b.length ∨ (a.length = b.length ∧ List.Lex (· < ·) a b)) ∧
    (powerSet l).map (List.map some) = P.map (fun q => q.map (fun i => l[i]?)) ∧
    powerSetForEach proc l = (powerSet l).flatMap proc := by
  have e : ∀ {γ : Type} (m : List γ), powerSet m = (List.range' 0 (m.length + 1)).flatMap (fun n => combs n m) := by
    intro γ m
    unfold powerSet
    rw [powerLoop_eq]
    congr 1
    funext n
    exact combinations_eq m n
  refine ⟨powerSet (List.range l.length), ?_, ?_, ?_, ?_⟩
  · intro q
    rw [e, List.mem_flatMap]
    constructor
    · rintro ⟨n, _, h⟩; exact ((mem_combs _ n q).1 h).1
    · intro h
      refine ⟨q.length, ?_, (mem_combs _ _ q).2 ⟨h, rfl⟩⟩
      have := h.length_le
      rw [List.mem_range']
      exact ⟨q.length, by omega, by simp⟩
  · rw [e, List.pairwise_flatMap]
    refine ⟨?_, ?_⟩
    · intro n _
      refine List.Pairwise.imp_of_mem ?_ (combs_lex _ List.pairwise_lt_range n)
      intro a b ha hb hab
      have h1 := ((mem_combs _ _ _).1 ha).2
      have h2 := ((mem_combs _ _ _).1 hb).2
      exact Or.inr ⟨by rw [h1, h2], hab⟩
    · refine (List.pairwise_lt_range' (s := 0) (n := (List.range l.length).length + 1) 1).imp ?_
      intro n m hnm a ha b hb
      have h1 := ((mem_combs _ _ _).1 ha).2
      have h2 := ((mem_combs _ _ _).1 hb).2
      exact Or.inl (by rw [h1, h2]; exact hnm)
  · rw [e, e, List.map_flatMap, List.map_flatMap, List.length_range]
    apply List.flatMap_congr
    intro n _
    rw [← combs_map, map_some_eq, combs_map]
  · rw [e]
    unfold powerSetForEach
    rw [powerLoop_eq, List.flatMap_assoc]
    apply List.flatMap_congr
    intro n _
    exact combForEach_eq n proc l

/-- C85: `power-set-binary` has the sublists, as many as there are choices of positions. -/
theorem C85_power_set_binary (l : List α) :
    (∀ c, c ∈ powerSetBinary l ↔ c.Sublist l) ∧ (powerSetBinary l).length = 2 ^ l.length ∧
    (l.Nodup → (powerSetBinary l).Nodup) := by
  refine ⟨mem_powerSetBinary l, ?_, ?_⟩
  · induction l with
    | nil => rfl
    | cons x l ih => rw [powerSetBinary, List.length_append, List.length_map, ih, List.length_cons, Nat.pow_succ]; omega
  · induction l with
    | nil => intro _; simp [powerSetBinary]
    | cons x l ih =>
      intro h
      rw [List.nodup_cons] at h
      rw [powerSetBinary, List.nodup_append]
      refine ⟨ih h.2, List.pairwise_map.2 ((ih h.2).imp (fun hab e => hab (by simpa using e))), ?_⟩
      rintro a ha b hb rfl
      obtain ⟨s, _, rfl⟩ := List.mem_map.1 hb
      exact h.1 (((mem_powerSetBinary l _).1 ha).subset (by simp))

/-- C85: `power-set*` has every multiset of keys of the list once. -/
theorem C85_power_set_star [DecidableEq β] (eq : α → α → Bool) (key : α → β) (hk : ∀ a b, eq a b = true ↔ key a = key b)
    (l : List α) (proc : List α → List τ) :
    (∀ c ∈ powerSetStar eq l, c.Sublist l) ∧
    (∀ w : List β, w.Subperm (l.map key) → ∃ c ∈ powerSetStar eq l, (c.map key).Perm w) ∧
    (powerSetStar eq l).Pairwise (fun c d => ¬ (c.map key).Perm (d.map key)) ∧
    powerSetStarForEach eq proc l = (powerSetStar eq l).flatMap proc := by
  unfold powerSetStar powerSetStarForEach
  rw [powerLoop_eq, powerLoop_eq]
  refine ⟨?_, ?_, ?_, ?_⟩
  · intro c hc
    obtain ⟨n, _, h⟩ := List.mem_flatMap.1 hc
    exact (combStar_sub n l c h).1
  · intro w hw
    obtain ⟨c, hc, h⟩ := (C85_combinations_star (τ := τ) eq key hk l w.length (fun _ => [])).2.1 w hw rfl
    refine ⟨c, List.mem_flatMap.2 ⟨w.length, ?_, hc⟩, h⟩
    have := hw.length_le
    rw [List.length_map] at this
    rw [List.mem_range']
    exact ⟨w.length, by omega, by simp⟩
  · rw [List.pairwise_flatMap]
    refine ⟨fun n _ => combStar_pairwise hk n l, ?_⟩
    refine (List.pairwise_lt_range' (s := 0) (n := l.length + 1) 1).imp ?_
    intro n m hnm a ha b hb hp
    have h1 := (combStar_sub n l a ha).2
    have h2 := (combStar_sub m l b hb).2
    have := hp.length_eq
    rw [List.length_map, List.length_map, h1, h2] at this
    omega
  · rw [List.flatMap_assoc]
    apply List.flatMap_congr
    intro n _
    exact combStarForEach_eq n proc l

/-- C85: `cartesian-product` has the lists of one element from each list; the last element varies first.  The right-fixed product is
the one of the reversed lists, reversed, as the comment in the source says. -/
theorem C85_cartesian (lol : List (List α)) (proc : List α → List τ) :
    (∀ p, p ∈ cartesian lol ↔ List.Forall₂ (· ∈ ·) p lol) ∧
    (cartesian lol).length = (lol.map List.length).prod ∧
    cartesianRight lol = (cartesian lol.reverse).map List.reverse ∧
    cartesianForEach proc lol = (cartesian lol).flatMap proc ∧
    cartesianRightForEach proc lol = (cartesianRight lol).flatMap proc := by
  refine ⟨mem_cartesian lol, ?_, cartesianRight_eq lol, cartesianForEach_eq lol proc, cartesianRightForEach_eq lol proc⟩
  induction lol with
  | nil => rfl
  | cons l lol ih =>
    rw [cartesian, List.length_flatMap]
    simp only [List.length_map]
    rw [List.map_const', List.sum_replicate, ih, List.map_cons, List.prod_cons, smul_eq_mul]

/-- C85: the product of lists of increasing numbers is in lexicographic order, and the product commutes with any function on the elements;
together they give the order for all lists. -/
theorem C85_cartesian_order (lol : List (List Nat)) (h : ∀ l ∈ lol, l.Pairwise (· < ·)) (f : Nat → α) :
    (cartesian lol).Pairwise (List.Lex (· < ·)) ∧ cartesian (lol.map (List.map f)) = (cartesian lol).map (List.map f) :=
  ⟨cartesian_lex lol h, cartesian_map f lol⟩

/-! Non-vacuity. -/
example : perms 4 [1, 2, 3, 4] = [[1,2,3,4],[1,2,4,3],[1,3,2,4],[1,3,4,2],[1,4,2,3],[1,4,3,2],[2,1,3,4],[2,1,4,3],[2,3,1,4],[2,3,4,1],
  [2,4,1,3],[2,4,3,1],[3,1,2,4],[3,1,4,2],[3,2,1,4],[3,2,4,1],[3,4,1,2],[3,4,2,1],[4,1,2,3],[4,1,3,2],[4,2,1,3],[4,2,3,1],[4,3,1,2],
  [4,3,2,1]] := by decide +kernel
example : permsForEach (fun p => [p]) [1, 2, 3, 4, 5] = perms 5 [1, 2, 3, 4, 5] := by decide +kernel
example : permsStar (· == ·) 3 [1, 1, 2] = [[1, 1, 2], [1, 2, 1], [2, 1, 1]] := by decide +kernel
example : combinations [1, 2, 3, 4] 2 = [[1, 2], [1, 3], [1, 4], [2, 3], [2, 4], [3, 4]] := by decide +kernel
example : combStar (· == ·) 2 [1, 2, 1, 3] = [[1, 2], [1, 1], [1, 3], [2, 3]] := by decide +kernel
example : powerSet [1, 2] = [[], [1], [2], [1, 2]] := by decide +kernel
example : cartesianRight [[1, 2], [3, 4]] = [[1, 3], [2, 3], [1, 4], [2, 4]] := by decide +kernel
example : ∀ a b : Nat × Nat, ((a.1 == b.1) = true ↔ Prod.fst a = Prod.fst b) := fun a b => beq_iff_eq

end Gauche.Comb

import Verif.Proof.UnifyTerm
/-! C90: unification. -/
namespace Gauche.Unify

/-- `unify` comes to an end on every two trees, and what it returns does not depend on the bound. -/
theorem C90_terminates (a b : Tree) : ∃ k r, ∀ k', k ≤ k' → unify k' a b = some r := by
  obtain ⟨k, r, h⟩ := unify_term a b
  exact ⟨k, r, fun k' hk => unifyRec_le hk h⟩

/-- If `unify` returns a dictionary, the assignments that make the trees the same are exactly those that respect the dictionary. -/
theorem C90_dictionary {k : Nat} {a b : Tree} {d : Dict} (h : unify k a b = some (some d)) (s : Nat → Tree) : Unifies s a b ↔ Sat s d := by
  have := unifyRec_means k a b _ _ h s
  rw [this]
  exact ⟨fun h => ⟨fun _ _ h => (by cases h), h⟩, fun h => h.2⟩

/-- If `unify` returns `#f`, no assignment makes the trees the same. -/
theorem C90_false {k : Nat} {a b : Tree} (h : unify k a b = some none) (s : Nat → Tree) : ¬ Unifies s a b :=
  unifyRec_means k a b _ _ h s (fun _ _ h => (by cases h))

/-- If `unify` returns a dictionary, there is a most general assignment making the trees the same: every other one is obtained from it. -/
theorem C90_most_general {k : Nat} {a b : Tree} {d : Dict} (h : unify k a b = some (some d)) :
    ∃ m, Unifies m a b ∧ ∀ s, Unifies s a b → ∀ v, eval s (m v) = s v := by
  obtain ⟨rank, hr⟩ := unifyRec_ranked k a b _ d ranked_empty h
  exact ⟨solution d rank, (C90_dictionary h _).2 (solution_sat hr),
    fun s hs v => sat_solution hr ((C90_dictionary h s).1 hs) _ v (Nat.lt_succ_self _)⟩

/-- `unify` returns a dictionary exactly when some assignment makes the trees the same. -/
theorem C90_decides (a b : Tree) : ∃ k r, unify k a b = some r ∧ (r.isSome ↔ ∃ s, Unifies s a b) := by
  obtain ⟨k, r, h⟩ := unify_term a b
  refine ⟨k, r, h, ?_⟩
  cases r with
  | none => exact ⟨fun h => (by cases h), fun ⟨s, hs⟩ => absurd hs (C90_false h s)⟩
  | some d =>
    obtain ⟨m, hm, _⟩ := C90_most_general h
    exact ⟨fun _ => ⟨m, hm⟩, fun _ => rfl⟩

/-- `unify-merge` comes to an end; it returns `#f` if no assignment makes the trees the same, and otherwise a tree that both become under a
most general assignment. -/
theorem C90_merge (a b : Tree) : ∃ k r, (∀ k', k ≤ k' → unifyMerge k' a b = some r) ∧
    match r with
    | none => ∀ s, ¬ Unifies s a b
    | some t => ∃ m, eval m a = t ∧ eval m b = t ∧ ∀ s, Unifies s a b → ∀ v, eval s (m v) = s v := by
  obtain ⟨k, r, h⟩ := unify_term a b
  cases r with
  | none =>
    refine ⟨k, none, fun k' hk => ?_, C90_false h⟩
    have h' : unify k' a b = some none := unifyRec_le hk h
    rw [unifyMerge, h']
  | some d =>
    obtain ⟨rank, hr⟩ := unifyRec_ranked k a b _ d ranked_empty h
    obtain ⟨k2, t, h2⟩ := subst_term hr _ _ a (Nat.le_refl _) (Nat.le_refl _)
    refine ⟨max k k2, some t, fun k' hk => ?_, solution d rank, (subst_eval hr k2 a t h2).symm, ?_, ?_⟩
    · have h' : unify k' a b = some (some d) := unifyRec_le (Nat.le_trans (Nat.le_max_left _ _) hk) h
      rw [unifyMerge, h']
      dsimp only
      rw [subst_le (Nat.le_trans (Nat.le_max_right _ _) hk) h2, Option.map_some]
    · rw [subst_eval hr k2 a t h2]
      exact ((C90_dictionary h _).2 (solution_sat hr)).symm
    · exact fun s hs v => sat_solution hr ((C90_dictionary h s).1 hs) _ v (Nat.lt_succ_self _)

/-! Concrete cases: the manual's kind of pattern `(x 1 (y))` against `(2 y (z))`, the occurs check through a variable, and a clash. -/

example : ∃ d, unify 10 (.tup [.var 0, .val 1, .tup [.var 1]]) (.tup [.val 2, .var 1, .tup [.var 2]]) = some (some d) ∧
    (d 0, d 1, d 2) = (some (.val 2), some (.val 1), some (.val 1)) := ⟨_, rfl, rfl⟩

example : unifyMerge 10 (.tup [.var 0, .val 1, .tup [.var 1]]) (.tup [.val 2, .var 1, .tup [.var 2]])
    = some (some (.tup [.val 2, .val 1, .tup [.val 1]])) := rfl

example : unify 10 (.tup [.var 0, .var 1]) (.tup [.tup [.var 1], .tup [.var 0]]) = some none := rfl

example : unify 10 (.tup [.var 0, .var 0]) (.tup [.val 1, .val 2]) = some none := rfl

example : ∃ d, unify 10 (.var 0) (.var 0) = some (some d) := ⟨_, rfl⟩

end Gauche.Unify

import Mathlib.Tactic.Order
import Verif.Spec.Temporal
/-! C96: the relation of two intervals. -/
namespace Gauche.Temporal
variable {P : Type} [LinearOrder P] {cmp : P → P → Ordering}

theorem holds_relate (hc : IsCompare cmp) (xl xg yl yg : P) (hx : xl < xg) (hy : yl < yg) : Holds xl xg yl yg (relate cmp xl xg yl yg) := by
  rw [relate]
  cases h1 : cmp xl yl with
  | lt =>
    have h1 := (hc _ _).1.1 h1
    cases h2 : cmp xg yl with
    | lt => exact (hc _ _).1.1 h2
    | eq => exact (hc _ _).2.1.1 h2
    | gt =>
      have h2 := (hc _ _).2.2.1 h2
      cases h3 : cmp xg yg with
      | lt => exact ⟨h1, h2, (hc _ _).1.1 h3⟩
      | eq => exact ⟨h1, (hc _ _).2.1.1 h3⟩
      | gt => exact ⟨h1, (hc _ _).2.2.1 h3⟩
  | eq =>
    have h1 := (hc _ _).2.1.1 h1
    cases h3 : cmp xg yg with
    | lt => exact ⟨h1, (hc _ _).1.1 h3⟩
    | eq => exact ⟨h1, (hc _ _).2.1.1 h3⟩
    | gt => exact ⟨h1, (hc _ _).2.2.1 h3⟩
  | gt =>
    have h1 := (hc _ _).2.2.1 h1
    cases h2 : cmp xl yg with
    | lt =>
      have h2 := (hc _ _).1.1 h2
      cases h3 : cmp xg yg with
      | lt => exact ⟨h1, (hc _ _).1.1 h3⟩
      | eq => exact ⟨h1, (hc _ _).2.1.1 h3⟩
      | gt => exact ⟨h1, h2, (hc _ _).2.2.1 h3⟩
    | eq => exact ((hc _ _).2.1.1 h2).symm
    | gt => exact (hc _ _).2.2.1 h2

/-- Two of the relations do not hold for the same proper intervals. -/
theorem C96_exclusive (xl xg yl yg : P) (hx : xl < xg) (hy : yl < yg) (r s : Rel) (hr : Holds xl xg yl yg r) (hs : Holds xl xg yl yg s) : r = s := by
  cases r <;> cases s <;> first | rfl | (exfalso; simp only [Holds] at hr hs; order)

/-- `relate` gives the relation that holds, for all proper intervals. -/
theorem C96_relate (hc : IsCompare cmp) (xl xg yl yg : P) (hx : xl < xg) (hy : yl < yg) (r : Rel) :
    relate cmp xl xg yl yg = r ↔ Holds xl xg yl yg r :=
  ⟨fun h => h ▸ holds_relate hc xl xg yl yg hx hy, fun h => C96_exclusive xl xg yl yg hx hy _ _ (holds_relate hc xl xg yl yg hx hy) h⟩

/-- Exchanged intervals have the inverse relation, also intervals that are points or backward. -/
theorem C96_inverse (hc : IsCompare cmp) (xl xg yl yg : P) : relate cmp yl yg xl xg = inverse (relate cmp xl xg yl yg) := by
  have sw : ∀ a b, cmp b a = (cmp a b).swap := by
    intro a b
    cases h : cmp a b with
    | lt => exact (hc b a).2.2.2 ((hc a b).1.1 h)
    | eq => exact (hc b a).2.1.2 ((hc a b).2.1.1 h).symm
    | gt => exact (hc b a).1.2 ((hc a b).2.2.1 h)
  rw [relate, relate, sw xl yl, sw xl yg, sw xg yl, sw xg yg]
  cases cmp xl yl <;> cases cmp xl yg <;> cases cmp xg yl <;> cases cmp xg yg <;> rfl

/-- The inverse of the inverse is the relation itself. -/
theorem C96_inverse_inverse (r : Rel) : inverse (inverse r) = r := by cases r <;> rfl

/-- `relate-point` gives the relation of a proper interval and a point that is in the manual. -/
theorem C96_relate_point (hc : IsCompare cmp) (l g p : P) (hx : l < g) (r : Rel) : relatePoint cmp l g p = r ↔ HoldsPoint l g p r := by
  have h1 : HoldsPoint l g p (relatePoint cmp l g p) := by
    rw [relatePoint]
    cases h2 : cmp g p with
    | lt => exact (hc _ _).1.1 h2
    | eq => exact (hc _ _).2.1.1 h2
    | gt =>
      cases h3 : cmp l p with
      | lt => exact ⟨(hc _ _).1.1 h3, (hc _ _).2.2.1 h2⟩
      | eq => exact (hc _ _).2.1.1 h3
      | gt => exact (hc _ _).2.2.1 h3
  refine ⟨fun h => h ▸ h1, fun h => ?_⟩
  generalize relatePoint cmp l g p = s at h1
  cases r <;> cases s <;> first | rfl | exact h.elim | exact h1.elim | (exfalso; simp only [HoldsPoint] at h h1; order)

/-! ## Examples -/

/-- A comparison procedure. -/
def natCmp (a b : Nat) : Ordering := if a < b then .lt else if a = b then .eq else .gt

example : IsCompare natCmp := by
  intro a b
  rw [natCmp]
  by_cases h1 : a < b
  · rw [if_pos h1]; exact ⟨⟨fun _ => h1, fun _ => rfl⟩, ⟨fun h => (by cases h), fun h => by omega⟩, ⟨fun h => (by cases h), fun h => by omega⟩⟩
  · rw [if_neg h1]
    by_cases h2 : a = b
    · rw [if_pos h2]; exact ⟨⟨fun h => (by cases h), fun h => by omega⟩, ⟨fun _ => h2, fun _ => rfl⟩, ⟨fun h => (by cases h), fun h => by omega⟩⟩
    · rw [if_neg h2]; exact ⟨⟨fun h => (by cases h), fun h => by omega⟩, ⟨fun h => (by cases h), fun h => by omega⟩, ⟨fun _ => by omega, fun _ => rfl⟩⟩
/-- Each relation is there. -/
example : [relate natCmp 1 2 3 4, relate natCmp 1 2 2 3, relate natCmp 1 3 2 4, relate natCmp 1 3 2 3, relate natCmp 1 4 2 3, relate natCmp 1 2 1 3,
    relate natCmp 1 2 1 2] = [.before, .meets, .overlaps, .finishedBy, .contains, .starts, .equal] := by decide +kernel
example : [relatePoint natCmp 1 3 4, relatePoint natCmp 1 3 3, relatePoint natCmp 1 3 2, relatePoint natCmp 1 3 1, relatePoint natCmp 1 3 0] =
    [.before, .finishedBy, .contains, .startedBy, .after] := by decide +kernel

end Gauche.Temporal

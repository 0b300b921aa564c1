import Mathlib.Order.Defs.LinearOrder
import Verif.Model.Temporal
/-! Specification of the relations between intervals: Allen's thirteen relations. -/
namespace Gauche.Temporal

/-- What a relation says about the end points. -/
def Holds {P : Type} [LinearOrder P] (xl xg yl yg : P) : Rel → Prop
  | .before => xg < yl
  | .meets => xg = yl
  | .overlaps => xl < yl ∧ yl < xg ∧ xg < yg
  | .finishedBy => xl < yl ∧ xg = yg
  | .contains => xl < yl ∧ yg < xg
  | .starts => xl = yl ∧ xg < yg
  | .equal => xl = yl ∧ xg = yg
  | .startedBy => xl = yl ∧ yg < xg
  | .during => yl < xl ∧ xg < yg
  | .finishes => yl < xl ∧ xg = yg
  | .overlappedBy => yl < xl ∧ xl < yg ∧ yg < xg
  | .metBy => yg = xl
  | .after => yg < xl

/-- What it says for a point. -/
def HoldsPoint {P : Type} [LinearOrder P] (l g p : P) : Rel → Prop
  | .before => g < p
  | .finishedBy => g = p
  | .contains => l < p ∧ p < g
  | .startedBy => l = p
  | .after => p < l
  | _ => False

/-- A comparison procedure for the order. -/
def IsCompare {P : Type} [LinearOrder P] (cmp : P → P → Ordering) : Prop :=
  ∀ a b, (cmp a b = .lt ↔ a < b) ∧ (cmp a b = .eq ↔ a = b) ∧ (cmp a b = .gt ↔ b < a)

end Gauche.Temporal

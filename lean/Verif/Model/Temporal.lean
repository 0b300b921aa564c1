/-! Model of util.temporal-relation (lib/util/temporal-relation.scm).  The accessors of the protocol have been applied: an interval is its lesser
and its greater point; the comparison procedure is a function that gives less, equal or greater. -/
namespace Gauche.Temporal

/-- The symbols of `relation?` (lib/util/temporal-relation.scm:76-89). -/
inductive Rel where
  | before | meets | overlaps | finishedBy | contains | starts | equal | startedBy | during | finishes | overlappedBy | metBy | after
deriving DecidableEq

/-- `inverse` (lib/util/temporal-relation.scm:91-105). -/
def inverse : Rel → Rel
  | .before => .after
  | .meets => .metBy
  | .overlaps => .overlappedBy
  | .finishedBy => .finishes
  | .contains => .during
  | .starts => .startedBy
  | .equal => .equal
  | .startedBy => .starts
  | .during => .contains
  | .finishes => .finishedBy
  | .overlappedBy => .overlaps
  | .metBy => .meets
  | .after => .before

/-- `if3` of srfi.114, used in lib/util/temporal-relation.scm:107-143. -/
def if3 {α : Type} (o : Ordering) (lt eq gt : α) : α := match o with | .lt => lt | .eq => eq | .gt => gt

/-- `relate` (lib/util/temporal-relation.scm:107-131). -/
def relate {P : Type} (cmp : P → P → Ordering) (xl xg yl yg : P) : Rel :=
  if3 (cmp xl yl)
    (if3 (cmp xg yl) .before .meets (if3 (cmp xg yg) .overlaps .finishedBy .contains))
    (if3 (cmp xg yg) .starts .equal .startedBy)
    (if3 (cmp xl yg) (if3 (cmp xg yg) .during .finishes .overlappedBy) .metBy .after)

/-- `relate-point` (lib/util/temporal-relation.scm:133-143). -/
def relatePoint {P : Type} (cmp : P → P → Ordering) (l g p : P) : Rel :=
  if3 (cmp g p) .before .finishedBy (if3 (cmp l p) .contains .startedBy .after)

end Gauche.Temporal

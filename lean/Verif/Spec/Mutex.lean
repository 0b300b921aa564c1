import Verif.Model.Mutex
/-!
# What a history of mutex calls may look like
-/

namespace Gauche.Mutex.Spec
open Gauche.Mutex

/-- Zero or more steps. -/
inductive Steps (intrOk : Bool) : St → St → Prop
  | refl (s : St) : Steps intrOk s s
  | tail {s t u : St} : Steps intrOk s t → Step intrOk t u → Steps intrOk s u

/-- Reachable from a fresh mutex. -/
def Reach (intrOk : Bool) (s : St) : Prop := Steps intrOk St.init s

/-- The mutex as its users see it. -/
inductive Hold where
  | free
  | held (own : Option Tid)
  deriving DecidableEq

/-- The abstract state: who holds the mutex, which threads have ended. -/
structure Abs where
  hold : Hold
  dead : List Tid

/-- The rules: a plain acquisition needs a free mutex; an acquisition that
    raises the abandoned-mutex exception needs a mutex held by a thread that
    has terminated, the one it names; any thread may release. -/
def rule (a : Abs) : Ev → Option Abs
  | .acquire _ own =>
    if a.hold = .free then some { a with hold := .held own } else none
  | .abandoned _ own old =>
    if a.hold = .held (some old) ∧ old ∈ a.dead then
      some { a with hold := .held own } else none
  | .release _ => some { a with hold := .free }
  | .terminate t => some { a with dead := t :: a.dead }
  | _ => some a

/-- A whole history. -/
def play (a : Abs) : List Ev → Option Abs
  | [] => some a
  | e :: l => (rule a e).bind (fun a => play a l)

/-- A fresh mutex. -/
def Abs.init : Abs := ⟨.free, []⟩

/-- The event takes the mutex, with this owner. -/
def takes : Ev → Option (Option Tid)
  | .acquire _ own => some own
  | .abandoned _ own _ => some own
  | _ => none

/-- The event is a release. -/
def isRelease : Ev → Bool
  | .release _ => true
  | _ => false

end Gauche.Mutex.Spec

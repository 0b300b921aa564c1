import Mathlib.Logic.Function.Basic
/-
Forcing a lazy pair, src/lazy.c.

One lazy pair, any number of threads, every memory access a step (sequentially consistent).  `A` is the type of items, `C` of what
the generator makes of its next value (the next lazy pair or `()`).  The schedule decides when the generator ends and with what;
while it runs its thread may force the same pair again.  Pair attributes are left out.
-/
namespace Gauche.LazyPair

variable {A C : Type}

/-- The hidden word: 0, the VM that works on the pair, or the descriptor of an extended pair. -/
inductive Owner where
  | free
  | vm (t : Nat)
  | desc
deriving DecidableEq

/-- src/lazy.c:503-506 `ScmRealLazyPairRec`: `car = none` is the tag of a lazy pair; the second slot is the item of a lazy pair or the cdr of
a pair. -/
structure Cell (A C : Type) where
  owner : Owner
  car : Option A
  slot : A ⊕ C

/-- Where a thread is in src/lazy.c:629-676 `Scm_ForceLazyPair`. -/
inductive Pc (A C : Type) where
  | idle
  | cas
  | readItem
  | run (item : A)
  | setCdr (item : A) (r : C)
  | setOwner (item : A)
  | setCar (item : A)
  | release
  | checkOwner
  | waitTag
  | waitOwner
  | loopEnd
  | ret

/-- What a call ends with: return (with the first two words of the object as the caller then finds them), the error of a recursive
call, the error of the generator. -/
inductive Ending (A C : Type) where
  | returned (car : Option A) (slot : A ⊕ C)
  | recursive
  | failed
deriving DecidableEq

/-- A thread: its place, and the items of the suspended calls. -/
structure Thread (A C : Type) where
  pc : Pc A C
  stack : List A

/-- `made` are the results of the ended runs of the generator, `hist` the endings of calls, latest first. -/
structure Sys (A C : Type) where
  cell : Cell A C
  thread : Nat → Thread A C
  made : List C
  hist : List (Nat × Ending A C)

inductive Choice (C : Type) where
  | go
  | call
  | finish (r : C)
  | fail

def setPc (s : Sys A C) (t : Nat) (pc : Pc A C) : Sys A C :=
  { s with thread := Function.update s.thread t { s.thread t with pc := pc } }

/-- A call ends: the suspended run of the generator goes on, or the thread is idle. -/
def back (s : Sys A C) (t : Nat) (e : Ending A C) : Sys A C :=
  match (s.thread t).stack with
  | [] => { s with thread := Function.update s.thread t { pc := .idle, stack := [] }, hist := (t, e) :: s.hist }
  | item :: st => { s with thread := Function.update s.thread t { pc := .run item, stack := st }, hist := (t, e) :: s.hist }

/-- A step of thread `t`: src/lazy.c:678-686 `Scm_PairP` and src/lazy.c:629-676 `Scm_ForceLazyPair`.  A choice that does not fit is no step. -/
def step (s : Sys A C) (t : Nat) (ch : Choice C) : Sys A C :=
  match (s.thread t).pc, ch with
  | .idle, .call => match s.cell.car with
    | none => setPc s t .cas
    | some _ => { s with hist := (t, .returned s.cell.car s.cell.slot) :: s.hist }
  | .cas, .go => match s.cell.owner with
    | .free => { setPc s t .readItem with cell := { s.cell with owner := .vm t } }
    | _ => setPc s t .checkOwner
  | .readItem, .go => match s.cell.slot with
    | .inl item => setPc s t (.run item)
    | .inr _ => s
  | .run item, .call => match s.cell.car with
    | none => { s with thread := Function.update s.thread t { pc := .cas, stack := item :: (s.thread t).stack } }
    | some _ => { s with hist := (t, .returned s.cell.car s.cell.slot) :: s.hist }
  | .run item, .finish r => { setPc s t (.setCdr item r) with made := r :: s.made }
  | .run _, .fail => setPc s t .release
  | .setCdr item r, .go => { setPc s t (.setOwner item) with cell := { s.cell with slot := .inr r } }
  | .setOwner item, .go => { setPc s t (.setCar item) with cell := { s.cell with owner := .desc } }
  | .setCar item, .go => { setPc s t .ret with cell := { s.cell with car := some item } }
  | .release, .go => back { s with cell := { s.cell with owner := .free } } t .failed
  | .checkOwner, .go => if s.cell.owner = .vm t then back s t .recursive else setPc s t .waitTag
  | .waitTag, .go => match s.cell.car with
    | none => setPc s t .waitOwner
    | some _ => setPc s t .loopEnd
  | .waitOwner, .go => if s.cell.owner = .free then setPc s t .loopEnd else setPc s t .waitTag
  | .loopEnd, .go => if s.cell.owner = .free then setPc s t .cas else setPc s t .ret
  | .ret, .go => back s t (.returned s.cell.car s.cell.slot)
  | _, _ => s

def run (s : Sys A C) (sched : List (Nat × Choice C)) : Sys A C := sched.foldl (fun s x => step s x.1 x.2) s

/-- src/lazy.c:524-540 `make_lazy_pair`: a new lazy pair. -/
def make (item : A) : Sys A C :=
  { cell := { owner := .free, car := none, slot := .inl item }, thread := fun _ => { pc := .idle, stack := [] }, made := [], hist := [] }

end Gauche.LazyPair

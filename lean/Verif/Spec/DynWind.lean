import Verif.Model.DynWind
/-!
# Vocabulary for the dynamic-wind property

Nothing here computes with the handler register or with the functions of the
machine that manage it.
-/

namespace Gauche.DynWind.Spec
open Gauche.DynWind

/-- Zero or more steps. -/
inductive Steps : Vm → Vm → Prop
  | refl (s : Vm) : Steps s s
  | tail {s t u : Vm} : Steps s t → step t = some u → Steps s u

/-- Replaying a history of entries and exits on a stack: an exit must match
    the innermost extent that is still open. -/
def replay (c : Chain) : List Ev → Option Chain
  | [] => some c
  | .enter e :: t => replay (e :: c) t
  | .leave e :: t =>
    match c with
    | x :: c' => if x.id = e.id then replay c' t else none
    | [] => none

/-- The dynamic-wind bodies a continuation is inside of, innermost first. -/
def extents : List Frame → Chain
  | [] => []
  | .dwBody _ e _ :: k => e :: extents k
  | _ :: k => extents k

/-- The frame belongs to a continuation switch that is still running. -/
def switching : Frame → Bool
  | .throwCC .. => true
  | .abortCC .. => true
  | _ => false

/-- The frame waits for a thunk called by a continuation being thrown. -/
def throwing : Frame → Bool
  | .throwCC .. => true
  | _ => false

/-- Aborts do not look for their prompt beneath a throw in progress: whenever
    the state applies `abort-current-continuation`, no frame of a running
    throw lies above the prompt frame with that tag. -/
def AbortOk (s : Vm) : Prop :=
  ∀ tag args, s.ctl = .apply (.prim .abort) (.num tag :: args) →
    ∀ pre d h hs k, s.cont = pre ++ .prompt d tag h hs :: k →
      (∀ d' h' hs', Frame.prompt d' tag h' hs' ∉ pre) →
      ∀ f ∈ pre, throwing f = false

/-- The states of the runs of a program that keep to `AbortOk`. -/
inductive Reach (t : Term) : Vm → Prop
  | init : Reach t (Vm.init t)
  | step {s u : Vm} : Reach t s → AbortOk s → step s = some u → Reach t u

/-- All states of the runs of a program. -/
inductive ReachAny (t : Term) : Vm → Prop
  | init : ReachAny t (Vm.init t)
  | step {s u : Vm} : ReachAny t s → step s = some u → ReachAny t u

mutual
/-- The term does not mention `abort-current-continuation`. -/
def Term.noAbort : Term → Bool
  | .var _ => true
  | .num _ => true
  | .fls => true
  | .prim p => p != .abort
  | .lam b => Term.noAbort b
  | .ite c t e => Term.noAbort c && Term.noAbort t && Term.noAbort e
  | .app f args => Term.noAbort f && Term.noAbortList args
/-- Likewise for a list. -/
def Term.noAbortList : List Term → Bool
  | [] => true
  | t :: ts => Term.noAbort t && Term.noAbortList ts
end

/-- A thunk call: the thunk, the dynamic environment and the chain of winds
    it runs in. -/
structure Calls where
  thunk : Val
  denv : List (Val × Val)
  chain : Chain

/-- The calls for leaving the winds `a` on top of `c`, innermost first: each
    after thunk runs in the dynamic environment of its dynamic-wind call and
    with the winds outside of it. -/
def afterCalls : Chain → Chain → List Calls
  | [], _ => []
  | e :: a, c => ⟨e.after, e.denv, a ++ c⟩ :: afterCalls a c

/-- The call of a before thunk (`#f` means there is nothing to call). -/
def beforeCall (e : Entry) (c : Chain) : List Calls :=
  match e.before with
  | .fls => []
  | f => [⟨f, e.denv, c⟩]

/-- The calls for entering the winds `b` on top of `c`, outermost first. -/
def beforeCalls : Chain → Chain → List Calls
  | [], _ => []
  | e :: b, c => beforeCalls b c ++ beforeCall e (b ++ c)

/-- `t` is a state in which the call that `s` is about to make has returned
    the values `vs`: the same continuation, the same winds. -/
def Returned (s : Vm) (vs : List Val) (t : Vm) : Prop :=
  Steps s t ∧ t.ctl = .ret vs ∧ t.cont = s.cont ∧ t.handlers = s.handlers

/-- The run from `s` to `u` calls exactly the listed thunks (with no
    arguments) one after the other, each in the given dynamic environment and
    chain, letting each return; nothing else happens in between but the
    machine's own bookkeeping (a step out of a `ret` state). -/
inductive Runs : List Calls → Vm → Vm → Prop
  | done (u : Vm) : Runs [] u u
  | silent {l vs s t u} : s.ctl = .ret vs → step s = some t →
      Runs l t u → Runs l s u
  | call {f d c l vs s t t' u} :
      s.ctl = .apply f [] → s.denv = d → s.handlers = c →
      Returned s vs t → step t = some t' → Runs l t' u →
      Runs (⟨f, d, c⟩ :: l) s u

/-- The thunk returns whenever it is called in that environment and chain with
    a store satisfying `I`, and keeps `I`. -/
def Normal (I : List Val → Prop) (k : Calls) : Prop :=
  ∀ s : Vm, s.ctl = .apply k.thunk [] → s.denv = k.denv →
    s.handlers = k.chain → I s.store →
    ∃ vs t, Returned s vs t ∧ I t.store

/-- Number of times an extent was entered and left. -/
def entered (i : Nat) : List Ev → Nat
  | [] => 0
  | .enter e :: t => (if e.id = i then 1 else 0) + entered i t
  | .leave _ :: t => entered i t
/-- See `entered`. -/
def left (i : Nat) : List Ev → Nat
  | [] => 0
  | .enter _ :: t => left i t
  | .leave e :: t => (if e.id = i then 1 else 0) + left i t

end Gauche.DynWind.Spec

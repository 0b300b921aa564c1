import Mathlib.Logic.Function.Basic
/-
Promises, src/lazy.c.

Promises and their contents are numbered.  Threads interleave in any way; memory is sequentially consistent.  What a thunk
computes is decided by the schedule: while a thunk runs its thread may force any promise, and at the end it delivers values,
a promise (`delay-force`) or an exception.  Making a new promise is not a step: a promise that nobody touches yet is already
in the heap.  Parameterization and the stack of dynamic handlers are left out.
-/
namespace Gauche.Promise

variable {T V E : Type}

/-- `code` of a promise: a thunk, a list of values, or a condition. -/
inductive Code (T V E : Type) where
  | thunk (t : T)
  | vals (v : V)
  | cond (e : E)
deriving DecidableEq

/-- `ScmPromiseState`. -/
inductive St where
  | unforced
  | forced
  | exception
deriving DecidableEq

/-- src/lazy.c:79-84 `ScmPromiseContentRec`; `lock` is the thread that holds the mutex. -/
structure Content (T V E : Type) where
  state : St
  code : Code T V E
  lock : Option Nat

/-- Promises (`ptr p` is `p->content`) and contents. -/
structure Heap (T V E : Type) where
  ptr : Nat → Nat
  content : Nat → Content T V E

def Heap.setCode (h : Heap T V E) (c : Nat) (x : Code T V E) : Heap T V E :=
  { h with content := Function.update h.content c { h.content c with code := x } }
def Heap.setState (h : Heap T V E) (c : Nat) (x : St) : Heap T V E :=
  { h with content := Function.update h.content c { h.content c with state := x } }
def Heap.setLock (h : Heap T V E) (c : Nat) (x : Option Nat) : Heap T V E :=
  { h with content := Function.update h.content c { h.content c with lock := x } }
def Heap.setPtr (h : Heap T V E) (p c : Nat) : Heap T V E := { h with ptr := Function.update h.ptr p c }

/-- The end of a thunk. -/
inductive Outcome (V E : Type) where
  | vals (v : V)
  | promise (r : Nat)
  | raise (e : E)

/-- Where a thread is in src/lazy.c:212-263 `Scm_VMForce`, src/lazy.c:176-210 `force_cc` (`cc…`) or src/lazy.c:155-174 `force_exc_handler` (`exc…`); `c` is
the local variable `c`, `cc` the local variable `cc`. -/
inductive Pc (T V E : Type) where
  | start
  | switch (c : Nat)
  | retVals (c : Nat)
  | retExc (c : Nat)
  | lockSnap (c : Nat)
  | snap (c : Nat)
  | eval (code : Code T V E)
  | ccVals (v : V)
  | ccValsLock (c : Nat) (v : V)
  | ccValsCheck (c : Nat) (v : V)
  | ccValsState (c : Nat)
  | ccProm (r : Nat)
  | ccPromLock (c r : Nat)
  | ccPromCheck (c r : Nat)
  | ccPromCode (c r cc : Nat)
  | ccPromState (c r cc : Nat)
  | ccPromLink (c r : Nat)
  | ccUnlock (c : Nat)
  | exc (e : E)
  | excLock (c : Nat) (e : E)
  | excCheck (c : Nat) (e : E)
  | excState (c : Nat)
  | excUnlock (c : Nat)
  | excRaise (c : Nat)

/-- What `force` delivers: the values or the exception taken from the field `code`. -/
inductive Result (T V E : Type) where
  | returned (x : Code T V E)
  | raised (x : Code T V E)
deriving DecidableEq

inductive Act (T V E : Type) where
  | blocked
  | goto (h : Heap T V E) (pc : Pc T V E)
  | finish (r : Result T V E)

/-- One memory access of thread `t`, which is forcing `p`: src/lazy.c:212-263 `Scm_VMForce`, src/lazy.c:176-210 `force_cc`,
src/lazy.c:155-174 `force_exc_handler`. -/
def act (h : Heap T V E) (t p : Nat) : Pc T V E → Act T V E
  | .start => .goto h (.switch (h.ptr p))
  | .switch c => match (h.content c).state with
    | .forced => .goto h (.retVals c)
    | .exception => .goto h (.retExc c)
    | .unforced => .goto h (.lockSnap c)
  | .retVals c => .finish (.returned (h.content c).code)
  | .retExc c => .finish (.raised (h.content c).code)
  | .lockSnap c => match (h.content c).lock with
    | none => .goto (h.setLock c (some t)) (.snap c)
    | some _ => .blocked
  | .snap c => match (h.content c).state with
    | .unforced => .goto (h.setLock c none) (.eval (h.content c).code)
    | _ => .goto (h.setLock c none) (.switch c)
  | .eval _ => .blocked
  -- force_cc with values
  | .ccVals v => .goto h (.ccValsLock (h.ptr p) v)
  | .ccValsLock c v => match (h.content c).lock with
    | none => .goto (h.setLock c (some t)) (.ccValsCheck c v)
    | some _ => .blocked
  | .ccValsCheck c v => match (h.content c).state with
    | .unforced => .goto (h.setCode c (.vals v)) (.ccValsState c)
    | _ => .goto h (.ccUnlock c)
  | .ccValsState c => .goto (h.setState c .forced) (.ccUnlock c)
  -- force_cc with a promise
  | .ccProm r => .goto h (.ccPromLock (h.ptr p) r)
  | .ccPromLock c r => match (h.content c).lock with
    | none => .goto (h.setLock c (some t)) (.ccPromCheck c r)
    | some _ => .blocked
  | .ccPromCheck c r => match (h.content c).state with
    | .unforced => .goto h (.ccPromCode c r (h.ptr r))
    | _ => .goto h (.ccUnlock c)
  | .ccPromCode c r cc => .goto (h.setCode c (h.content cc).code) (.ccPromState c r cc)
  | .ccPromState c r cc => .goto (h.setState c (h.content cc).state) (.ccPromLink c r)
  | .ccPromLink c r => .goto (h.setPtr r c) (.ccUnlock c)
  | .ccUnlock c => .goto (h.setLock c none) .start
  -- force_exc_handler
  | .exc e => .goto h (.excLock (h.ptr p) e)
  | .excLock c e => match (h.content c).lock with
    | none => .goto (h.setLock c (some t)) (.excCheck c e)
    | some _ => .blocked
  | .excCheck c e => match (h.content c).state with
    | .unforced => .goto (h.setCode c (.cond e)) (.excState c)
    | _ => .goto h (.excUnlock c)
  | .excState c => .goto (h.setState c .exception) (.excUnlock c)
  | .excUnlock c => .goto (h.setLock c none) (.excRaise c)
  | .excRaise c => .finish (.raised (h.content c).code)

/-- A thread: the promise it is forcing with the place in the code, and the promises whose thunks are suspended meanwhile. -/
structure Thread (T V E : Type) where
  cur : Option (Nat × Pc T V E)
  stack : List (Nat × Code T V E)

/-- The whole system; `hist` is what calls of `force` have delivered, latest first. -/
structure Sys (T V E : Type) where
  heap : Heap T V E
  thread : Nat → Thread T V E
  hist : List (Nat × Result T V E)

inductive Choice (V E : Type) where
  | go
  | call (p : Nat)
  | finish (o : Outcome V E)

def setThread (s : Sys T V E) (t : Nat) (x : Thread T V E) : Sys T V E := { s with thread := Function.update s.thread t x }

/-- Control comes back to the suspended thunk, or to the program. -/
def pop : List (Nat × Code T V E) → Thread T V E
  | [] => { cur := none, stack := [] }
  | (p, code) :: st => { cur := some (p, .eval code), stack := st }

/-- A step of thread `t`: src/lazy.c:212-263 `Scm_VMForce`.  A choice that does not fit is no step. -/
def step (s : Sys T V E) (t : Nat) (ch : Choice V E) : Sys T V E :=
  match (s.thread t).cur with
  | none => match ch with
    | .call p => setThread s t { cur := some (p, .start), stack := [] }
    | _ => s
  | some (p, .eval code) => match ch with
    | .call q => setThread s t { cur := some (q, .start), stack := (p, code) :: (s.thread t).stack }
    | .finish (.vals v) => setThread s t { (s.thread t) with cur := some (p, .ccVals v) }
    | .finish (.promise r) => setThread s t { (s.thread t) with cur := some (p, .ccProm r) }
    | .finish (.raise e) => setThread s t { (s.thread t) with cur := some (p, .exc e) }
    | .go => s
  | some (p, pc) => match ch with
    | .go => match act s.heap t p pc with
      | .blocked => s
      | .goto h pc' => { setThread s t { (s.thread t) with cur := some (p, pc') } with heap := h }
      | .finish r => { setThread s t (pop (s.thread t).stack) with hist := (p, r) :: s.hist }
    | _ => s

def run (s : Sys T V E) (sched : List (Nat × Choice V E)) : Sys T V E := sched.foldl (fun s x => step s x.1 x.2) s

/-- No thread is forcing anything, nothing has been delivered. -/
def start (h : Heap T V E) : Sys T V E := { heap := h, thread := fun _ => { cur := none, stack := [] }, hist := [] }

/-! ### Undisturbed -/

/-- The critical section of src/lazy.c:176-210 `force_cc` and of src/lazy.c:155-174 `force_exc_handler` when no other thread runs meanwhile. -/
def settle (h : Heap T V E) (p : Nat) (o : Outcome V E) : Heap T V E :=
  let c := h.ptr p
  match (h.content c).state with
  | .unforced =>
    match o with
    | .vals v => (h.setCode c (.vals v)).setState c .forced
    | .raise e => (h.setCode c (.cond e)).setState c .exception
    | .promise r =>
      let cc := h.ptr r
      let h := h.setCode c (h.content cc).code
      let h := h.setState c (h.content cc).state
      h.setPtr r c
  | _ => h

/-- `force` by one thread when thunks do not force anything themselves and always deliver the same outcome `eval`: a loop, since
src/lazy.c:176-210 `force_cc` calls src/lazy.c:212-263 `Scm_VMForce` in tail position.  `none`: out of fuel. -/
def force (eval : T → Outcome V E) : Nat → Heap T V E → Nat → Option (Heap T V E × Result T V E)
  | 0, _, _ => none
  | fuel + 1, h, p =>
    let c := h.content (h.ptr p)
    match c.state with
    | .forced => some (h, .returned c.code)
    | .exception => some (h, .raised c.code)
    | .unforced => match c.code with
      | .thunk t => match eval t with
        | .raise e =>
          let h := settle h p (.raise e)
          some (h, .raised (h.content (h.ptr p)).code)
        | o => force eval fuel (settle h p o) p
      | _ => none

end Gauche.Promise

/-!
# Scheme mutexes (`src/mutex.c`)

One `<mutex>` object, any number of threads and condition variables.  The
pthread mutex `mutex->mutex` makes each piece of code between taking it and
releasing it (by returning, or by entering a condition wait) atomic, so such
a piece is one step of a thread here.  Trusted: pthread mutexes exclude, a
condition wait releases the mutex and blocks in one go, `pthread_cond_signal`
unblocks at least one waiter if there is any.  Spurious wakeups are allowed.

Not modelled: `name`, `specific`, printing, the cached `locker_proc`, the
time value of timeouts (a timed wait may time out at any moment).
-/

namespace Gauche.Mutex

/-- Threads (`ScmVM*`). -/
abbrev Tid := Nat

/-- Result of a condition wait (`0`, `SCM_INTERNAL_COND_TIMEDOUT`,
    `SCM_INTERNAL_COND_INTR`, src/gauche/pthread.h:169-182). -/
inductive Wake where
  | signalled | timedout | intr
  deriving DecidableEq

/-- Where a thread is with respect to this mutex.
    `lockWait`: in the condition wait of `Scm_MutexLock`; `lockWake`: that
    wait is over but the thread has not run yet.  `cvWait`, `cvWake`: the
    same for the wait of `Scm_MutexUnlock` on a condition variable. -/
inductive Phase where
  | idle
  | lockWait (timed : Bool) (own : Option Tid)
  | lockWake (timed : Bool) (own : Option Tid) (r : Wake)
  | cvWait (cv : Nat) (timed : Bool)
  | cvWake (cv : Nat) (r : Wake)
  | dead
  deriving DecidableEq

/-- What a step shows to the threads: the outcome of a call. -/
inductive Ev where
  /-- `mutex-lock!` returned `#t` (owner argument as given) -/
  | acquire (t : Tid) (own : Option Tid)
  /-- `mutex-lock!` took the mutex and raised `<abandoned-mutex-exception>`
      naming the terminated thread `old` -/
  | abandoned (t : Tid) (own : Option Tid) (old : Tid)
  /-- `mutex-lock!` returned `#f` -/
  | lockTimeout (t : Tid)
  /-- `mutex-unlock!` released the mutex (it may go on to wait) -/
  | release (t : Tid)
  /-- `mutex-unlock!` returned -/
  | unlockReturn (t : Tid) (ok : Bool)
  /-- the thread terminated -/
  | terminate (t : Tid)
  /-- `condition-variable-broadcast!` -/
  | broadcast (cv : Nat)
  deriving DecidableEq

/-- The mutex and the threads.  `log` is history. -/
structure St where
  locked : Bool
  owner : Option Tid
  phase : Tid → Phase
  log : List Ev

/-- src/mutex.c:61-73 `mutex_allocate`: a fresh mutex. -/
def St.init : St := ⟨false, none, fun _ => .idle, []⟩

/-- A thread changes its phase. -/
def St.put (s : St) (t : Tid) (p : Phase) : St :=
  { s with phase := fun x => if x = t then p else s.phase x }

/-- An event is recorded. -/
def St.say (s : St) (e : Ev) : St := { s with log := s.log ++ [e] }

/-- The tail of src/mutex.c:168-205 `Scm_MutexLock` with `r` true: take the mutex,
    and raise if it had been abandoned. -/
def lockTake (s : St) (t : Tid) (own : Option Tid) (abandoned : Option Tid) :
    St :=
  let s := { s with locked := true, owner := own }
  let s := s.put t .idle
  match abandoned with
  | none => s.say (.acquire t own)
  | some old => s.say (.abandoned t own old)

/-- `owner->state == SCM_VM_TERMINATED`. -/
def terminated (s : St) (t : Tid) : Bool := decide (s.phase t = .dead)

/-- The `while (mutex->locked)` loop of src/mutex.c:168-205 `Scm_MutexLock`, from
    its condition to the next wait or the end of the call. -/
def lockLoop (s : St) (t : Tid) (timed : Bool) (own : Option Tid) : St :=
  if s.locked then
    match s.owner with
    | some o =>
      if terminated s o then lockTake { s with locked := false } t own (some o)
      else s.put t (.lockWait timed own)
    | none => s.put t (.lockWait timed own)
  else lockTake s t own none

/-- After the condition wait of src/mutex.c:168-205 `Scm_MutexLock`. -/
def lockResume (s : St) (t : Tid) (timed : Bool) (own : Option Tid)
    (r : Wake) : St :=
  match r with
  | .signalled => lockLoop s t timed own
  | .timedout => (s.put t .idle).say (.lockTimeout t)
  | .intr => lockTake s t own none

/-- Threads in `ws` are unblocked by a signal. -/
def wakeLockers (s : St) (ws : List Tid) : St :=
  { s with phase := fun x =>
      match s.phase x with
      | .lockWait timed own =>
        if x ∈ ws then .lockWake timed own .signalled else .lockWait timed own
      | p => p }

/-- The same for the waiters of a condition variable. -/
def wakeCv (s : St) (cv : Nat) (ws : List Tid) : St :=
  { s with phase := fun x =>
      match s.phase x with
      | .cvWait c timed =>
        if c = cv ∧ x ∈ ws then .cvWake c .signalled else .cvWait c timed
      | p => p }

/-- All waiters of a condition variable are unblocked. -/
def wakeAll (s : St) (cv : Nat) : St :=
  { s with phase := fun x =>
      match s.phase x with
      | .cvWait c timed => if c = cv then .cvWake c .signalled else .cvWait c timed
      | p => p }

/-- src/mutex.c:207-230 `Scm_MutexUnlock` up to the wait or the end of the call;
    `ws` are the threads unblocked by `SCM_INTERNAL_COND_SIGNAL`. -/
def unlock (s : St) (t : Tid) (cv : Option (Nat × Bool)) (ws : List Tid) : St :=
  let s := { s with locked := false, owner := none }
  let s := s.say (.release t)
  let s := wakeLockers s ws
  match cv with
  | some (c, timed) => s.put t (.cvWait c timed)
  | none => s.say (.unlockReturn t true)

/-- Some thread is blocked in `mutex-lock!`. -/
def lockBlocked (s : St) (t : Tid) : Prop :=
  ∃ timed own, s.phase t = .lockWait timed own

/-- Some thread is blocked on a condition variable. -/
def cvBlocked (s : St) (cv : Nat) (t : Tid) : Prop :=
  ∃ timed, s.phase t = .cvWait cv timed

/-- The steps of the system.  `intrOk` says whether a timed wait may be
    interrupted (return `SCM_INTERNAL_COND_INTR`). -/
inductive Step (intrOk : Bool) : St → St → Prop
  /-- `(mutex-lock! m timeout owner)` is called -/
  | lock {s : St} {t : Tid} (timed : Bool) (own : Option Tid) :
      s.phase t = .idle → Step intrOk s (lockLoop s t timed own)
  /-- a locker runs after its wait -/
  | resume {s : St} {t : Tid} {timed : Bool} {own : Option Tid} {r : Wake} :
      s.phase t = .lockWake timed own r →
      Step intrOk s (lockResume s t timed own r)
  /-- `(mutex-unlock! m cv timeout)` is called -/
  | unlock {s : St} {t : Tid} (cv : Option (Nat × Bool)) (ws : List Tid) :
      s.phase t = .idle →
      ((∃ x, lockBlocked s x) → ∃ x ∈ ws, lockBlocked s x) →
      Step intrOk s (unlock s t cv ws)
  /-- the wait of `mutex-unlock!` is over -/
  | unlockDone {s : St} {t : Tid} {cv : Nat} {r : Wake} :
      s.phase t = .cvWake cv r →
      Step intrOk s ((s.put t .idle).say (.unlockReturn t (decide (r ≠ .timedout))))
  /-- src/mutex.c:344-348 `Scm_ConditionVariableSignal` -/
  | cvSignal {s : St} (cv : Nat) (ws : List Tid) :
      ((∃ x, cvBlocked s cv x) → ∃ x ∈ ws, cvBlocked s cv x) →
      Step intrOk s (wakeCv s cv ws)
  /-- src/mutex.c:350-354 `Scm_ConditionVariableBroadcast` -/
  | cvBroadcast {s : St} (cv : Nat) :
      Step intrOk s ((wakeAll s cv).say (.broadcast cv))
  /-- a timed wait times out -/
  | lockTimeout {s : St} {t : Tid} {own : Option Tid} :
      s.phase t = .lockWait true own →
      Step intrOk s (s.put t (.lockWake true own .timedout))
  | cvTimeout {s : St} {t : Tid} {cv : Nat} :
      s.phase t = .cvWait cv true → Step intrOk s (s.put t (.cvWake cv .timedout))
  /-- a timed wait is interrupted by a signal -/
  | lockIntr {s : St} {t : Tid} {own : Option Tid} : intrOk = true →
      s.phase t = .lockWait true own →
      Step intrOk s (s.put t (.lockWake true own .intr))
  | cvIntr {s : St} {t : Tid} {cv : Nat} : intrOk = true →
      s.phase t = .cvWait cv true → Step intrOk s (s.put t (.cvWake cv .intr))
  /-- spurious wakeups -/
  | lockSpurious {s : St} {t : Tid} {timed : Bool} {own : Option Tid} :
      s.phase t = .lockWait timed own →
      Step intrOk s (s.put t (.lockWake timed own .signalled))
  | cvSpurious {s : St} {t : Tid} {cv : Nat} {timed : Bool} :
      s.phase t = .cvWait cv timed →
      Step intrOk s (s.put t (.cvWake cv .signalled))
  /-- a thread ends (src/thread.c:88-95 `thread_cleanup`), or is cancelled while
      it is blocked; a cancelled wait does not consume a wakeup -/
  | terminate {s : St} {t : Tid} :
      (s.phase t = .idle ∨ lockBlocked s t ∨ ∃ cv, cvBlocked s cv t) →
      Step intrOk s ((s.put t .dead).say (.terminate t))

/-- src/mutex.c:109-125 `mutex_state_get`. -/
inductive MState where
  | notAbandoned | notOwned | abandoned | owned (t : Tid)
  deriving DecidableEq

/-- src/mutex.c:109-125 `mutex_state_get`. -/
def mutexState (s : St) : MState :=
  if s.locked then
    match s.owner with
    | some o => if terminated s o then .abandoned else .owned o
    | none => .notOwned
  else .notAbandoned

end Gauche.Mutex

import Verif.Model.Queue
/-
Model of the multi-threaded part of ext/data/queue.scm (class <mtqueue>) as a transition system.

What is atomic: a critical section of the internal mutex (`with-mtq-mutex-lock`, queue.scm:182-186), cut at the
condition-variable waits inside it; each access made by a big-lock holder between %lock-mtq and %unlock-mtq
(those run without the mutex).  Between atomic steps any thread may run: a schedule is a list of labels.
The queue contents are the abstract list of `Verif/Props/Queue.lean` (property C24 relates it to the
cons cells); the enqueue/push/dequeue primitives below are the list versions of the C functions.
Condition variables: a sleeping thread carries a flag `sig` saying that it was notified; it may also
wake up spuriously.  Not modelled: a thread that terminates while holding the big lock, setting
max-length after creation, a predicate argument that calls back into the same queue.
-/
namespace Gauche.MtQueue
open Gauche.Queue (Item)

variable {α : Type}

/-- Blocking operations: ext/data/queue.scm:482-503 `enqueue/wait!`, 550-570 `queue-push/wait!`, 618-635 `dequeue/wait!`.
`enqW`'s item is the close marker when called from `mtqueue-close!` (523-528). -/
inductive WOp (α : Type) where
  | enqW (x : Item α) (close : Bool)
  | pushW (x : α) (close : Bool)
  | deqW (close : Bool)

/-- Bodies run with the big lock (`queue-op`, ext/data/queue.scm:284-291): `queue->list` (403) and the other
read-only ones, `enqueue-unique!` (506-520), `queue-push-unique!` (573-586), `remove-from-queue!` (669-679). -/
inductive BOp (α : Type) where
  | toList
  | enqUnique (cmp : Item α → Item α → Bool) (xs : List α)
  | pushUnique (cmp : Item α → Item α → Bool) (xs : List α)
  | remove (pred : Item α → Bool)

/-- Non-blocking operations under the light lock: ext/data/queue.scm:472-479 `enqueue!`, 539-548 `queue-push!`,
606-616 `dequeue!`, 648-654 `dequeue-all!`, and 278 `%lock-mtq` (with the body to be run). -/
inductive LOp (α : Type) where
  | enq (xs : List α)
  | push (xs : List α)
  | deq
  | deqAll
  | grab (b : BOp α)

/-- What a thread is doing with respect to this queue. -/
inductive Th (α : Type) where
  | idle
  | lockL (o : LOp α) (sig : Bool)   -- asleep on lockWait inside with-mtq-light-lock
  | lockW (o : WOp α) (sig : Bool)   -- asleep on lockWait inside do-with-timeout
  | waitCv (o : WOp α) (sig : Bool)  -- asleep on readerWait / writerWait
  | notifyW                          -- left the critical section of dequeue!/dequeue-all!, notify-writers to come
  | hold1 (b : BOp α)                -- has the big lock, has not read the contents yet
  | hold2 (b : BOp α) (seen : List (Item α))  -- has read the contents
  | hold3                            -- done, about to unlock

/-- ext/data/queue.scm:112-122 `MtQueue` and the threads; the last five fields are ghosts recording the
history: values put in at the rear in order, values put in at the front, whether a close marker was ever put in,
values delivered to dequeuers, values removed by predicate. -/
structure State (α : Type) where
  content : List (Item α)
  closed : Bool
  maxlen : Option Nat
  locker : Option Nat
  readerSem : Int
  th : Nat → Th α
  ins : List α
  fronts : List α
  marked : Bool
  out : List α
  removed : List α

/-- ext/data/queue.scm:137-148 `makemtq`. -/
def init (maxlen : Option Nat) : State α := ⟨[], false, maxlen, none, 0, fun _ => .idle, [], [], false, [], []⟩

def isMarker : Item α → Bool
  | .marker => true
  | .val _ => false
/-- The user values among the items. -/
def vals : List (Item α) → List α := List.filterMap fun
  | .val a => some a
  | .marker => none

/-- ext/data/queue.scm:347-350 `mtq-overflows`. -/
def State.overflows (s : State α) (cnt : Nat) : Bool :=
  match s.maxlen with
  | none => false
  | some m => decide (m < cnt + s.content.length)

def State.setTh (s : State α) (t : Nat) (h : Th α) : State α :=
  { s with th := fun u => if u = t then h else s.th u }

/-- ext/data/queue.scm:203-204 `notify-lockers`. -/
def State.notifyLockers (s : State α) : State α :=
  { s with th := fun u => match s.th u with
      | .lockL o _ => .lockL o true
      | .lockW o _ => .lockW o true
      | h => h }
/-- ext/data/queue.scm:205-206 `notify-writers`. -/
def State.notifyWriters (s : State α) : State α :=
  { s with th := fun u => match s.th u with
      | .waitCv (.enqW x c) _ => .waitCv (.enqW x c) true
      | .waitCv (.pushW x c) _ => .waitCv (.pushW x c) true
      | h => h }
/-- ext/data/queue.scm:207-208 `notify-readers`. -/
def State.notifyReaders (s : State α) : State α :=
  { s with th := fun u => match s.th u with
      | .waitCv (.deqW c) _ => .waitCv (.deqW c) true
      | h => h }

/-- Rear insertion (`enqueue_int`, ext/data/queue.scm:442-447) with its ghost record. -/
def State.enqueueInt (s : State α) (xs : List (Item α)) : State α :=
  { s with content := s.content ++ xs, ins := s.ins ++ vals xs, marked := s.marked || xs.any isMarker }
/-- Front insertion (`queue-push-int`, ext/data/queue.scm:532-537) with its ghost record. -/
def State.pushInt (s : State α) (xs : List (Item α)) : State α :=
  { s with content := xs ++ s.content, fronts := s.fronts ++ vals xs }
/-- ext/data/queue.scm:592-604 `dequeue-int`: close markers are skipped and dropped. -/
def State.dequeueInt (s : State α) : Option α × State α :=
  match s.content.dropWhile isMarker with
  | .val a :: r => (some a, { s with content := r, out := s.out ++ [a] })
  | _ => (none, { s with content := [] })

/-- The wait-check arguments of `do-with-timeout` (ext/data/queue.scm:495-497, 563-565, 628). -/
def State.waitCheck (s : State α) : WOp α → Bool
  | .enqW _ _ | .pushW _ _ => if s.maxlen ≠ some 0 then s.overflows 1 else s.readerSem == 0
  | .deqW _ => s.content.isEmpty

/-- The do-ok arguments of `do-with-timeout` (ext/data/queue.scm:498-502, 566-569, 630-634). -/
def State.doOk (s : State α) : WOp α → State α
  | .enqW x close =>
    let s := s.enqueueInt [x]
    let s := if close then { s with closed := true } else s
    s.notifyReaders
  | .pushW x close =>
    let s := s.pushInt [.val x]
    let s := if close then { s with closed := true } else s
    s.notifyReaders
  | .deqW _ =>
    let s := { s with readerSem := s.readerSem - 1 }
    let s := s.dequeueInt.2
    s.notifyWriters

/-- One turn of the inner loop of `do-with-timeout` (ext/data/queue.scm:256-266), mutex held: wait for the big
lock, else wait on the condition variable, else do the operation and clear the lock. -/
def State.enterW (s : State α) (t : Nat) (o : WOp α) : State α :=
  if s.locker.isSome then s.setTh t (.lockW o false)
  else if s.waitCheck o then s.setTh t (.waitCv o false)
  else ({ (s.doOk o) with locker := none }.notifyLockers).setTh t .idle

/-- ext/data/queue.scm:247-276 `do-with-timeout` up to the inner loop: the init arguments (493-494, 561-562,
624-626), then the loop.  A closed queue makes a writer return at once (an error or `timeout-val`). -/
def State.startW (s : State α) (t : Nat) (o : WOp α) : State α :=
  match o with
  | .enqW _ _ | .pushW _ _ => if s.closed then s else s.enterW t o
  | .deqW close =>
    let s := { s with readerSem := s.readerSem + 1 }
    let s := if close then { s with closed := true } else s
    s.notifyWriters.enterW t o

/-- `with-mtq-light-lock` (ext/data/queue.scm:192-193) around: `q-write-op` (458-469) for the writers,
`dequeue!` (606-616), `dequeue-all!` (648-654), `grab-mtq-big-lock` (195-196). -/
def State.enterL (s : State α) (t : Nat) (o : LOp α) : State α :=
  if s.locker.isSome then s.setTh t (.lockL o false)
  else match o with
  | .enq xs =>
    if s.closed then s.setTh t .idle
    else if s.overflows xs.length then s.setTh t .idle
    else (s.enqueueInt (xs.map .val)).notifyReaders.setTh t .idle
  | .push xs =>
    if s.closed then s.setTh t .idle
    else if s.overflows xs.length then s.setTh t .idle
    else (s.pushInt (xs.map .val).reverse).notifyReaders.setTh t .idle
  | .deq =>
    match s.dequeueInt with
    | (some _, s') => s'.setTh t .notifyW
    | (none, s') => s'.setTh t .idle
  | .deqAll => { s with content := [], out := s.out ++ vals s.content }.setTh t .notifyW
  | .grab b => { s with locker := some t }.setTh t (.hold1 b)

/-- The first half of a big-lock body: reads the contents (`pick`, the loop of `remove-from-queue!`) and tests for
overflow. -/
def State.bodyRead (s : State α) (t : Nat) (b : BOp α) : State α :=
  match b with
  | .toList => s.setTh t .hold3
  | .enqUnique cmp xs =>
    let new := Queue.pickEnq cmp s.content [] (xs.map .val)
    if new.isEmpty || s.overflows new.length then s.setTh t .hold3
    else s.setTh t (.hold2 b s.content)
  | .pushUnique cmp xs =>
    let new := Queue.pickPush cmp s.content (xs.map .val)
    if s.overflows (new.length - s.content.length) then s.setTh t .hold3
    else s.setTh t (.hold2 b s.content)
  | .remove pred =>
    if s.content.any pred then s.setTh t (.hold2 b s.content) else s.setTh t .hold3

/-- The second half: stores the new contents computed from what was read, and notifies. -/
def State.bodyWrite (s : State α) (t : Nat) (b : BOp α) (seen : List (Item α)) : State α :=
  match b with
  | .toList => s.setTh t .hold3
  | .enqUnique cmp xs =>
    ((s.enqueueInt (Queue.pickEnq cmp seen [] (xs.map .val)).reverse).notifyReaders).setTh t .hold3
  | .pushUnique cmp xs =>
    let new := Queue.pickPush cmp seen (xs.map .val)
    ({ s with content := new, fronts := s.fronts ++ vals (new.take (new.length - seen.length)) }.notifyReaders).setTh t .hold3
  | .remove pred =>
    ({ s with content := seen.filter (fun x => !pred x),
              removed := s.removed ++ vals (seen.filter pred) }.notifyWriters).setTh t .hold3

/-- Scheduler choices. -/
inductive Label (α : Type) where
  | light (t : Nat) (o : LOp α)     -- an idle thread calls a non-blocking operation (or takes the big lock)
  | wait (t : Nat) (o : WOp α)      -- an idle thread calls a blocking operation
  | wake (t : Nat)                  -- a sleeping thread wakes up (notified or spuriously) and retries
  | timeout (t : Nat)               -- a thread asleep in a blocking operation times out
  | intr (t : Nat)                  -- ... or is interrupted by a signal (it will retry: modelled as a notified sleeper)
  | body (t : Nat)                  -- a big-lock holder performs its next action
  | notify (t : Nat)                -- a thread that dequeued performs its notify-writers

/-- One atomic step; `none` if the label is not enabled. -/
def step (s : State α) : Label α → Option (State α)
  | .light t o => match s.th t with
    | .idle => some (s.enterL t o)
    | _ => none
  | .wait t o => match s.th t with
    | .idle => some (s.startW t o)
    | _ => none
  | .wake t => match s.th t with
    | .lockL o _ => some (s.enterL t o)
    | .lockW o _ => some (s.enterW t o)
    | .waitCv o _ => some (s.enterW t o)
    | _ => none
  -- ext/data/queue.scm:264-266: the exit path clears the locker and notifies whatever the reason was
  | .timeout t => match s.th t with
    | .waitCv _ _ => some (({ s with locker := none }.notifyLockers).setTh t .idle)
    | _ => none
  | .intr t => match s.th t with
    | .waitCv o _ => some (({ s with locker := none }.notifyLockers).setTh t (.lockW o true))
    | _ => none
  | .body t => match s.th t with
    | .hold1 b => some (s.bodyRead t b)
    | .hold2 b seen => some (s.bodyWrite t b seen)
    -- ext/data/queue.scm:198-201 `release-mtq-big-lock`
    | .hold3 => some (({ s with locker := none }.notifyLockers).setTh t .idle)
    | _ => none
  | .notify t => match s.th t with
    | .notifyW => some (s.notifyWriters.setTh t .idle)
    | _ => none

/-- A whole schedule. -/
def run (s : State α) : List (Label α) → Option (State α)
  | [] => some s
  | l :: ls => (step s l).bind fun s => run s ls

end Gauche.MtQueue

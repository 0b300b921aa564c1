import Verif.Proof.Queue
/-!
# C24 : a `<queue>` behaves as a list

Specification: a queue holds a list `l`, front first.  `stepSpec` says what every operation
returns and leaves; `stepModel` runs the modelled C/Scheme code on cons cells in memory.  The theorem
says that for every program (sequence of operations, any arguments) the two produce the same results,
and that the code never follows a bad pointer.
-/
namespace Gauche.Queue
variable {β : Type}

/-- One call of the data.queue API (the queue argument is implicit). -/
inductive Op (β : Type) where
  | enqueue (x : β) (more : List β)
  | push (x : β) (more : List β)
  | dequeue                                   -- also queue-pop!
  | dequeueAll
  | length
  | isEmpty
  | front
  | rear
  | toList
  | enqueueUnique (cmp : β → β → Bool) (x : β) (more : List β)
  | pushUnique (cmp : β → β → Bool) (x : β) (more : List β)
  | remove (pred : β → Bool)

/-- The visible result of a call. -/
inductive Res (β : Type) where
  | unit
  | error                                     -- "queue is empty"
  | obj (x : β)
  | objs (l : List β)
  | num (n : Int)
  | bool (b : Bool)
deriving DecidableEq, Repr

/-- A result that may be missing (`none` = the queue was empty: error, or the fallback argument). -/
def Res.ofOption : Option β → Res β
  | some x => .obj x
  | none => .error

/-- SPECIFICATION: result and new contents. -/
def stepSpec (l : List β) : Op β → Res β × List β
  | .enqueue x more => (.unit, l ++ x :: more)
  | .push x more => (.unit, (x :: more).reverse ++ l)
  | .dequeue => (.ofOption l.head?, l.tail)
  | .dequeueAll => (.objs l, [])
  | .length => (.num l.length, l)
  | .isEmpty => (.bool l.isEmpty, l)
  | .front => (.ofOption l.head?, l)
  | .rear => (.ofOption l.getLast?, l)
  | .toList => (.objs l, l)
  | .enqueueUnique cmp x more =>
      (.unit, (x :: more).foldl (fun acc y => if acc.any (cmp y) then acc else acc ++ [y]) l)
  | .pushUnique cmp x more =>
      (.unit, (x :: more).foldl (fun acc y => if acc.any (cmp y) then acc else y :: acc) l)
  | .remove pred => (.bool (l.any pred), l.filter (fun x => !pred x))

/-- SPECIFICATION: a whole program. -/
def runSpec (l : List β) : List (Op β) → List (Res β)
  | [] => []
  | o :: os => (stepSpec l o).1 :: runSpec (stepSpec l o).2 os

/-- The modelled code of one call; `none` = the code broke (bad pointer).
No user object is the close marker (an uninterned private symbol). -/
def stepModel (nil : β) (q : Q β) : Op β → Option (Res β × Q β)
  | .enqueue x more => (q.enqueue x more).map (.unit, ·)
  | .push x more => (q.push x more).map (.unit, ·)
  | .dequeue => (q.dequeue (fun _ => false) nil).map fun r => (.ofOption r.1, r.2)
  | .dequeueAll => (q.dequeueAll (fun _ => false)).map fun r => (.objs r.1, r.2)
  | .length => q.length.map fun r => (.num r.1, r.2)
  | .isEmpty => some (.bool q.empty, q)
  | .front => some (.ofOption (q.peek.map Prod.fst), q)
  | .rear => some (.ofOption (q.peek.bind Prod.snd), q)
  | .toList => q.items.map fun l => (.objs l, q)
  | .enqueueUnique cmp x more => (q.enqueueUnique cmp (x :: more)).map (.unit, ·)
  | .pushUnique cmp x more => (q.pushUnique cmp (x :: more)).map (.unit, ·)
  | .remove pred => (q.remove pred).map fun r => (.bool r.1, r.2)

/-- A whole program on the model. -/
def runModel (nil : β) (q : Q β) : List (Op β) → Option (List (Res β))
  | [] => some []
  | o :: os => (stepModel nil q o).bind fun r => (runModel nil r.2 os).map (r.1 :: ·)

theorem dropWhile_false (l : List β) : l.dropWhile (fun _ => false) = l := by cases l <;> rfl

theorem step_rep (nil : β) {q : Q β} {l : List β} (h : Rep q l) (o : Op β) :
    ∃ q', stepModel nil q o = some ((stepSpec l o).1, q') ∧ Rep q' (stepSpec l o).2 := by
  cases o with
  | enqueue x more => obtain ⟨q', e, r⟩ := enqueue_rep h x more; exact ⟨q', by simp [stepModel, stepSpec, e], r⟩
  | push x more => obtain ⟨q', e, r⟩ := push_rep h x more; exact ⟨q', by simp [stepModel, stepSpec, e], r⟩
  | dequeue =>
    obtain ⟨q', e, r⟩ := dequeue_rep (fun _ => false) nil h
    rw [dropWhile_false] at e r
    exact ⟨q', by simp [stepModel, stepSpec, e], r⟩
  | dequeueAll =>
    obtain ⟨q', e, r⟩ := dequeueAll_rep (fun _ => false) h
    exact ⟨q', by simp [stepModel, stepSpec, e], r⟩
  | length => obtain ⟨q', e, r⟩ := length_rep h; exact ⟨q', by simp [stepModel, stepSpec, e], r⟩
  | isEmpty => exact ⟨q, by simp [stepModel, stepSpec, empty_rep h], h⟩
  | front => exact ⟨q, by simp [stepModel, stepSpec, peek_rep h]; cases l <;> rfl, h⟩
  | rear => exact ⟨q, by simp [stepModel, stepSpec, peek_rep h]; cases l <;> simp, h⟩
  | toList => exact ⟨q, by simp [stepModel, stepSpec, h.items], h⟩
  | enqueueUnique cmp x more =>
    obtain ⟨q', e, r⟩ := enqueueUnique_rep cmp h (x :: more); exact ⟨q', by simp [stepModel, stepSpec, e], r⟩
  | pushUnique cmp x more =>
    obtain ⟨q', e, r⟩ := pushUnique_rep cmp h (x :: more); exact ⟨q', by simp [stepModel, stepSpec, e], r⟩
  | remove pred => obtain ⟨q', e, r⟩ := remove_rep pred h; exact ⟨q', by simp [stepModel, stepSpec, e], r⟩

theorem run_rep (nil : β) : ∀ (os : List (Op β)) (q : Q β) (l : List β), Rep q l →
    runModel nil q os = some (runSpec l os)
  | [], _, _, _ => rfl
  | o :: os, q, l, h => by
    obtain ⟨q', e, r⟩ := step_rep nil h o
    simp [runModel, runSpec, e, run_rep nil os q' _ r]

/-- C24: every program run on a queue made by `list->queue` (in any memory) returns exactly what the
list specification returns. -/
theorem C24_queue_is_list (nil : β) (m : Mem β) (init : List β) (os : List (Op β)) :
    ∃ q, ofList m init = some q ∧ runModel nil q os = some (runSpec init os) := by
  obtain ⟨q, e, r⟩ := setContent_rep (makeq m) init
  exact ⟨q, e, run_rep nil os q init r⟩

/-- C24: the same for a queue made by `make-queue`. -/
theorem C24_make_queue (nil : β) (m : Mem β) (os : List (Op β)) :
    runModel nil (makeq m) os = some (runSpec [] os) := run_rep nil os _ _ (rep_makeq m)

/-- Consequence in first-in first-out form: enqueuing all of `xs` one by one and dequeuing as many times
returns `xs` in order. -/
theorem C24_fifo (nil : β) (m : Mem β) (xs : List β) :
    runModel nil (makeq m) (xs.map (fun x => Op.enqueue x []) ++ xs.map (fun _ => Op.dequeue))
      = some (xs.map (fun _ => Res.unit) ++ xs.map Res.obj) := by
  rw [C24_make_queue]
  have h2 : ∀ xs : List β, runSpec xs (xs.map (fun _ => Op.dequeue)) = xs.map Res.obj := by
    intro xs
    induction xs with
    | nil => rfl
    | cons x xs ih => simpa [runSpec, stepSpec, Res.ofOption] using ih
  have h1 : ∀ (xs l : List β) (os : List (Op β)), runSpec l (xs.map (fun x => Op.enqueue x []) ++ os)
      = xs.map (fun _ => Res.unit) ++ runSpec (l ++ xs) os := by
    intro xs
    induction xs with
    | nil => intro l os; simp
    | cons x xs ih => intro l os; simp [runSpec, stepSpec, ih]
  rw [h1]; simpa using h2 xs

/-- A concrete program exercising the stale tail pointer after the queue has been emptied. -/
example : runModel 0 (makeq ⟨fun _ => 0, fun _ => none, 0⟩)
    [.enqueue 1 [2, 3], .push 4 [5], .toList, .dequeue, .dequeue, .dequeue, .dequeue, .dequeue, .dequeue,
     .enqueue 7 [], .enqueueUnique (· == ·) 7 [8, 8], .rear, .length, .remove (· == 7), .length, .dequeueAll, .isEmpty]
    = some [.unit, .unit, .objs [5, 4, 1, 2, 3], .obj 5, .obj 4, .obj 1, .obj 2, .obj 3, .error,
            .unit, .unit, .obj 8, .num 2, .bool true, .num 1, .objs [8], .bool true] := by decide +kernel

end Gauche.Queue

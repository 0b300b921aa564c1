import Verif.Proof.MtQueue
/-!
# C25 : `<mtqueue>` under every interleaving

A schedule is any list of labels (`Verif/Model/MtQueue.lean`): any number of threads call any operations in any order,
sleep, wake (also spuriously), time out, are interrupted.  The ghost fields record the history: `ins` the values
accepted at the rear in order, `fronts` the values accepted at the front, `out` the values returned to dequeuers in
order, `removed` the values deleted by `remove-from-queue!`.

The properties hold for every schedule that does not combine aborted waits (timeouts, signals) with operations that
take the big lock (`queue->list`, `remove-from-queue!`, `*-unique!`, `find-in-queue` ...).  For the combination they are
false of the code: a timed-out waiter clears the big lock held by another thread
(`C25_timeout_breaks_big_lock`).
-/
namespace Gauche.MtQueue
open Gauche.Queue (Item)
variable {α : Type}

/-- The restriction on schedules: no wait is aborted, or nobody takes the big lock. -/
def Restricted (ls : List (Label α)) : Prop :=
  (∀ t, .timeout t ∉ ls ∧ .intr t ∉ ls) ∨ (∀ t b, .light t (.grab b) ∉ ls)

theorem Restricted.safe {ls : List (Label α)} (h : Restricted ls) : Safe ls := by
  rcases h with h | h
  · refine Or.inl fun l hl => ?_
    cases l with
    | timeout t => exact absurd hl (h t).1
    | intr t => exact absurd hl (h t).2
    | _ => rfl
  · refine Or.inr fun l hl => ?_
    cases l with
    | light t o =>
      cases o with
      | grab b => exact absurd hl (h t b)
      | _ => rfl
    | _ => rfl

/-- C25 (at most once, nothing lost): what was put in is, with multiplicity, exactly what was delivered, removed by
predicate, or is still in the queue. -/
theorem C25_at_most_once_partial (m : Option Nat) (ls : List (Label α)) (hr : Restricted ls) (s : State α)
    (h : run (init m) ls = some s) :
    (s.ins ++ s.fronts).Perm (s.out ++ s.removed ++ vals s.content) := (run_init hr.safe h).2.1.acc

/-- C25 (order): as long as nothing was inserted at the front, the deliveries followed by the contents are the insertions
in order, with only the removed ones left out. -/
theorem C25_fifo_partial (m : Option Nat) (ls : List (Label α)) (hr : Restricted ls) (s : State α)
    (h : run (init m) ls = some s) (hf : s.fronts = []) :
    (s.out ++ vals s.content).Sublist s.ins ∧ (s.removed = [] → s.out ++ vals s.content = s.ins) := by
  have hi := (run_init hr.safe h).2.1
  refine ⟨hi.fifo hf, fun hrem => (hi.fifo hf).eq_of_length ?_⟩
  have := hi.acc.length_eq
  simp [hf, hrem] at this ⊢
  omega

/-- C25 (bound): a queue with `max-length` m > 0 never holds more than m items (close marker included). -/
theorem C25_bounded_partial (m : Nat) (hm : m ≠ 0) (ls : List (Label α)) (hr : Restricted ls) (s : State α)
    (h : run (init (some m)) ls = some s) : s.content.length ≤ m := by
  have hmax : ∀ (ls : List (Label α)) (s s' : State α), run s ls = some s' → s'.maxlen = s.maxlen := by
    intro ls
    induction ls with
    | nil => intro s s' h; simp [run] at h; rw [h]
    | cons l ls ih =>
      intro s s' h
      simp only [run, Option.bind_eq_some_iff] at h
      obtain ⟨s1, hs, h⟩ := h
      rw [ih s1 s' h]
      have eW : ∀ (s : State α) t o, (s.enterW t o).maxlen = s.maxlen := by
        intro s t o; unfold State.enterW
        split
        · rfl
        · split
          · rfl
          · cases o with
            | enqW x c => cases c <;> rfl
            | pushW x c => cases c <;> rfl
            | deqW c => simp [State.doOk]
      have eL : ∀ (s : State α) t o, (s.enterL t o).maxlen = s.maxlen := by
        intro s t o; unfold State.enterL
        split
        · rfl
        · cases o with
          | enq xs => dsimp only; split; rfl; split <;> rfl
          | push xs => dsimp only; split; rfl; split <;> rfl
          | deq =>
            have := deqInt_maxlen s
            dsimp only
            split <;> (rename_i he; rw [he] at this; exact this)
          | deqAll => rfl
          | grab b => rfl
      cases l with
      | light t o => simp only [step] at hs; split at hs <;> cases hs; exact eL _ _ _
      | wait t o =>
        simp only [step] at hs; split at hs <;> cases hs
        cases o with
        | enqW x c => simp only [State.startW]; split; rfl; exact eW _ _ _
        | pushW x c => simp only [State.startW]; split; rfl; exact eW _ _ _
        | deqW c => simp only [State.startW]; rw [eW]; cases c <;> rfl
      | wake t =>
        simp only [step] at hs
        split at hs <;> cases hs
        · exact eL _ _ _
        · exact eW _ _ _
        · exact eW _ _ _
      | timeout t => simp only [step] at hs; split at hs <;> cases hs; rfl
      | intr t => simp only [step] at hs; split at hs <;> cases hs; rfl
      | body t =>
        simp only [step] at hs
        split at hs <;> cases hs
        · rename_i b _; cases b <;> simp only [State.bodyRead] <;> (try split) <;> rfl
        · rename_i b _ _; cases b <;> rfl
        · rfl
      | notify t => simp only [step] at hs; split at hs <;> cases hs; rfl
  exact (run_init hr.safe h).2.1.bnd m (hmax ls _ _ h) hm

/-- C25 (exclusion): at most one thread is inside a big-lock operation. -/
theorem C25_big_lock_exclusive_partial (m : Option Nat) (ls : List (Label α)) (hr : Restricted ls) (s : State α)
    (h : run (init m) ls = some s) (t u : Nat) (ht : (s.th t).isHold = true) (hu : (s.th u).isHold = true) : t = u :=
  (run_init hr.safe h).1.unique ht hu

/-- SPECIFICATION: when a blocking operation has to wait. -/
def MustWait (s : State α) : WOp α → Prop
  | .deqW _ => s.content = []
  | .enqW _ _ | .pushW _ _ =>
    match s.maxlen with
    | none => False
    | some 0 => s.readerSem = 0
    | some (n + 1) => n + 1 ≤ s.content.length

/-- C25 (no lost wake-up), for queues that were not closed with `mtqueue-close!`: a thread asleep without having been
notified has reason to sleep - a reader sees an empty queue, a writer a full one unless a dequeuer is just about to
notify, a thread waiting for the big lock sees it taken. -/
theorem C25_no_lost_wakeup_partial (m : Option Nat) (ls : List (Label α)) (hr : Restricted ls) (s : State α)
    (h : run (init m) ls = some s) (hm : s.marked = false) (t : Nat) :
    (∀ c, s.th t = .waitCv (.deqW c) false → MustWait s (.deqW c)) ∧
    (∀ o, s.th t = .waitCv o false → MustWait s o ∨ ∃ u, s.th u = .notifyW) ∧
    (∀ o, s.th t = .lockL o false → ∃ u, s.locker = some u) ∧
    (∀ o, s.th t = .lockW o false → ∃ u, s.locker = some u) := by
  have w := (run_init hr.safe h).2.2 hm
  have full : s.full = true → ∀ o : WOp α, o.isWriter = true → MustWait s o := by
    intro hf o ho
    have : s.full = true → (match s.maxlen with
        | none => False | some 0 => s.readerSem = 0 | some (n + 1) => n + 1 ≤ s.content.length) := by
      intro hf
      unfold State.full State.overflows at hf
      rcases hx : s.maxlen with _ | (_ | n)
      · simp [hx] at hf
      · simpa [hx] using hf
      · simp [hx] at hf; simp; omega
    cases o with
    | deqW c => simp [WOp.isWriter] at ho
    | enqW x c => exact this hf
    | pushW x c => exact this hf
  refine ⟨fun c hc => w.rd t c hc, fun o ho => ?_, fun o ho => ?_, fun o ho => ?_⟩
  · cases hw : o.isWriter with
    | true =>
      rcases w.wr t o hw ho with h1 | h1
      · exact Or.inl (full h1 o hw)
      · exact Or.inr h1
    | false =>
      cases o with
      | deqW c => exact Or.inl (w.rd t c ho)
      | enqW x c => simp [WOp.isWriter] at hw
      | pushW x c => simp [WOp.isWriter] at hw
  · exact Option.isSome_iff_exists.1 (w.lk t (Or.inl ⟨o, ho⟩))
  · exact Option.isSome_iff_exists.1 (w.lk t (Or.inr ⟨o, ho⟩))

/-! ## Non-vacuity: a schedule in which a writer blocks on a full queue, is woken by a dequeue and proceeds, while a
third thread removes an element under the big lock. -/
example :
    let ls : List (Label Nat) := [.light 0 (.enq [1]), .wait 1 (.enqW (.val 2) false), .light 0 .deq, .notify 0, .wake 1,
      .light 2 (.grab (.remove fun x => x == .val 2)), .wait 3 (.deqW false), .body 2, .body 2, .body 2, .wake 3]
    Restricted ls ∧ (run (init (some 1)) ls).map (fun s => (s.ins, s.out, s.removed, s.content))
      = some ([1, 2], [1], [2], []) := by
  refine ⟨Or.inl (by simp), by decide +kernel⟩

/-! ## Where the code violates the property (schedules of the modelled code) -/

/-- A waiter that times out clears the big lock held by another thread: here thread 2 is inside
`remove-from-queue!` (removing 2), thread 1's `enqueue/wait!` times out, and the value 1 is delivered twice. -/
theorem C25_timeout_breaks_big_lock :
    (run (init (some 2)) ([.light 0 (.enq [1, 2]), .wait 1 (.enqW (.val 9) false),
        .light 2 (.grab (.remove fun x => x == .val 2)), .body 2, .timeout 1, .light 0 .deq, .notify 0,
        .body 2, .body 2, .light 0 .deq] : List (Label Nat))).map (fun s => (s.ins, s.out, s.removed, s.content))
      = some ([1, 2], [1, 1], [2], []) := by decide +kernel

/-- `dequeue!` on a queue holding only the close marker drops the marker without notifying writers: thread 2 sleeps in
`enqueue/wait!` although the queue is empty, and no notification is pending. -/
theorem C25_lost_wakeup_after_close :
    (run (init (some 1)) ([.light 1 (.enq [5]), .wait 2 (.enqW (.val 7) false), .wait 3 (.enqW .marker true),
        .light 0 .deq, .notify 0, .wake 3, .wake 2, .light 0 .deq] : List (Label Nat))).map
      (fun s => (s.content, s.locker, (List.range 4).map fun t => match s.th t with
        | .idle => 0 | .waitCv (.enqW _ _) false => 1 | _ => 2))
      = some ([], none, [0, 0, 1, 0]) := by decide +kernel

/-- With `max-length` 0 two writers can both complete on a single waiting reader: an item stays in the queue and its
`enqueue/wait!` has returned though nobody took it. -/
theorem C25_zero_length_overruns :
    (run (init (some 0)) ([.wait 1 (.deqW false), .wait 2 (.enqW (.val 5) false), .wait 3 (.enqW (.val 6) false),
        .wake 1] : List (Label Nat))).map
      (fun s => (s.out, s.content, s.readerSem, (List.range 4).map fun t => match s.th t with
        | .idle => true | _ => false))
      = some ([5], [.val 6], 0, [true, true, true, true]) := by decide +kernel

/-- A `dequeue/wait!` that times out leaves the waiting-reader count raised. -/
theorem C25_timeout_leaks_reader_count :
    (run (init (some 0)) ([.wait 1 (.deqW false), .timeout 1, .wait 2 (.enqW (.val 5) false)] : List (Label Nat))).map
      (fun s => (s.readerSem, s.content, (List.range 3).map fun t => match s.th t with | .idle => true | _ => false))
      = some (1, [.val 5], [true, true, true]) := by decide +kernel

/-- `enqueue-unique!` accepts an element after the queue was closed. -/
theorem C25_unique_ignores_close :
    (run (init none) ([.wait 1 (.enqW .marker true), .light 2 (.grab (.enqUnique (· == ·) [7])), .body 2, .body 2,
        .body 2] : List (Label Nat))).map (fun s => (s.closed, s.content)) = some (true, [.marker, .val 7]) := by
  decide +kernel

end Gauche.MtQueue

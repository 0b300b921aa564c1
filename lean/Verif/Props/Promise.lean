import Verif.Proof.Promise
/-
C31: promises.

`run (start h) sched` is any interleaving of any number of threads that force promises, each step one access to memory; the thunks may
force promises again (also the one they belong to) before they end.  `hist` is what the calls of `force` have delivered.
-/
namespace Gauche.Promise

variable {T V E : Type}

theorem start_ok {h : Heap T V E} (hq : Quiet h) : SysOk (start h) := by
  refine ⟨fun c => ⟨fun _ => ?_, (hq c).2.2⟩, fun t p pc hc => absurd hc (by simp [start]), fun t e he => absurd he (by simp [start]),
    fun p r hr => absurd hr (by simp [start])⟩
  rw [Agrees.iff]; exact (hq c).2

theorem noPromise_of {sched : List (Nat × Choice V E)} (hn : NoDelayForce sched) : ∀ x ∈ sched, NoPromise x.2 := by
  intro x hx
  obtain ⟨t, ch⟩ := x
  cases ch with
  | go => trivial
  | call p => trivial
  | finish o =>
    cases o with
    | promise r => exact absurd hx (hn t r)
    | vals v => trivial
    | raise e => trivial

/-- C31: without `delay-force`, whatever the interleaving, every call of `force` that returns delivers values, and all calls on the
same promise, from whatever thread and however nested, deliver the same ones. -/
theorem C31_same_value (h : Heap T V E) (hq : Quiet h) (sched : List (Nat × Choice V E)) (hn : NoDelayForce sched) (p : Nat) (x : Code T V E)
    (hx : (p, Result.returned x) ∈ (run (start h) sched).hist) :
    (∃ v, x = .vals v) ∧ ∀ y, (p, Result.returned y) ∈ (run (start h) sched).hist ∨ (p, Result.raised y) ∈ (run (start h) sched).hist → y = x := by
  obtain ⟨hok, _, _⟩ := run_ok (start_ok hq) sched (noPromise_of hn)
  have hcode : ∀ r, (p, r) ∈ (run (start h) sched).hist → r = .returned x ∨ r = .returned ((run (start h) sched).heap.content ((run (start h) sched).heap.ptr p)).code ∨ r = .raised ((run (start h) sched).heap.content ((run (start h) sched).heap.ptr p)).code := by
    intro r hr
    rcases (hok.hist p r hr).2 with h1 | h1
    · exact Or.inr (Or.inl h1.1)
    · exact Or.inr (Or.inr h1)
  obtain ⟨h1, h2⟩ := hok.hist p _ hx
  rcases h2 with ⟨h2, h3⟩ | h2
  · have hxc := Result.returned.inj h2
    refine ⟨?_, ?_⟩
    · obtain ⟨v, hv⟩ := (hok.heap ((run (start h) sched).heap.ptr p)).2.1 h3
      exact ⟨v, by rw [hxc, hv]⟩
    · rintro y (hy | hy)
      · rcases (hok.hist p _ hy).2 with ⟨h4, _⟩ | h4
        · rw [hxc]; exact Result.returned.inj h4
        · exact absurd h4 (by simp)
      · rcases (hok.hist p _ hy).2 with ⟨h4, _⟩ | h4
        · exact absurd h4 (by simp)
        · rw [hxc]; exact Result.raised.inj h4
  · exact absurd h2 (by simp)

/-- C31: without `delay-force`, a fulfilled promise stays as it is, in every continuation of every interleaving. -/
theorem C31_never_changes (h : Heap T V E) (hq : Quiet h) (sched sched' : List (Nat × Choice V E)) (hn : NoDelayForce (sched ++ sched')) (p : Nat)
    (x : Result T V E) (hx : Fulfilled (run (start h) sched).heap p x) : Fulfilled (run (run (start h) sched) sched').heap p x := by
  have hn1 : NoDelayForce sched := fun t r hm => hn t r (List.mem_append_left _ hm)
  have hn2 : NoDelayForce sched' := fun t r hm => hn t r (List.mem_append_right _ hm)
  obtain ⟨hok, _, _⟩ := run_ok (start_ok hq) sched (noPromise_of hn1)
  obtain ⟨_, r2, r3⟩ := run_ok hok sched' (noPromise_of hn2)
  have hne : ((run (start h) sched).heap.content ((run (start h) sched).heap.ptr p)).state ≠ .unforced := by
    cases x with
    | returned x => rw [hx.1]; simp
    | raised x => rw [hx.1]; simp
  obtain ⟨e1, e2⟩ := r3 _ hne
  cases x with
  | returned x => exact ⟨by rw [r2, e1]; exact hx.1, by rw [r2, e2]; exact hx.2⟩
  | raised x => exact ⟨by rw [r2, e1]; exact hx.1, by rw [r2, e2]; exact hx.2⟩

/-- C31: with `delay-force` too, if the critical sections that end evaluations do not overlap (one thread in particular), a fulfilled
promise stays as it is, whatever promises are settled with whatever outcomes in whatever order. -/
theorem C31_never_changes_atomic (h : Heap T V E) (p : Nat) (x : Result T V E) (hx : Fulfilled h p x) (evs : List (Nat × Outcome V E)) :
    Fulfilled (evs.foldl (fun h e => settle h e.1 e.2) h) p x := by
  induction evs generalizing h with
  | nil => exact hx
  | cons e evs ih =>
    apply ih
    have hne : (h.content (h.ptr p)).state ≠ .unforced := by
      cases x with
      | returned x => rw [hx.1]; simp
      | raised x => rw [hx.1]; simp
    obtain ⟨e1, e2⟩ := settle_stable h e.1 e.2 p hne
    cases x with
    | returned x => exact ⟨by rw [e1]; exact hx.1, by rw [e2]; exact hx.2⟩
    | raised x => exact ⟨by rw [e1]; exact hx.1, by rw [e2]; exact hx.2⟩

/-- C31: `settle` is what a thread does from the end of a thunk to the release of the mutex, if no other thread runs meanwhile. -/
theorem C31_settle (s : Sys T V E) (t p : Nat) (code : Code T V E) (hc : (s.thread t).cur = some (p, .eval code))
    (hl : (s.heap.content (s.heap.ptr p)).lock = none) (o : Outcome V E) :
    ∃ k, (run s ((t, .finish o) :: List.replicate k (t, .go))).heap = settle s.heap p o := by
  have heq : ∀ a b : Heap T V E, a.ptr = b.ptr → (∀ c, a.content c = b.content c) → a = b := by
    rintro ⟨a1, a2⟩ ⟨b1, b2⟩ h1 h2
    have : a2 = b2 := funext h2
    simp_all
  cases hs : (s.heap.content (s.heap.ptr p)).state with
  | unforced =>
    cases o with
    | vals v =>
      refine ⟨5, ?_⟩
      apply heq
      · simp [run, List.replicate, step, hc, setThread, act, hl, hs, settle]
      · intro c
        simp only [run, List.replicate, List.foldl, step, hc, setThread, act, hl, hs, settle, Function.update_self, setLock_content, setCode_content,
          setState_content, if_true]
        by_cases hcc : c = s.heap.ptr p
        · simp [hcc]
        · simp [hcc]
    | raise e =>
      refine ⟨5, ?_⟩
      apply heq
      · simp [run, List.replicate, step, hc, setThread, act, hl, hs, settle]
      · intro c
        simp only [run, List.replicate, List.foldl, step, hc, setThread, act, hl, hs, settle, Function.update_self, setLock_content, setCode_content,
          setState_content, if_true]
        by_cases hcc : c = s.heap.ptr p
        · simp [hcc]
        · simp [hcc]
    | promise r =>
      refine ⟨7, ?_⟩
      apply heq
      · funext q
        simp [run, List.replicate, step, hc, setThread, act, hl, hs, settle]
      · intro c
        simp only [run, List.replicate, List.foldl, step, hc, setThread, act, hl, hs, settle, Function.update_self, setLock_content, setCode_content,
          setState_content, setPtr_content, if_true]
        by_cases hcc : c = s.heap.ptr p
        · by_cases hr : s.heap.ptr r = s.heap.ptr p
          · simp [hcc, hr]
          · simp [hcc, hr]
        · simp [hcc]
  | forced =>
    refine ⟨4, ?_⟩
    cases o with
    | vals v =>
      apply heq
      · simp [run, List.replicate, step, hc, setThread, act, hl, hs, settle]
      · intro c
        simp only [run, List.replicate, List.foldl, step, hc, setThread, act, hl, hs, settle, Function.update_self, setLock_content, if_true]
        by_cases hcc : c = s.heap.ptr p
        · rw [if_pos hcc, hcc, ← hl, ← hs]
        · simp [hcc]
    | raise e =>
      apply heq
      · simp [run, List.replicate, step, hc, setThread, act, hl, hs, settle]
      · intro c
        simp only [run, List.replicate, List.foldl, step, hc, setThread, act, hl, hs, settle, Function.update_self, setLock_content, if_true]
        by_cases hcc : c = s.heap.ptr p
        · rw [if_pos hcc, hcc, ← hl, ← hs]
        · simp [hcc]
    | promise r =>
      apply heq
      · simp [run, List.replicate, step, hc, setThread, act, hl, hs, settle]
      · intro c
        simp only [run, List.replicate, List.foldl, step, hc, setThread, act, hl, hs, settle, Function.update_self, setLock_content, if_true]
        by_cases hcc : c = s.heap.ptr p
        · rw [if_pos hcc, hcc, ← hl, ← hs]
        · simp [hcc]
  | exception =>
    refine ⟨4, ?_⟩
    cases o with
    | vals v =>
      apply heq
      · simp [run, List.replicate, step, hc, setThread, act, hl, hs, settle]
      · intro c
        simp only [run, List.replicate, List.foldl, step, hc, setThread, act, hl, hs, settle, Function.update_self, setLock_content, if_true]
        by_cases hcc : c = s.heap.ptr p
        · rw [if_pos hcc, hcc, ← hl, ← hs]
        · simp [hcc]
    | raise e =>
      apply heq
      · simp [run, List.replicate, step, hc, setThread, act, hl, hs, settle]
      · intro c
        simp only [run, List.replicate, List.foldl, step, hc, setThread, act, hl, hs, settle, Function.update_self, setLock_content, if_true]
        by_cases hcc : c = s.heap.ptr p
        · rw [if_pos hcc, hcc, ← hl, ← hs]
        · simp [hcc]
    | promise r =>
      apply heq
      · simp [run, List.replicate, step, hc, setThread, act, hl, hs, settle]
      · intro c
        simp only [run, List.replicate, List.foldl, step, hc, setThread, act, hl, hs, settle, Function.update_self, setLock_content, if_true]
        by_cases hcc : c = s.heap.ptr p
        · rw [if_pos hcc, hcc, ← hl, ← hs]
        · simp [hcc]

/-- C31: one thread, thunks that do not force promises: `force` of a promise that denotes something ends, delivers it, afterwards all
promises on the chain are fulfilled with it, and no promise denotes anything else than before. -/
theorem C31_chain (eval : T → Outcome V E) (h : Heap T V E) (p : Nat) (x : Result T V E) (hd : Den eval h p x) :
    ∃ fuel h', force eval fuel h p = some (h', x) ∧ (∀ q, OnChain eval h p q → Fulfilled h' q x) ∧
      (∀ q y, Den eval h q y → Den eval h' q y) := by
  obtain ⟨n, hn⟩ := den_iff.1 hd
  obtain ⟨fuel, h', f1, f2, f3, f4⟩ := force_spec n h hn
  refine ⟨fuel, h', f1, fun q hq => ?_, fun q y hy => ?_⟩
  · have := f3 q (Or.inl hq)
    cases x with
    | returned x => exact ⟨by rw [this]; exact f4.1, by rw [this]; exact f4.2⟩
    | raised x => exact ⟨by rw [this]; exact f4.1, by rw [this]; exact f4.2⟩
  · obtain ⟨m, hm⟩ := den_iff.1 hy
    obtain ⟨m', hm'⟩ := f2 m q y hm
    exact den_iff.2 ⟨m', hm'⟩

/-! ### What the code does not do -/

/-- Promise `p` has its own content, with thunk `100 + p`. -/
def h0 : Heap Nat Nat Nat := { ptr := id, content := fun c => { state := .unforced, code := .thunk (100 + c), lock := none } }

theorem h0_quiet : Quiet h0 := fun c => ⟨rfl, fun _ => ⟨100 + c, rfl⟩, fun h => absurd h (by simp [h0]), fun h => absurd h (by simp [h0])⟩

def gos (t n : Nat) : List (Nat × Choice Nat Nat) := List.replicate n (t, .go)

/-- C31 fails with `delay-force` and two threads: `force_cc` copies `code` and `state` of the other promise without its mutex.  If the
other promise is fulfilled in between, `force` returns the thunk itself as the values. -/
theorem C31_bug_torn : ∃ sched, (0, Result.returned (Code.thunk 101)) ∈ (run (start h0) sched).hist :=
  ⟨[(0, .call 0)] ++ gos 0 4 ++ [(0, .finish (.promise 1))] ++ gos 0 4 ++
    [(1, .call 1)] ++ gos 1 4 ++ [(1, .finish (.vals 7))] ++ gos 1 4 ++ gos 0 6, by decide +kernel⟩

/-- C31 fails with `delay-force` and two threads: a promise that has delivered 7 is unfulfilled again and then delivers 8. -/
theorem C31_bug_changes : ∃ sched, (1, Result.returned (Code.vals 7)) ∈ (run (start h0) sched).hist ∧
    (1, Result.returned (Code.vals 8)) ∈ (run (start h0) sched).hist :=
  ⟨[(0, .call 0)] ++ gos 0 4 ++ [(0, .finish (.promise 1))] ++ gos 0 5 ++
    [(1, .call 1)] ++ gos 1 4 ++ [(1, .finish (.vals 7))] ++ gos 1 8 ++ gos 0 2 ++
    [(1, .call 1)] ++ gos 1 4 ++ [(1, .finish (.vals 8))] ++ gos 1 8, by decide +kernel, by decide +kernel⟩

/-- One thread: a thunk forces its own promise, which is thereby fulfilled with 5, and then raises 9.  `force` raises neither: it
raises the list of values as if it were a condition. -/
theorem C31_bug_raise_values : ∃ sched, (∀ x ∈ sched, x.1 = 0) ∧ NoDelayForce sched ∧
    (run (start h0) sched).hist = [(0, .raised (.vals 5)), (0, .returned (.vals 5))] :=
  ⟨[(0, .call 0)] ++ gos 0 4 ++ [(0, .call 0)] ++ gos 0 4 ++ [(0, .finish (.vals 5))] ++ gos 0 8 ++ [(0, .finish (.raise 9))] ++ gos 0 5,
    by decide +kernel, by intro t r; simp [gos], by decide +kernel⟩

/-- One thread: promises 0 and 2 are both `(delay-force 1)`, and the thunk of 1 forces 2 the first time it runs.  Afterwards 0 and 1
deliver different values, although 0 is `(delay-force 1)`. -/
theorem C31_bug_not_shared : ∃ sched, (∀ x ∈ sched, x.1 = 0) ∧
    (run (start h0) sched).hist = [(1, .returned (.vals 7)), (0, .returned (.vals 8)), (2, .returned (.vals 7))] :=
  ⟨[(0, .call 0)] ++ gos 0 4 ++ [(0, .finish (.promise 1))] ++ gos 0 7 ++ gos 0 4 ++
    [(0, .call 2)] ++ gos 0 4 ++ [(0, .finish (.promise 1))] ++ gos 0 7 ++ gos 0 4 ++ [(0, .finish (.vals 7))] ++ gos 0 8 ++
    [(0, .finish (.vals 8))] ++ gos 0 8 ++ [(0, .call 1)] ++ gos 0 3, by decide +kernel, by decide +kernel⟩

/-! ### Instances -/

/-- Two threads force promise 0; thread 1's value comes second and is dropped. -/
def twoThreads : List (Nat × Choice Nat Nat) :=
  [(0, .call 0)] ++ gos 0 4 ++ [(1, .call 0)] ++ gos 1 4 ++ [(0, .finish (.vals 5)), (1, .finish (.vals 6))] ++ gos 0 8 ++ gos 1 7

example : (run (start h0) twoThreads).hist = [(0, .returned (.vals 5)), (0, .returned (.vals 5))] := by decide +kernel
example : NoDelayForce twoThreads := by intro t r; simp [twoThreads, gos]
example : ∀ y, (0, Result.returned y) ∈ (run (start h0) twoThreads).hist → y = .vals 5 := fun y hy =>
  (C31_same_value h0 h0_quiet twoThreads (by intro t r; simp [twoThreads, gos]) 0 (.vals 5) (by decide +kernel)).2 y (Or.inl hy)
example : Fulfilled (run (start h0) twoThreads).heap 0 (.returned (.vals 5)) := by
  constructor <;> decide +kernel

/-- Thunk 100 delivers promise 1, thunk 101 promise 2, thunk 102 the value 9. -/
def ev : Nat → Outcome Nat Nat
  | 100 => .promise 1
  | 101 => .promise 2
  | 102 => .vals 9
  | _ => .raise 0

example : ∃ fuel h', force ev fuel h0 0 = some (h', .returned (.vals 9)) ∧ Fulfilled h' 0 (.returned (.vals 9)) ∧
    Fulfilled h' 1 (.returned (.vals 9)) ∧ Fulfilled h' 2 (.returned (.vals 9)) := by
  have d2 : Den ev h0 2 (.returned (.vals 9)) := .vals (t := 102) rfl rfl rfl
  have d1 : Den ev h0 1 (.returned (.vals 9)) := .chain (t := 101) rfl rfl rfl d2
  obtain ⟨f, h', h1, h2, _⟩ := C31_chain ev h0 0 (.returned (.vals 9)) (.chain (t := 100) rfl rfl rfl d1)
  have c2 : OnChain ev h0 1 2 := .next (t := 101) rfl rfl rfl (.refl 2)
  exact ⟨f, h', h1, h2 0 (.refl 0), h2 1 (.next (t := 100) rfl rfl rfl (.refl 1)), h2 2 (.next (t := 100) rfl rfl rfl c2)⟩

end Gauche.Promise

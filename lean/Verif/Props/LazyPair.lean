import Verif.Proof.LazyPair
/-
C62: a lazy pair and any number of threads that force it.

A history is a list of (thread, choice); `run (make item) sched` is the state after it, `hist` the endings of the calls so far.
-/
namespace Gauche.LazyPair

variable {A C : Type}

/-- However the threads interleave, and however often the generator failed before, it is run to its end at most once. -/
theorem C62_once (item : A) (sched : List (Nat × Choice C)) : (run (make item) sched).made.length ≤ 1 :=
  (run_inv (ok := False) sched (make_inv item False).1 (make_inv item False).2 (fun h => h.elim)).1.made

/-- Every caller that finds a pair finds the item as car and, as cdr, what that one run made: all of them find the same. -/
theorem C62_same_pair (item : A) (sched : List (Nat × Choice C)) (t : Nat) (a : A) (sl : A ⊕ C)
    (h : (t, Ending.returned (some a) sl) ∈ (run (make item) sched).hist) :
    a = item ∧ ∃ r, (run (make item) sched).made = [r] ∧ sl = .inr r := by
  have hi := (run_inv (ok := False) sched (make_inv item False).1 (make_inv item False).2 (fun h => h.elim)).1
  obtain ⟨h1, h2, h3⟩ := (hi.hist t _ sl h).1 a rfl
  obtain ⟨r, h4, h5⟩ := hi.desc h2
  exact ⟨h1, r, h4, by rw [← h3, h5]⟩

/-- As long as the generator does not fail, every call that returns has made a pair of the object. -/
theorem C62_returns_pair (item : A) (sched : List (Nat × Choice C)) (hok : ∀ x ∈ sched, x.2 ≠ .fail) (t : Nat) (c : Option A) (sl : A ⊕ C)
    (h : (t, Ending.returned c sl) ∈ (run (make item) sched).hist) :
    c = some item ∧ ∃ r, (run (make item) sched).made = [r] ∧ sl = .inr r := by
  have hi := (run_inv (ok := True) sched (make_inv item True).1 (make_inv item True).2
    (fun _ x hx => by have := hok x hx; cases hc : x.2 <;> simp_all [NoFail])).1
  have := (hi.hist t c sl h).2 trivial
  cases c with
  | none => exact absurd rfl this
  | some a =>
    obtain ⟨h1, h2⟩ := C62_same_pair item sched t a sl h
    exact ⟨by rw [h1], h2⟩

/-- A pair stays the pair it is. -/
theorem C62_never_changes (item : A) (sched sched' : List (Nat × Choice C)) (a : A) (h : (run (make item) sched).cell.car = some a) :
    (run (make item) (sched ++ sched')).cell.car = some a ∧
      (run (make item) (sched ++ sched')).cell.slot = (run (make item) sched).cell.slot := by
  have hi := run_inv (ok := False) sched (make_inv item False).1 (make_inv (C := C) item False).2 (fun h => h.elim)
  have := run_pair sched' hi.1 hi.2 (fun h => h.elim) a h
  rw [show run (make item) (sched ++ sched') = run (run (make item) sched) sched' by simp [run]]
  exact this

/-- A generator that forces its own pair gets the error, in two steps of its own, whatever state the others are in: it never waits for
itself. -/
theorem C62_recursive (item : A) (sched : List (Nat × Choice C)) (t : Nat) (x : A) (h : ((run (make item) sched).thread t).pc = .run x) :
    let s := run (make item) sched
    let s' := run s [(t, .call), (t, .go), (t, .go)]
    s'.hist = (t, .recursive) :: s.hist ∧ s'.cell = s.cell ∧ (s'.thread t).pc = .run x ∧ s'.made = s.made := by
  have hi := run_inv (ok := False) sched (make_inv item False).1 (make_inv (C := C) item False).2 (fun h => h.elim)
  have ht := hi.1.thr t
  rw [TInv, h] at ht
  obtain ⟨_, _, h1, h2, h3, h4, h5⟩ := ht
  have hc : (run (make item) sched).cell.car = none := by
    cases hc : (run (make item : Sys A C) sched).cell.car with
    | none => rfl
    | some a => have := (hi.1.car a hc).2; rw [h2] at this; exact absurd this (by simp)
  intro s s'
  revert h h1 h2 h3 h4 hc
  show ((run (make item) sched).thread t).pc = .run x → _
  generalize hs : run (make item : Sys A C) sched = s0
  subst s' s
  rw [hs]
  intro h h1 h2 h3 h4 hc
  obtain ⟨⟨o, ca, sl⟩, th, md, hi⟩ := s0
  dsimp only at h h1 h2 h3 h4 hc
  subst h2 h4 hc
  simp [run, step, setPc, back, h, h1]

/-- A call made while nobody works on the pair, and not interrupted, makes the pair. -/
theorem C62_force (item : A) (sched : List (Nat × Choice C)) (t : Nat) (r : C) (hid : ((run (make item) sched).thread t).pc = .idle)
    (hf : (run (make item) sched).cell.owner = .free) :
    let s' := run (run (make item) sched) [(t, .call), (t, .go), (t, .go), (t, .finish r), (t, .go), (t, .go), (t, .go), (t, .go)]
    s'.cell.car = some item ∧ s'.cell.slot = .inr r ∧ (t, .returned (some item) (.inr r)) ∈ s'.hist ∧ (s'.thread t).pc = .idle := by
  have hi := run_inv (ok := False) sched (make_inv item False).1 (make_inv (C := C) item False).2 (fun h => h.elim)
  obtain ⟨h1, h2⟩ := hi.1.free hf
  have hc : (run (make item) sched).cell.car = none := by
    cases hc : (run (make item : Sys A C) sched).cell.car with
    | none => rfl
    | some a => have := (hi.1.car a hc).2; rw [hf] at this; exact absurd this (by simp)
  have hst : ((run (make item : Sys A C) sched).thread t).stack = [] := by
    have := hi.1.thr t; rw [TInv, hid] at this; exact this.2.2
  revert hid hf h1 h2 hc hst
  generalize run (make item : Sys A C) sched = s
  intro hid hf h1 h2 hc hst
  obtain ⟨⟨o, ca, sl⟩, th, md, hs⟩ := s
  dsimp only at hid hf h1 h2 hc hst
  subst hf h2 hc
  simp [run, step, setPc, back, hid, hst]

/-- A failing generator leaves the pair as it was, ready to be forced again. -/
theorem C62_fail (item : A) (sched : List (Nat × Choice C)) (t : Nat) (x : A) (h : ((run (make item) sched).thread t).pc = .run x) :
    let s := run (make item) sched
    let s' := run s [(t, .fail), (t, .go)]
    s'.hist = (t, .failed) :: s.hist ∧ s'.cell = { owner := .free, car := none, slot := .inl item } ∧ (s'.thread t).pc = .idle := by
  have hi := run_inv (ok := False) sched (make_inv item False).1 (make_inv (C := C) item False).2 (fun h => h.elim)
  have ht := hi.1.thr t
  rw [TInv, h] at ht
  obtain ⟨_, _, h1, h2, h3, h4, h5⟩ := ht
  have hc : (run (make item) sched).cell.car = none := by
    cases hc : (run (make item : Sys A C) sched).cell.car with
    | none => rfl
    | some a => have := (hi.1.car a hc).2; rw [h2] at this; exact absurd this (by simp)
  intro s s'
  revert h h1 h2 h3 h4 hc
  show ((run (make item) sched).thread t).pc = .run x → _
  generalize hs : run (make item : Sys A C) sched = s0
  subst s' s
  rw [hs]
  intro h h1 h2 h3 h4 hc
  obtain ⟨⟨o, ca, sl⟩, th, md, hi⟩ := s0
  dsimp only at h h1 h2 h3 h4 hc
  subst h2 h4 hc
  simp [run, step, setPc, back, h, h1]

/-- Once the pair is there, a thread in the middle of a call ends it within five steps of its own and finds that pair. -/
theorem C62_wait_ends (item : A) (sched : List (Nat × Choice C)) (t : Nat) (a : A) (hp : (run (make item) sched).cell.car = some a)
    (hb : ((run (make item) sched).thread t).pc ≠ .idle) :
    ∃ n ≤ 5, let s' := run (run (make item) sched) (List.replicate n (t, .go))
      (s'.thread t).pc = .idle ∧ s'.hist = (t, .returned (some a) (run (make item) sched).cell.slot) :: (run (make item) sched).hist := by
  have hi := run_inv (ok := False) sched (make_inv item False).1 (make_inv (C := C) item False).2 (fun h => h.elim)
  obtain ⟨h1, h2⟩ := hi.1.car a hp
  obtain ⟨r, h3, h4⟩ := hi.1.desc h2
  have ht := hi.1.thr t
  revert hb ht h2 h3 h4 hp
  generalize run (make item : Sys A C) sched = s
  intro hp hb h2 h3 h4 ht
  obtain ⟨⟨o, ca, sl⟩, th, md, hs⟩ := s
  dsimp only at hp hb h2 h3 h4 ht
  subst h2 h3 h4 hp
  obtain ⟨g0, g1, g2⟩ := ht
  have hst : (th t).stack = [] := by
    by_contra hne
    exact absurd (g1 hne).1 (by simp)
  cases hpc : (th t).pc with
  | idle => exact absurd hpc hb
  | cas => exact ⟨5, by omega, by simp [run, step, setPc, back, hpc, hst, List.replicate]⟩
  | readItem => rw [hpc] at g2; exact absurd g2.2.1 (by simp)
  | run x => rw [hpc] at g2; exact absurd g2.2.1 (by simp)
  | setCdr x r => rw [hpc] at g2; exact absurd g2.2.1 (by simp)
  | setOwner x => rw [hpc] at g2; exact absurd g2.2.1 (by simp)
  | setCar x =>
    rw [hpc] at g2
    exact ⟨2, by omega, by simp [run, step, setPc, back, hpc, hst, List.replicate, g2.2.2, h1]⟩
  | release => rw [hpc] at g2; exact absurd g2.2.1 (by simp)
  | checkOwner => exact ⟨4, by omega, by simp [run, step, setPc, back, hpc, hst, List.replicate]⟩
  | waitTag => exact ⟨3, by omega, by simp [run, step, setPc, back, hpc, hst, List.replicate]⟩
  | waitOwner => exact ⟨4, by omega, by simp [run, step, setPc, back, hpc, hst, List.replicate]⟩
  | loopEnd => exact ⟨2, by omega, by simp [run, step, setPc, back, hpc, hst, List.replicate]⟩
  | ret => exact ⟨1, by omega, by simp [run, step, setPc, back, hpc, hst, List.replicate]⟩

/-- Not so after an error of the generator: a thread that waits may return although the object still is a lazy pair, so that its caller
takes the tag of a lazy pair for the car.  (Thread 1 works and fails, thread 0 sees the owner gone, thread 2 takes over, thread 0 ends its
loop since the owner is not 0.) -/
theorem C62_bug_lazy (item : A) (r : C) : ∃ sched : List (Nat × Choice C),
    (0, Ending.returned none (.inl item)) ∈ (run (make item : Sys A C) sched).hist := by
  refine ⟨[(1, .call), (1, .go), (1, .go), (0, .call), (0, .go), (0, .go), (0, .go), (1, .fail), (1, .go), (0, .go), (2, .call), (2, .go),
    (0, .go), (0, .go)], ?_⟩
  simp [run, step, make, setPc, back]

/-! Non-vacuity: two threads race, one waits, both find the pair; a third makes a recursive call. -/

def race : List (Nat × Choice Nat) :=
  [(0, .call), (1, .call), (1, .go), (0, .go), (1, .go), (0, .go), (1, .call), (1, .go), (1, .go), (0, .go), (1, .finish 7), (0, .go), (1, .go),
   (1, .go), (0, .go), (1, .go), (0, .go), (1, .go), (0, .go), (0, .go), (0, .go)]

example : (run (make 'a') race).hist = [(0, .returned (some 'a') (.inr 7)), (1, .returned (some 'a') (.inr 7)), (1, .recursive)] := by
  decide +kernel

example : ∀ x ∈ race, x.2 ≠ .fail := by
  simp [race]

example : ((run (make 'a') (race.take 6)).thread 1).pc = .run 'a' := by
  simp [run, step, make, setPc, race]

example : (run (make 'a') (race.take 2)).cell.owner = .free ∧ ((run (make 'a') (race.take 2)).thread 5).pc = .idle := by
  simp [run, step, make, setPc, race]

example : (run (make 'a') (race.take 18)).cell.car = some 'a' ∧ ((run (make 'a') (race.take 18)).thread 0).pc ≠ .idle := by
  simp [run, step, make, setPc, back, race]

end Gauche.LazyPair

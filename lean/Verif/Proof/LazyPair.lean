import Verif.Model.LazyPair
import Mathlib.Tactic.Linarith
/-
Proofs about src/lazy.c, lazy pairs.
-/
namespace Gauche.LazyPair

variable {A C : Type}

/-- What a thread may rely on; `ok` says that the generator has not failed so far. -/
def TInv (item : A) (ok : Prop) (cell : Cell A C) (made : List C) (t : Nat) (th : Thread A C) : Prop :=
  (∀ a ∈ th.stack, a = item) ∧
  (th.stack ≠ [] → cell.owner = .vm t ∧ made = [] ∧ cell.slot = .inl item) ∧
  match th.pc with
  | .idle => th.stack = []
  | .cas => True
  | .readItem => th.stack = [] ∧ cell.owner = .vm t ∧ made = [] ∧ cell.slot = .inl item
  | .run x => th.stack = [] ∧ cell.owner = .vm t ∧ made = [] ∧ cell.slot = .inl item ∧ x = item
  | .setCdr x r => th.stack = [] ∧ cell.owner = .vm t ∧ made = [r] ∧ cell.slot = .inl item ∧ x = item
  | .setOwner x => th.stack = [] ∧ cell.owner = .vm t ∧ (∃ r, made = [r] ∧ cell.slot = .inr r) ∧ x = item
  | .setCar x => th.stack = [] ∧ cell.owner = .desc ∧ x = item
  | .release => th.stack = [] ∧ cell.owner = .vm t ∧ made = [] ∧ cell.slot = .inl item ∧ ¬ ok
  | .checkOwner => ok → cell.owner ≠ .free
  | .waitTag => th.stack = [] ∧ (ok → cell.owner ≠ .free)
  | .waitOwner => th.stack = [] ∧ (ok → cell.owner ≠ .free)
  | .loopEnd => th.stack = [] ∧ (ok → cell.car ≠ none)
  | .ret => th.stack = [] ∧ (ok → cell.car ≠ none)

structure Inv (item : A) (ok : Prop) (s : Sys A C) : Prop where
  free : s.cell.owner = .free → s.made = [] ∧ s.cell.slot = .inl item
  desc : s.cell.owner = .desc → ∃ r, s.made = [r] ∧ s.cell.slot = .inr r
  made : s.made.length ≤ 1
  car : ∀ a, s.cell.car = some a → a = item ∧ s.cell.owner = .desc
  thr : ∀ t, TInv item ok s.cell s.made t (s.thread t)
  hist : ∀ t c sl, (t, Ending.returned c sl) ∈ s.hist →
    (∀ a, c = some a → a = item ∧ s.cell.owner = .desc ∧ s.cell.slot = sl) ∧ (ok → c ≠ none)

/-- Another thread's step does not disturb. -/
theorem TInv.other {item : A} {ok : Prop} {cell cell' : Cell A C} {made made' : List C} {t t' : Nat} {th : Thread A C} (hne : t' ≠ t)
    (h : TInv item ok cell made t' th) (hcar : cell.car ≠ none → cell'.car ≠ none) (hfree : ok → cell.owner ≠ .free → cell'.owner ≠ .free)
    (hc : (cell'.owner = cell.owner ∧ cell'.slot = cell.slot ∧ made' = made) ∨ cell.owner = .vm t ∨ cell.owner = .free) :
    TInv item ok cell' made' t' th := by
  have hvm : cell.owner = .vm t' → cell'.owner = cell.owner ∧ cell'.slot = cell.slot ∧ made' = made := by
    intro ho
    rcases hc with h | h | h
    · exact h
    · rw [ho] at h; exact absurd (Owner.vm.inj h) hne
    · rw [ho] at h; exact absurd h (by simp)
  obtain ⟨h1, h2, h3⟩ := h
  refine ⟨h1, ?_, ?_⟩
  · intro hs
    obtain ⟨a1, a2, a3⟩ := h2 hs
    obtain ⟨b1, b2, b3⟩ := hvm a1
    exact ⟨by rw [b1, a1], by rw [b3, a2], by rw [b2, a3]⟩
  · obtain ⟨pc, st⟩ := th
    cases pc <;> dsimp only at h3 ⊢
    · exact h3
    · obtain ⟨g0, g1, g2, g3⟩ := h3
      obtain ⟨b1, b2, b3⟩ := hvm g1
      exact ⟨g0, by rw [b1, g1], by rw [b3, g2], by rw [b2, g3]⟩
    · obtain ⟨g0, g1, g2, g3, g4⟩ := h3
      obtain ⟨b1, b2, b3⟩ := hvm g1
      exact ⟨g0, by rw [b1, g1], by rw [b3, g2], by rw [b2, g3], g4⟩
    · obtain ⟨g0, g1, g2, g3, g4⟩ := h3
      obtain ⟨b1, b2, b3⟩ := hvm g1
      exact ⟨g0, by rw [b1, g1], by rw [b3, g2], by rw [b2, g3], g4⟩
    · obtain ⟨g0, g1, ⟨r, g2, g3⟩, g4⟩ := h3
      obtain ⟨b1, b2, b3⟩ := hvm g1
      exact ⟨g0, by rw [b1, g1], ⟨r, by rw [b3, g2], by rw [b2, g3]⟩, g4⟩
    · obtain ⟨g0, g1, g4⟩ := h3
      have : cell'.owner = cell.owner := by
        rcases hc with h | h | h
        · exact h.1
        · rw [g1] at h; exact absurd h (by simp)
        · rw [g1] at h; exact absurd h (by simp)
      exact ⟨g0, by rw [this, g1], g4⟩
    · obtain ⟨g0, g1, g2, g3, g4⟩ := h3
      obtain ⟨b1, b2, b3⟩ := hvm g1
      exact ⟨g0, by rw [b1, g1], by rw [b3, g2], by rw [b2, g3], g4⟩
    · exact fun ho => hfree ho (h3 ho)
    · exact ⟨h3.1, fun ho => hfree ho (h3.2 ho)⟩
    · exact ⟨h3.1, fun ho => hfree ho (h3.2 ho)⟩
    · exact ⟨h3.1, fun ho => hcar (h3.2 ho)⟩
    · exact ⟨h3.1, fun ho => hcar (h3.2 ho)⟩

/-- Only the thread changes. -/
theorem Inv.thread {item : A} {ok : Prop} {s : Sys A C} (h : Inv item ok s) (t : Nat) (th : Thread A C) (ht : TInv item ok s.cell s.made t th) :
    Inv item ok { s with thread := Function.update s.thread t th } := by
  refine ⟨h.free, h.desc, h.made, h.car, fun t' => ?_, h.hist⟩
  dsimp only
  by_cases hne : t' = t
  · subst hne; rw [Function.update_self]; exact ht
  · rw [Function.update_of_ne hne]; exact h.thr t'

theorem Inv.hist_cons {item : A} {ok : Prop} {s : Sys A C} (h : Inv item ok s) (t : Nat) (e : Ending A C)
    (he : ∀ c sl, e = .returned c sl → c = s.cell.car ∧ sl = s.cell.slot ∧ (ok → c ≠ none)) : Inv item ok { s with hist := (t, e) :: s.hist } := by
  refine ⟨h.free, h.desc, h.made, h.car, h.thr, ?_⟩
  intro t' c sl hm
  rcases List.mem_cons.1 hm with hm | hm
  · have he' : e = .returned c sl := (congrArg Prod.snd hm).symm
    obtain ⟨e1, e2, e3⟩ := he c sl he'
    refine ⟨fun a ha => ?_, e3⟩
    have := h.car a (by rw [← e1]; exact ha)
    exact ⟨this.1, this.2, by rw [e2]⟩
  · exact h.hist t' c sl hm

theorem Inv.back {item : A} {ok : Prop} {s : Sys A C} (h : Inv item ok s) (t : Nat) (e : Ending A C)
    (he : ∀ c sl, e = .returned c sl → c = s.cell.car ∧ sl = s.cell.slot ∧ (ok → c ≠ none)) (hd : (s.thread t).stack.length ≤ 1) :
    Inv item ok (back s t e) := by
  obtain ⟨h1, h2, _⟩ := h.thr t
  unfold LazyPair.back
  cases hst : (s.thread t).stack with
  | nil =>
    dsimp only
    refine Inv.hist_cons (s := { s with thread := _ }) (h.thread t _ ?_) t e he
    exact ⟨by simp, by simp, rfl⟩
  | cons a st =>
    rw [hst] at h1 h2 hd
    have hnil : st = [] := by
      cases st with
      | nil => rfl
      | cons b st => exact absurd hd (by simp)
    subst hnil
    obtain ⟨a1, a2, a3⟩ := h2 (by simp)
    dsimp only
    refine Inv.hist_cons (s := { s with thread := _ }) (h.thread t _ ?_) t e he
    exact ⟨by simp, by simp, rfl, a1, a2, a3, h1 a (by simp)⟩

/-- A thread never has more than one suspended call. -/
def Shallow (s : Sys A C) : Prop := ∀ t, (s.thread t).stack.length ≤ 1

/-- A generator that fails. -/
def NoFail : Choice C → Prop
  | .fail => False
  | _ => True

theorem shallow_back {s : Sys A C} (h : Shallow s) (t : Nat) (e : Ending A C) : Shallow (back s t e) := by
  intro t'
  unfold back
  have ht := h t
  cases hst : (s.thread t).stack with
  | nil =>
    dsimp only
    by_cases hne : t' = t
    · subst hne; rw [Function.update_self]; simp
    · rw [Function.update_of_ne hne]; exact h t'
  | cons a st =>
    rw [hst] at ht
    dsimp only
    by_cases hne : t' = t
    · subst hne; rw [Function.update_self]; dsimp only; simp at ht; simp [ht]
    · rw [Function.update_of_ne hne]; exact h t'

theorem shallow_setPc {s : Sys A C} (h : Shallow s) (t : Nat) (pc : Pc A C) : Shallow (setPc s t pc) := by
  intro t'
  unfold setPc
  dsimp only
  by_cases hne : t' = t
  · subst hne; rw [Function.update_self]; exact h t'
  · rw [Function.update_of_ne hne]; exact h t'

/-- Thread and cell change. -/
theorem Inv.full {item : A} {ok : Prop} {s : Sys A C} (h : Inv item ok s) (t : Nat) (pc : Pc A C) (cell : Cell A C) (made : List C)
    (ht : TInv item ok cell made t { s.thread t with pc := pc }) (hcar : s.cell.car ≠ none → cell.car ≠ none)
    (hfree : ok → s.cell.owner ≠ .free → cell.owner ≠ .free)
    (hc : (cell.owner = s.cell.owner ∧ cell.slot = s.cell.slot ∧ made = s.made) ∨ s.cell.owner = .vm t ∨ s.cell.owner = .free)
    (i1 : cell.owner = .free → made = [] ∧ cell.slot = .inl item) (i2 : cell.owner = .desc → ∃ r, made = [r] ∧ cell.slot = .inr r)
    (i3 : made.length ≤ 1) (i4 : ∀ a, cell.car = some a → a = item ∧ cell.owner = .desc) :
    Inv item ok { setPc s t pc with cell := cell, made := made } := by
  refine ⟨i1, i2, i3, i4, fun t' => ?_, ?_⟩
  · dsimp only [setPc]
    by_cases hne : t' = t
    · subst hne; rw [Function.update_self]; exact ht
    · rw [Function.update_of_ne hne]; exact (h.thr t').other hne hcar hfree hc
  · intro t' c sl hm
    obtain ⟨h1, h2⟩ := h.hist t' c sl hm
    refine ⟨fun a ha => ?_, h2⟩
    obtain ⟨b1, b2, b3⟩ := h1 a ha
    rcases hc with hc | hc | hc
    · exact ⟨b1, by dsimp only; rw [hc.1, b2], by dsimp only; rw [hc.2.1, b3]⟩
    · rw [b2] at hc; exact absurd hc (by simp)
    · rw [b2] at hc; exact absurd hc (by simp)

theorem step_inv {item : A} {ok : Prop} {s : Sys A C} (h : Inv item ok s) (hsh : Shallow s) (t : Nat) (ch : Choice C)
    (hf : ok → NoFail ch) : Inv item ok (step s t ch) ∧ Shallow (step s t ch) := by
  have ht := h.thr t
  have htd := hsh t
  unfold step
  cases hpc : (s.thread t).pc with
  | idle =>
    cases ch <;> first | exact ⟨h, hsh⟩ | skip
    dsimp only
    cases hcar : s.cell.car with
    | none =>
      refine ⟨h.thread t _ ?_, shallow_setPc hsh t _⟩
      exact ⟨ht.1, ht.2.1, trivial⟩
    | some a =>
      refine ⟨h.hist_cons t _ ?_, hsh⟩
      intro c sl he
      cases he
      exact ⟨hcar.symm, rfl, fun _ => by simp⟩
  | cas =>
    cases ch <;> first | exact ⟨h, hsh⟩ | skip
    dsimp only
    have hnf : ∀ hne : s.cell.owner ≠ .free, Inv item ok (setPc s t .checkOwner) ∧ Shallow (setPc s t .checkOwner) := by
      intro hne
      refine ⟨h.thread t _ ?_, shallow_setPc hsh t _⟩
      exact ⟨ht.1, ht.2.1, fun _ => hne⟩
    cases ho : s.cell.owner with
    | free =>
      dsimp only
      obtain ⟨f1, f2⟩ := h.free ho
      have hst : (s.thread t).stack = [] := by
        by_contra hne
        have := (ht.2.1 hne).1
        rw [ho] at this; exact absurd this (by simp)
      refine ⟨h.full t .readItem _ s.made ?_ id (fun _ hne => absurd ho hne) (Or.inr (Or.inr ho)) (by simp) (by simp) h.made ?_, shallow_setPc hsh t _⟩
      · exact ⟨by simp [hst], by simp [hst], hst, rfl, f1, f2⟩
      · intro a ha
        have := (h.car a ha).2
        rw [ho] at this; exact absurd this (by simp)
    | vm x => dsimp only; exact hnf (by rw [ho]; simp)
    | desc => dsimp only; exact hnf (by rw [ho]; simp)
  | readItem =>
    cases ch <;> first | exact ⟨h, hsh⟩ | skip
    obtain ⟨g0, g1, g2⟩ := ht
    rw [hpc] at g2
    obtain ⟨q1, q2, q3, q4⟩ := g2
    dsimp only
    rw [q4]
    dsimp only
    refine ⟨h.thread t _ ?_, shallow_setPc hsh t _⟩
    exact ⟨g0, g1, q1, q2, q3, q4, rfl⟩
  | run x =>
    obtain ⟨g0, g1, g2⟩ := ht
    rw [hpc] at g2
    obtain ⟨q1, q2, q3, q4, q5⟩ := g2
    have hcn : s.cell.car = none := by
      cases hc : s.cell.car with
      | none => rfl
      | some a =>
        have := (h.car a hc).2
        rw [q2] at this; exact absurd this (by simp)
    cases ch with
    | go => exact ⟨h, hsh⟩
    | call =>
      dsimp only
      rw [hcn]
      dsimp only
      refine ⟨h.thread t _ ?_, ?_⟩
      · refine ⟨by simp [q1, q5], fun _ => ⟨q2, q3, q4⟩, trivial⟩
      · intro t'
        dsimp only
        by_cases hne : t' = t
        · subst hne; rw [Function.update_self]; simp [q1]
        · rw [Function.update_of_ne hne]; exact hsh t'
    | finish r =>
      dsimp only
      refine ⟨?_, shallow_setPc hsh t _⟩
      refine h.full t (.setCdr x r) s.cell (r :: s.made) ?_ id (fun _ hne => hne) (Or.inr (Or.inl q2)) ?_ ?_ ?_ h.car
      · exact ⟨by simp [q1], by simp [q1], q1, q2, by rw [q3], q4, q5⟩
      · intro hfr; rw [q2] at hfr; exact absurd hfr (by simp)
      · intro hfr; rw [q2] at hfr; exact absurd hfr (by simp)
      · rw [q3]; simp
    | fail =>
      dsimp only
      refine ⟨h.thread t _ ?_, shallow_setPc hsh t _⟩
      exact ⟨by simp [q1], by simp [q1], q1, q2, q3, q4, fun hok => hf hok⟩
  | setCdr x r =>
    cases ch <;> first | exact ⟨h, hsh⟩ | skip
    obtain ⟨g0, g1, g2⟩ := ht
    rw [hpc] at g2
    obtain ⟨q1, q2, q3, q4, q5⟩ := g2
    dsimp only
    refine ⟨?_, shallow_setPc hsh t _⟩
    refine h.full t (.setOwner x) _ s.made ?_ id (fun _ hne => hne) (Or.inr (Or.inl q2)) ?_ ?_ h.made h.car
    · exact ⟨by simp [q1], by simp [q1], q1, q2, ⟨r, q3, rfl⟩, q5⟩
    · intro hfr; dsimp only at hfr; rw [q2] at hfr; exact absurd hfr (by simp)
    · intro hfr; exact ⟨r, q3, rfl⟩
  | setOwner x =>
    cases ch <;> first | exact ⟨h, hsh⟩ | skip
    obtain ⟨g0, g1, g2⟩ := ht
    rw [hpc] at g2
    obtain ⟨q1, q2, ⟨r, q3, q4⟩, q5⟩ := g2
    dsimp only
    refine ⟨?_, shallow_setPc hsh t _⟩
    refine h.full t (.setCar x) _ s.made ?_ id (fun _ hne => by simp) (Or.inr (Or.inl q2)) (by simp) (fun _ => ⟨r, q3, q4⟩) h.made ?_
    · exact ⟨by simp [q1], by simp [q1], q1, rfl, q5⟩
    · intro a ha; exact ⟨(h.car a ha).1, rfl⟩
  | setCar x =>
    cases ch <;> first | exact ⟨h, hsh⟩ | skip
    obtain ⟨g0, g1, g2⟩ := ht
    rw [hpc] at g2
    obtain ⟨q1, q2, q5⟩ := g2
    dsimp only
    refine ⟨?_, shallow_setPc hsh t _⟩
    refine h.full t .ret _ s.made ?_ (fun _ => by simp) (fun _ hne => hne) (Or.inl ⟨rfl, rfl, rfl⟩) ?_ ?_ h.made ?_
    · exact ⟨by simp [q1], by simp [q1], q1, fun _ => by simp⟩
    · intro hfr; exact h.free hfr
    · intro hfr; exact h.desc hfr
    · intro a ha
      dsimp only at ha
      rw [← Option.some.inj ha]; exact ⟨q5, q2⟩
  | release =>
    cases ch <;> first | exact ⟨h, hsh⟩ | skip
    obtain ⟨g0, g1, g2⟩ := ht
    rw [hpc] at g2
    obtain ⟨q1, q2, q3, q4, q5⟩ := g2
    dsimp only
    have hb : LazyPair.back { s with cell := { s.cell with owner := .free } } t .failed =
        { setPc { s with hist := (t, .failed) :: s.hist } t .idle with cell := { s.cell with owner := .free }, made := s.made } := by
      unfold LazyPair.back setPc
      dsimp only
      rw [q1]
    have hh : Inv item ok { s with hist := (t, Ending.failed) :: s.hist } := h.hist_cons t _ (fun c sl he => by simp at he)
    refine ⟨?_, shallow_back (s := { s with cell := { s.cell with owner := .free } }) hsh t _⟩
    rw [hb]
    refine hh.full t .idle _ s.made ?_ id (fun hok => absurd hok q5) (Or.inr (Or.inl q2)) (fun _ => ⟨q3, q4⟩) (by simp) h.made ?_
    · exact ⟨by simp [q1], by simp [q1], q1⟩
    · intro a ha
      have := (h.car a ha).2
      rw [q2] at this; exact absurd this (by simp)
  | checkOwner =>
    cases ch <;> first | exact ⟨h, hsh⟩ | skip
    dsimp only
    by_cases ho : s.cell.owner = .vm t
    · rw [if_pos ho]
      exact ⟨h.back t _ (fun c sl he => by simp at he) htd, shallow_back hsh t _⟩
    · rw [if_neg ho]
      have hst : (s.thread t).stack = [] := by
        by_contra hne
        exact ho (ht.2.1 hne).1
      refine ⟨h.thread t _ ?_, shallow_setPc hsh t _⟩
      obtain ⟨g0, g1, g2⟩ := ht
      rw [hpc] at g2
      exact ⟨g0, g1, hst, g2⟩
  | waitTag =>
    cases ch <;> first | exact ⟨h, hsh⟩ | skip
    obtain ⟨g0, g1, g2⟩ := ht
    rw [hpc] at g2
    dsimp only
    cases hc : s.cell.car with
    | none => exact ⟨h.thread t _ ⟨g0, g1, g2⟩, shallow_setPc hsh t _⟩
    | some a => exact ⟨h.thread t _ ⟨g0, g1, g2.1, fun _ => by rw [hc]; simp⟩, shallow_setPc hsh t _⟩
  | waitOwner =>
    cases ch <;> first | exact ⟨h, hsh⟩ | skip
    obtain ⟨g0, g1, g2⟩ := ht
    rw [hpc] at g2
    dsimp only
    by_cases ho : s.cell.owner = .free
    · rw [if_pos ho]
      exact ⟨h.thread t _ ⟨g0, g1, g2.1, fun hok => absurd ho (g2.2 hok)⟩, shallow_setPc hsh t _⟩
    · rw [if_neg ho]
      exact ⟨h.thread t _ ⟨g0, g1, g2⟩, shallow_setPc hsh t _⟩
  | loopEnd =>
    cases ch <;> first | exact ⟨h, hsh⟩ | skip
    obtain ⟨g0, g1, g2⟩ := ht
    rw [hpc] at g2
    dsimp only
    by_cases ho : s.cell.owner = .free
    · rw [if_pos ho]
      exact ⟨h.thread t _ ⟨g0, g1, trivial⟩, shallow_setPc hsh t _⟩
    · rw [if_neg ho]
      exact ⟨h.thread t _ ⟨g0, g1, g2⟩, shallow_setPc hsh t _⟩
  | ret =>
    cases ch <;> first | exact ⟨h, hsh⟩ | skip
    dsimp only
    refine ⟨h.back t _ ?_ htd, shallow_back hsh t _⟩
    intro c sl he
    cases he
    obtain ⟨g0, g1, g2⟩ := ht
    rw [hpc] at g2
    exact ⟨rfl, rfl, g2.2⟩

theorem run_inv {item : A} {ok : Prop} (sched : List (Nat × Choice C)) : ∀ {s : Sys A C}, Inv item ok s → Shallow s →
    (ok → ∀ x ∈ sched, NoFail x.2) → Inv item ok (run s sched) ∧ Shallow (run s sched) := by
  induction sched with
  | nil => intro s h hs _; exact ⟨h, hs⟩
  | cons x sched ih =>
    intro s h hs hf
    obtain ⟨h1, h2⟩ := step_inv h hs x.1 x.2 (fun hok => hf hok x List.mem_cons_self)
    exact ih h1 h2 (fun hok y hy => hf hok y (List.mem_cons_of_mem _ hy))

theorem make_inv (item : A) (ok : Prop) : Inv item ok (make item : Sys A C) ∧ Shallow (make item : Sys A C) := by
  refine ⟨⟨fun _ => ⟨rfl, rfl⟩, fun h => absurd h (by simp [make]), by simp [make], fun a ha => absurd ha (by simp [make]), fun t => ?_, fun t c sl hm => absurd hm (by simp [make])⟩,
    fun t => by simp [make]⟩
  exact ⟨by simp [make], by simp [make], rfl⟩

/-- Once there is a pair it does not change. -/
theorem step_pair {item : A} {ok : Prop} {s : Sys A C} (h : Inv item ok s) (t : Nat) (ch : Choice C) (a : A) (hc : s.cell.car = some a) :
    (step s t ch).cell.car = some a ∧ (step s t ch).cell.slot = s.cell.slot := by
  obtain ⟨h1, h2⟩ := h.car a hc
  have ht := h.thr t
  have hback : ∀ e, (back s t e).cell = s.cell := by
    intro e; unfold back; cases (s.thread t).stack <;> rfl
  unfold step
  cases hpc : (s.thread t).pc with
  | setCdr x r => rw [TInv, hpc] at ht; have := ht.2.2.2.1; rw [h2] at this; exact absurd this (by simp)
  | release => rw [TInv, hpc] at ht; have := ht.2.2.2.1; rw [h2] at this; exact absurd this (by simp)
  | setCar x =>
    cases ch <;> first | exact ⟨hc, rfl⟩ | skip
    rw [TInv, hpc] at ht
    exact ⟨by dsimp only; rw [ht.2.2.2.2, h1], rfl⟩
  | idle => cases ch <;> first | exact ⟨hc, rfl⟩ | (dsimp only; rw [hc]; exact ⟨hc, rfl⟩)
  | cas => cases ch <;> first | exact ⟨hc, rfl⟩ | (dsimp only; rw [h2]; exact ⟨hc, rfl⟩)
  | readItem =>
    cases ch <;> first | exact ⟨hc, rfl⟩ | skip
    dsimp only
    cases hsl : s.cell.slot with
    | inl i => exact ⟨hc, hsl⟩
    | inr i => exact ⟨hc, hsl⟩
  | run x =>
    cases ch with
    | go => exact ⟨hc, rfl⟩
    | call => dsimp only; rw [hc]; exact ⟨hc, rfl⟩
    | finish r => exact ⟨hc, rfl⟩
    | fail => exact ⟨hc, rfl⟩
  | setOwner x => cases ch <;> exact ⟨hc, rfl⟩
  | checkOwner =>
    cases ch <;> first | exact ⟨hc, rfl⟩ | skip
    dsimp only
    rw [if_neg (by rw [h2]; simp)]
    exact ⟨hc, rfl⟩
  | waitTag => cases ch <;> first | exact ⟨hc, rfl⟩ | (dsimp only; rw [hc]; exact ⟨hc, rfl⟩)
  | waitOwner =>
    cases ch <;> first | exact ⟨hc, rfl⟩ | skip
    dsimp only
    rw [if_neg (by rw [h2]; simp)]
    exact ⟨hc, rfl⟩
  | loopEnd =>
    cases ch <;> first | exact ⟨hc, rfl⟩ | skip
    dsimp only
    rw [if_neg (by rw [h2]; simp)]
    exact ⟨hc, rfl⟩
  | ret =>
    cases ch <;> first | exact ⟨hc, rfl⟩ | skip
    dsimp only
    rw [hback]
    exact ⟨hc, rfl⟩

theorem run_pair {item : A} {ok : Prop} (sched : List (Nat × Choice C)) : ∀ {s : Sys A C}, Inv item ok s → Shallow s →
    (ok → ∀ x ∈ sched, NoFail x.2) → ∀ a, s.cell.car = some a → (run s sched).cell.car = some a ∧ (run s sched).cell.slot = s.cell.slot := by
  induction sched with
  | nil => intro s _ _ _ a hc; exact ⟨hc, rfl⟩
  | cons x sched ih =>
    intro s h hs hf a hc
    obtain ⟨h1, h2⟩ := step_inv h hs x.1 x.2 (fun hok => hf hok x List.mem_cons_self)
    obtain ⟨e1, e2⟩ := step_pair h x.1 x.2 a hc
    obtain ⟨f1, f2⟩ := ih h1 h2 (fun hok y hy => hf hok y (List.mem_cons_of_mem _ hy)) a e1
    exact ⟨f1, by rw [← e2]; exact f2⟩

end Gauche.LazyPair

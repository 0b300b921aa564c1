import Verif.Spec.Mutex
/-!
# C32: mutex exclusion
-/

namespace Gauche.Mutex
open Spec

/-! ## the invariant -/

/-- What the C structure says about the abstract state. -/
def holdOf (s : St) : Hold := if s.locked then .held s.owner else .free

structure Inv (s : St) : Prop where
  hist : ∃ a, play Abs.init s.log = some a ∧ a.hold = holdOf s ∧
    ∀ t, t ∈ a.dead ↔ s.phase t = .dead
  noIntr : ∀ t timed own, s.phase t ≠ .lockWake timed own .intr
  prog : s.locked = false → (∃ x, lockBlocked s x) →
    ∃ y timed own, s.phase y = .lockWake timed own .signalled

theorem play_append (a : Abs) (x y : List Ev) :
    play a (x ++ y) = (play a x).bind (fun b => play b y) := by
  induction x generalizing a with
  | nil => rfl
  | cons e x ih =>
    simp only [List.cons_append, play]
    cases rule a e with
    | none => rfl
    | some b => exact ih b

theorem put_phase (s : St) (t : Tid) (p : Phase) (x : Tid) :
    (s.put t p).phase x = if x = t then p else s.phase x := rfl

theorem put_self (s : St) (t : Tid) (p : Phase) : (s.put t p).phase t = p := by
  rw [put_phase, if_pos rfl]

theorem put_other (s : St) {t x : Tid} (p : Phase) (h : x ≠ t) :
    (s.put t p).phase x = s.phase x := by rw [put_phase, if_neg h]

/-- Taking the mutex keeps the invariant when the rules allow it. -/
theorem take_inv {s : St} {t : Tid} {own : Option Tid} {ab : Option Tid}
    (h : Inv s) (hlive : s.phase t ≠ .dead)
    (hok : match ab with
      | none => s.locked = false
      | some old => s.locked = true ∧ s.owner = some old ∧ s.phase old = .dead)
    (s' : St) (hs' : s' = { s with locked := s'.locked }) :
    Inv (lockTake s' t own ab) := by
  obtain ⟨a, h1, h2, h3⟩ := h.hist
  have hph : s'.phase = s.phase := by rw [hs']
  have hlog : s'.log = s.log := by rw [hs']
  have hphase : (lockTake s' t own ab).phase = (s'.put t .idle).phase := by
    unfold lockTake; cases ab <;> rfl
  have hlk : (lockTake s' t own ab).locked = true := by
    unfold lockTake; cases ab <;> rfl
  have hown : (lockTake s' t own ab).owner = own := by
    unfold lockTake; cases ab <;> rfl
  have hdead : ∀ x, x ∈ a.dead ↔ (lockTake s' t own ab).phase x = .dead := by
    intro x
    rw [hphase, put_phase, hph, h3]
    by_cases hx : x = t
    · rw [if_pos hx, hx]
      constructor
      · intro h'; exact absurd h' hlive
      · intro h'; cases h'
    · rw [if_neg hx]
  refine ⟨⟨{ a with hold := .held own }, ?_, ?_, hdead⟩, ?_, ?_⟩
  · cases ab with
    | none =>
      have : (lockTake s' t own none).log = s.log ++ [.acquire t own] := by
        rw [← hlog]; rfl
      rw [this, play_append, h1]
      simp only [Option.bind_some, play, rule]
      rw [if_pos (by rw [h2]; unfold holdOf; rw [hok]; rfl)]
      rfl
    | some old =>
      have : (lockTake s' t own (some old)).log = s.log ++ [.abandoned t own old] := by
        rw [← hlog]; rfl
      rw [this, play_append, h1]
      simp only [Option.bind_some, play, rule]
      rw [if_pos ⟨by rw [h2]; unfold holdOf; rw [hok.1, hok.2.1]; rfl,
        (h3 old).2 hok.2.2⟩]
      rfl
  · unfold holdOf; rw [hlk, hown]; rfl
  · intro x timed o
    rw [hphase, put_phase, hph]
    by_cases hx : x = t
    · rw [if_pos hx]; intro h'; cases h'
    · rw [if_neg hx]; exact h.noIntr x timed o
  · intro h'; rw [hlk] at h'; cases h'

/-- A change of phase that neither ends a thread nor disturbs the wakeups. -/
theorem put_inv {s : St} {t : Tid} {p : Phase} (h : Inv s)
    (hlive : s.phase t ≠ .dead) (hp : p ≠ .dead)
    (hi : ∀ timed own, p ≠ .lockWake timed own .intr)
    (hprog : s.locked = false → (∀ timed own, p ≠ .lockWait timed own) ∧
      ((∀ timed own, s.phase t ≠ .lockWake timed own .signalled) ∨
        ∃ timed own, p = .lockWake timed own .signalled)) :
    Inv (s.put t p) := by
  obtain ⟨a, h1, h2, h3⟩ := h.hist
  refine ⟨⟨a, h1, h2, ?_⟩, ?_, ?_⟩
  · intro x
    rw [h3, put_phase]
    by_cases hx : x = t
    · rw [if_pos hx, hx]
      exact ⟨fun h' => absurd h' hlive, fun h' => absurd h' hp⟩
    · rw [if_neg hx]
  · intro x timed own
    rw [put_phase]
    by_cases hx : x = t
    · rw [if_pos hx]; exact hi timed own
    · rw [if_neg hx]; exact h.noIntr x timed own
  · rintro hl ⟨x, timed, own, hx⟩
    obtain ⟨g1, g2⟩ := hprog hl
    have hxt : x ≠ t := by
      intro hxt
      rw [hxt, put_self] at hx
      exact g1 timed own hx
    rw [put_other s p hxt] at hx
    rcases g2 with g2 | ⟨ti, o, g2⟩
    · obtain ⟨y, ti, o, hy⟩ := h.prog hl ⟨x, timed, own, hx⟩
      have hyt : y ≠ t := by
        intro hyt; rw [hyt] at hy; exact g2 ti o hy
      exact ⟨y, ti, o, by rw [put_other s p hyt]; exact hy⟩
    · exact ⟨t, ti, o, by rw [put_self, g2]⟩

theorem say_inv {s : St} {e : Ev} (h : Inv s) (he : ∀ a, rule a e = some a) :
    Inv (s.say e) := by
  obtain ⟨a, h1, h2, h3⟩ := h.hist
  refine ⟨⟨a, ?_, h2, h3⟩, h.noIntr, h.prog⟩
  show play Abs.init (s.log ++ [e]) = some a
  rw [play_append, h1]
  simp [play, he]

theorem lockLoop_inv {s : St} {t : Tid} {timed : Bool} {own : Option Tid}
    (h : Inv s) (hlive : s.phase t ≠ .dead) : Inv (lockLoop s t timed own) := by
  have wait : s.locked = true → Inv (s.put t (.lockWait timed own)) := fun hl =>
    put_inv h hlive (by intro h'; cases h') (by intro _ _ h'; cases h')
      (by intro h'; rw [hl] at h'; cases h')
  unfold lockLoop
  by_cases hl : s.locked = true
  · rw [if_pos hl]
    cases ho : s.owner with
    | none => exact wait hl
    | some o =>
      show Inv (if terminated s o = true then
        lockTake { s with locked := false } t own (some o)
        else s.put t (.lockWait timed own))
      by_cases ht : terminated s o = true
      · rw [if_pos ht]
        exact take_inv (ab := some o) h hlive ⟨hl, ho, of_decide_eq_true ht⟩ _ rfl
      · rw [if_neg ht]; exact wait hl
  · rw [if_neg hl]
    exact take_inv (ab := none) h hlive (by simpa using hl) s rfl

theorem step_inv {s u : St} (h : Inv s) (hs : Step false s u) : Inv u := by
  cases hs with
  | lock timed own hp =>
    exact lockLoop_inv h (by rw [hp]; intro h'; cases h')
  | @resume t timed own r hp =>
    have hlive : s.phase t ≠ .dead := by rw [hp]; intro h'; cases h'
    cases r with
    | signalled => exact lockLoop_inv h hlive
    | timedout =>
      refine say_inv (put_inv h hlive (by intro h'; cases h')
        (by intro _ _ h'; cases h') ?_) (fun a => rfl)
      intro _
      exact ⟨(by intro _ _ h'; cases h'), .inl (by intro _ _ h'; rw [hp] at h'; cases h')⟩
    | intr => exact absurd hp (h.noIntr t timed own)
  | @unlock t cv ws hp hw =>
    obtain ⟨a, h1, h2, h3⟩ := h.hist
    let s1 : St := wakeLockers
      (({ s with locked := false, owner := none } : St).say (.release t)) ws
    have hph1 : ∀ x, s1.phase x = match s.phase x with
        | .lockWait timed own =>
          if x ∈ ws then .lockWake timed own .signalled else .lockWait timed own
        | p => p := fun x => rfl
    have hi1 : Inv s1 := by
      refine ⟨⟨{ a with hold := .free }, ?_, rfl, ?_⟩, ?_, ?_⟩
      · show play Abs.init (s.log ++ [.release t]) = _
        rw [play_append, h1]; rfl
      · intro x
        show x ∈ a.dead ↔ _
        rw [h3, hph1]
        cases hx : s.phase x with
        | lockWait timed own =>
          constructor
          · intro h'; cases h'
          · intro h'
            dsimp only at h'
            by_cases hm : x ∈ ws
            · rw [if_pos hm] at h'; cases h'
            · rw [if_neg hm] at h'; cases h'
        | _ => simp
      · intro x timed own
        rw [hph1]
        have := h.noIntr x timed own
        cases hx : s.phase x with
        | lockWait ti o =>
          dsimp only
          intro h'
          by_cases hm : x ∈ ws
          · rw [if_pos hm] at h'; cases h'
          · rw [if_neg hm] at h'; cases h'
        | _ => rw [hx] at this; exact this
      · rintro _ ⟨x, timed, own, hx⟩
        have hb : ∃ x, lockBlocked s x := by
          refine ⟨x, timed, own, ?_⟩
          rw [hph1] at hx
          cases hx' : s.phase x with
          | lockWait ti o =>
            rw [hx'] at hx
            dsimp only at hx
            by_cases hm : x ∈ ws
            · rw [if_pos hm] at hx; cases hx
            · rw [if_neg hm] at hx; exact hx
          | _ => rw [hx'] at hx; cases hx
        obtain ⟨y, hy, ti, o, hyp⟩ := hw hb
        exact ⟨y, ti, o, by rw [hph1, hyp]; simp [hy]⟩
    have hp1 : s1.phase t = .idle := by rw [hph1, hp]
    unfold unlock
    cases cv with
    | none => exact say_inv hi1 (fun a => rfl)
    | some c =>
      refine put_inv hi1 (by rw [hp1]; intro h'; cases h') (by intro h'; cases h')
        (by intro _ _ h'; cases h') ?_
      intro _
      exact ⟨(by intro _ _ h'; cases h'),
        .inl (by intro _ _ h'; rw [hp1] at h'; cases h')⟩
  | @unlockDone t cv r hp =>
    refine say_inv (put_inv h (by rw [hp]; intro h'; cases h') (by intro h'; cases h')
      (by intro _ _ h'; cases h') ?_) (fun a => rfl)
    intro _
    exact ⟨(by intro _ _ h'; cases h'), .inl (by intro _ _ h'; rw [hp] at h'; cases h')⟩
  | cvSignal cv ws hw =>
    obtain ⟨a, h1, h2, h3⟩ := h.hist
    have key : ∀ x, (∃ c ti, s.phase x = .cvWait c ti ∧
        ((wakeCv s cv ws).phase x = .cvWake c .signalled ∨
         (wakeCv s cv ws).phase x = .cvWait c ti)) ∨
        (wakeCv s cv ws).phase x = s.phase x := by
      intro x
      cases hx : s.phase x with
      | cvWait c ti =>
        left; refine ⟨c, ti, rfl, ?_⟩
        unfold wakeCv
        simp only [hx]
        by_cases hc : c = cv ∧ x ∈ ws
        · rw [if_pos hc]; exact .inl rfl
        · rw [if_neg hc]; exact .inr rfl
      | _ => right; unfold wakeCv; simp only [hx]
    refine ⟨⟨a, h1, h2, ?_⟩, ?_, ?_⟩
    · intro x
      rw [h3]
      rcases key x with ⟨c, ti, hx, hy | hy⟩ | hx <;> simp [*]
    · intro x timed own
      have := h.noIntr x timed own
      rcases key x with ⟨c, ti, hx, hy | hy⟩ | hx <;> simp [*]
    · rintro hl ⟨x, timed, own, hx⟩
      have hx' : s.phase x = .lockWait timed own := by
        rcases key x with ⟨c, ti, _, hy | hy⟩ | hy
        · rw [hy] at hx; cases hx
        · rw [hy] at hx; cases hx
        · rw [← hy]; exact hx
      obtain ⟨y, ti, o, hy⟩ := h.prog hl ⟨x, timed, own, hx'⟩
      refine ⟨y, ti, o, ?_⟩
      rcases key y with ⟨c, ti', hz, _⟩ | hz
      · rw [hz] at hy; cases hy
      · rw [hz]; exact hy
  | cvBroadcast cv =>
    obtain ⟨a, h1, h2, h3⟩ := h.hist
    have key : ∀ x, (∃ c ti, s.phase x = .cvWait c ti ∧
        ((wakeAll s cv).phase x = .cvWake c .signalled ∨
         (wakeAll s cv).phase x = .cvWait c ti)) ∨
        (wakeAll s cv).phase x = s.phase x := by
      intro x
      cases hx : s.phase x with
      | cvWait c ti =>
        left; refine ⟨c, ti, rfl, ?_⟩
        unfold wakeAll
        simp only [hx]
        by_cases hc : c = cv
        · rw [if_pos hc]; exact .inl rfl
        · rw [if_neg hc]; exact .inr rfl
      | _ => right; unfold wakeAll; simp only [hx]
    refine say_inv (s := wakeAll s cv) ⟨⟨a, h1, h2, ?_⟩, ?_, ?_⟩ (fun a => rfl)
    · intro x
      rw [h3]
      rcases key x with ⟨c, ti, hx, hy | hy⟩ | hx <;> simp [*]
    · intro x timed own
      have := h.noIntr x timed own
      rcases key x with ⟨c, ti, hx, hy | hy⟩ | hx <;> simp [*]
    · rintro hl ⟨x, timed, own, hx⟩
      have hx' : s.phase x = .lockWait timed own := by
        rcases key x with ⟨c, ti, _, hy | hy⟩ | hy
        · rw [hy] at hx; cases hx
        · rw [hy] at hx; cases hx
        · rw [← hy]; exact hx
      obtain ⟨y, ti, o, hy⟩ := h.prog hl ⟨x, timed, own, hx'⟩
      refine ⟨y, ti, o, ?_⟩
      rcases key y with ⟨c, ti', hz, _⟩ | hz
      · rw [hz] at hy; cases hy
      · rw [hz]; exact hy
  | @lockTimeout t own hp =>
    refine put_inv h (by rw [hp]; intro h'; cases h') (by intro h'; cases h')
      (by intro _ _ h'; cases h') ?_
    intro _
    exact ⟨(by intro _ _ h'; cases h'), .inl (by intro _ _ h'; rw [hp] at h'; cases h')⟩
  | @cvTimeout t cv hp =>
    refine put_inv h (by rw [hp]; intro h'; cases h') (by intro h'; cases h')
      (by intro _ _ h'; cases h') ?_
    intro _
    exact ⟨(by intro _ _ h'; cases h'), .inl (by intro _ _ h'; rw [hp] at h'; cases h')⟩
  | lockIntr hi => cases hi
  | cvIntr hi => cases hi
  | @lockSpurious t timed own hp =>
    refine put_inv h (by rw [hp]; intro h'; cases h') (by intro h'; cases h')
      (by intro _ _ h'; cases h') ?_
    intro _
    exact ⟨(by intro _ _ h'; cases h'), .inr ⟨_, _, rfl⟩⟩
  | @cvSpurious t cv timed hp =>
    refine put_inv h (by rw [hp]; intro h'; cases h') (by intro h'; cases h')
      (by intro _ _ h'; cases h') ?_
    intro _
    exact ⟨(by intro _ _ h'; cases h'), .inl (by intro _ _ h'; rw [hp] at h'; cases h')⟩
  | @terminate t hp =>
    obtain ⟨a, h1, h2, h3⟩ := h.hist
    have hnw : ∀ ti o, s.phase t ≠ .lockWake ti o .signalled := by
      intro ti o h'
      rcases hp with hp | ⟨_, _, hp⟩ | ⟨_, _, hp⟩ <;> (rw [hp] at h'; cases h')
    refine ⟨⟨{ a with dead := t :: a.dead }, ?_, h2, ?_⟩, ?_, ?_⟩
    · show play Abs.init (s.log ++ [.terminate t]) = _
      rw [play_append, h1]; rfl
    · intro x
      show x ∈ t :: a.dead ↔ (s.put t .dead).phase x = .dead
      rw [put_phase, List.mem_cons, h3]
      by_cases hx : x = t
      · rw [if_pos hx]; simp [hx]
      · rw [if_neg hx]; simp [hx]
    · intro x timed own
      show (s.put t .dead).phase x ≠ _
      rw [put_phase]
      by_cases hx : x = t
      · rw [if_pos hx]; intro h'; cases h'
      · rw [if_neg hx]; exact h.noIntr x timed own
    · rintro hl ⟨x, timed, own, hx⟩
      have hx : (s.put t .dead).phase x = .lockWait timed own := hx
      have hxt : x ≠ t := by
        intro hxt; rw [hxt, put_self] at hx; cases hx
      rw [put_other s _ hxt] at hx
      obtain ⟨y, ti, o, hy⟩ := h.prog hl ⟨x, timed, own, hx⟩
      have hyt : y ≠ t := by intro hyt; rw [hyt] at hy; exact hnw ti o hy
      exact ⟨y, ti, o, by
        show (s.put t .dead).phase y = _
        rw [put_other s _ hyt]; exact hy⟩

theorem reach_inv {s : St} (h : Reach false s) : Inv s := by
  unfold Reach at h
  generalize hi : St.init = s0 at h
  induction h with
  | refl =>
    subst hi
    refine ⟨⟨Abs.init, rfl, rfl, ?_⟩, ?_, ?_⟩
    · intro t; simp [Abs.init, St.init]
    · intro t _ _ h'; cases h'
    · rintro _ ⟨x, _, _, hx⟩; cases hx
  | tail _ hs ih => exact step_inv ih hs

/-! ## facts about histories -/

/-- While nobody releases, a held mutex stays held. -/
theorem play_held : ∀ (q : List Ev) (a b : Abs), play a q = some b →
    a.hold ≠ .free → (∀ e ∈ q, isRelease e = false) → b.hold ≠ .free
  | [], a, b, h, ha, _ => by
    simp only [play, Option.some.injEq] at h; exact h ▸ ha
  | e :: q, a, b, h, ha, hn => by
    simp only [play] at h
    cases hr : rule a e with
    | none => rw [hr] at h; cases h
    | some c =>
      rw [hr] at h
      refine play_held q c b h ?_ (fun x hx => hn x (List.mem_cons_of_mem _ hx))
      have he := hn e (by simp)
      cases e with
      | acquire t own =>
        simp only [rule] at hr
        rw [if_neg ha] at hr; cases hr
      | abandoned t own old =>
        simp only [rule] at hr
        split at hr
        · injection hr with hr; subst hr; intro h'; cases h'
        · cases hr
      | release t => simp [isRelease] at he
      | terminate t => simp only [rule, Option.some.injEq] at hr; subst hr; exact ha
      | _ => simp only [rule, Option.some.injEq] at hr; subst hr; exact ha

theorem play_split {a b : Abs} {x y : List Ev} (h : play a (x ++ y) = some b) :
    ∃ c, play a x = some c ∧ play c y = some b := by
  rw [play_append] at h
  cases hc : play a x with
  | none => rw [hc] at h; cases h
  | some c => rw [hc] at h; exact ⟨c, rfl, h⟩

theorem takes_held {a b : Abs} {e : Ev} {own : Option Tid}
    (ht : takes e = some own) (h : rule a e = some b) : b.hold = .held own := by
  cases e <;> simp only [takes, Option.some.injEq] at ht <;> try cases ht
  all_goals
    simp only [rule] at h
    split at h
    · injection h with h; subst h; rfl
    · cases h

/-- Who holds the mutex is the last one who took it. -/
theorem held_last : ∀ (q : List Ev) (a b : Abs) (o : Option Tid),
    play a q = some b → b.hold = .held o →
    a.hold = .held o ∨ ∃ e ∈ q, takes e = some o
  | [], a, b, o, h, hb => by
    simp only [play, Option.some.injEq] at h; subst h; exact .inl hb
  | e :: q, a, b, o, h, hb => by
    simp only [play] at h
    cases hr : rule a e with
    | none => rw [hr] at h; cases h
    | some c =>
      rw [hr] at h
      rcases held_last q c b o h hb with h1 | ⟨x, hx, h1⟩
      · cases e with
        | acquire t own =>
          right
          refine ⟨_, List.mem_cons_self .., ?_⟩
          have := takes_held rfl hr
          rw [this] at h1; injection h1 with h1; rw [← h1]; rfl
        | abandoned t own old =>
          right
          refine ⟨_, List.mem_cons_self .., ?_⟩
          have := takes_held rfl hr
          rw [this] at h1; injection h1 with h1; rw [← h1]; rfl
        | release t =>
          simp only [rule, Option.some.injEq] at hr; subst hr; cases h1
        | terminate t =>
          simp only [rule, Option.some.injEq] at hr; subst hr; exact .inl h1
        | _ => simp only [rule, Option.some.injEq] at hr; subst hr; exact .inl h1
      · exact .inr ⟨x, List.mem_cons_of_mem _ hx, h1⟩

theorem dead_mem : ∀ (q : List Ev) (a b : Abs) (t : Tid), play a q = some b →
    t ∈ b.dead → t ∈ a.dead ∨ .terminate t ∈ q
  | [], a, b, t, h, hb => by
    simp only [play, Option.some.injEq] at h; subst h; exact .inl hb
  | e :: q, a, b, t, h, hb => by
    simp only [play] at h
    cases hr : rule a e with
    | none => rw [hr] at h; cases h
    | some c =>
      rw [hr] at h
      rcases dead_mem q c b t h hb with h1 | h1
      · cases e with
        | acquire t own =>
          simp only [rule] at hr; split at hr
          · injection hr with hr; subst hr; exact .inl h1
          · cases hr
        | abandoned t own old =>
          simp only [rule] at hr; split at hr
          · injection hr with hr; subst hr; exact .inl h1
          · cases hr
        | terminate x =>
          simp only [rule, Option.some.injEq] at hr; subst hr
          rcases List.mem_cons.1 h1 with rfl | h1
          · exact .inr (by simp)
          · exact .inl h1
        | _ => simp only [rule, Option.some.injEq] at hr; subst hr; exact .inl h1
      · exact .inr (List.mem_cons_of_mem _ h1)

/-! ## the property -/

/-- **C32 (histories).**  Under every interleaving of any number of threads
    locking, unlocking, waiting, timing out and terminating, the history of
    the mutex obeys the rules: a plain acquisition only of a free mutex, an
    acquisition with the abandoned-mutex exception only of a mutex whose
    owner has terminated; and the state the mutex reports is the one the
    history leads to. -/
theorem C32_histories {s : St} (h : Reach false s) :
    ∃ a, play Abs.init s.log = some a ∧
      (mutexState s = .notAbandoned ↔ a.hold = .free) ∧
      (mutexState s = .notOwned ↔ a.hold = .held none) ∧
      (∀ t, mutexState s = .owned t ↔ a.hold = .held (some t) ∧ t ∉ a.dead) ∧
      (mutexState s = .abandoned ↔ ∃ t, a.hold = .held (some t) ∧ t ∈ a.dead) := by
  obtain ⟨a, h1, h2, h3⟩ := (reach_inv h).hist
  refine ⟨a, h1, ?_⟩
  rw [h2]
  unfold mutexState holdOf
  by_cases hl : s.locked = true
  · rw [if_pos hl, if_pos hl]
    cases ho : s.owner with
    | none => simp
    | some o =>
      by_cases ht : terminated s o = true
      · have : o ∈ a.dead := (h3 o).2 (of_decide_eq_true ht)
        simp only [if_pos ht]
        refine ⟨by simp, by simp, ?_, ?_⟩
        · intro t
          constructor
          · intro h'; cases h'
          · rintro ⟨h', h''⟩
            simp at h'; subst h'; exact absurd this h''
        · simp only [true_iff]; exact ⟨o, rfl, this⟩
      · have : o ∉ a.dead := fun h' => ht (decide_eq_true ((h3 o).1 h'))
        simp only [if_neg ht]
        refine ⟨by simp, by simp, ?_, ?_⟩
        · intro t
          constructor
          · intro h'; injection h' with h'; subst h'; exact ⟨rfl, this⟩
          · rintro ⟨h', _⟩; simp at h'; rw [h']
        · constructor
          · intro h'; cases h'
          · rintro ⟨t, h', h''⟩
            simp at h'; subst h'; exact absurd h'' this
  · rw [if_neg hl, if_neg hl]
    simp

/-- **C32 (exclusion).**  Between a successful `mutex-lock!` (with or without
    the abandoned-mutex exception) and the next plain one there is a
    `mutex-unlock!`. -/
theorem C32_exclusion {s : St} (h : Reach false s) {p q r : List Ev} {e : Ev}
    {o own : Option Tid} {t : Tid}
    (hl : s.log = p ++ e :: (q ++ .acquire t own :: r)) (he : takes e = some o) :
    ∃ x ∈ q, isRelease x = true := by
  obtain ⟨a, h1, _, _⟩ := (reach_inv h).hist
  rw [hl] at h1
  obtain ⟨a1, g1, g2⟩ := play_split h1
  simp only [play] at g2
  cases hr : rule a1 e with
  | none => rw [hr] at g2; cases g2
  | some a2 =>
    rw [hr] at g2
    obtain ⟨a3, g3, g4⟩ := play_split (x := q) g2
    apply Classical.byContradiction
    intro hno
    have hn : ∀ x ∈ q, isRelease x = false := by
      intro x hx
      cases hxx : isRelease x with
      | false => rfl
      | true => exact absurd ⟨x, hx, hxx⟩ hno
    have := play_held q a2 a3 g3 (by rw [takes_held he hr]; intro h'; cases h') hn
    simp only [play, rule] at g4
    rw [if_neg this] at g4
    cases g4

/-- **C32 (abandoned).**  The abandoned-mutex exception names a thread that
    had terminated, that a lock operation had made the owner, and nobody
    released the mutex since. -/
theorem C32_abandoned {s : St} (h : Reach false s) {p r : List Ev}
    {own : Option Tid} {t old : Tid} (hl : s.log = p ++ .abandoned t own old :: r) :
    .terminate old ∈ p ∧
      ∃ p1 e p2, p = p1 ++ e :: p2 ∧ takes e = some (some old) ∧
        ∀ x ∈ p2, isRelease x = false := by
  obtain ⟨a, h1, _, _⟩ := (reach_inv h).hist
  rw [hl] at h1
  obtain ⟨a1, g1, g2⟩ := play_split h1
  simp only [play, rule] at g2
  by_cases hc : a1.hold = .held (some old) ∧ old ∈ a1.dead
  · refine ⟨?_, ?_⟩
    · rcases dead_mem p Abs.init a1 old g1 hc.2 with h' | h'
      · cases h'
      · exact h'
    · -- the last event of `p` that takes or releases
      have key : ∀ (n : Nat) (p : List Ev) (a1 : Abs), p.length = n →
          play Abs.init p = some a1 → a1.hold = .held (some old) →
          ∃ p1 e p2, p = p1 ++ e :: p2 ∧ takes e = some (some old) ∧
            ∀ x ∈ p2, isRelease x = false := by
        intro n
        induction n with
        | zero =>
          intro p a1 hn hp ha
          have : p = [] := List.length_eq_zero_iff.1 hn
          subst this
          simp only [play, Option.some.injEq] at hp
          subst hp; cases ha
        | succ n ih =>
          intro p a1 hn hp ha
          rcases List.eq_nil_or_concat p with rfl | ⟨p', e, hpe⟩
          · simp at hn
          rw [List.concat_eq_append] at hpe
          subst hpe
          obtain ⟨a2, k1, k2⟩ := play_split hp
          simp only [play] at k2
          have back : a2.hold = .held (some old) → isRelease e = false →
              ∃ p1 e' p2, p' ++ [e] = p1 ++ e' :: p2 ∧ takes e' = some (some old) ∧
                ∀ x ∈ p2, isRelease x = false := by
            intro hold hrel
            obtain ⟨p1, e', p2, e1, e2, e3⟩ := ih p' a2 (by simp at hn; exact hn) k1 hold
            refine ⟨p1, e', p2 ++ [e], by simp [e1], e2, ?_⟩
            intro x hx
            rcases List.mem_append.1 hx with hx | hx
            · exact e3 x hx
            · rw [List.mem_singleton.1 hx]; exact hrel
          cases hr : rule a2 e with
          | none => rw [hr] at k2; cases k2
          | some a3 =>
            rw [hr] at k2
            simp only [Option.bind_some, Option.some.injEq] at k2
            subst k2
            cases e with
            | acquire t own =>
              have := takes_held rfl hr
              rw [ha] at this; injection this with this
              exact ⟨p', _, [], rfl, by rw [this]; rfl, by simp⟩
            | abandoned t own o =>
              have := takes_held rfl hr
              rw [ha] at this; injection this with this
              exact ⟨p', _, [], rfl, by rw [this]; rfl, by simp⟩
            | release t =>
              simp only [rule, Option.some.injEq] at hr; subst hr; cases ha
            | terminate t =>
              simp only [rule, Option.some.injEq] at hr; subst hr
              exact back ha rfl
            | _ =>
              simp only [rule, Option.some.injEq] at hr; subst hr
              exact back ha rfl
      exact key p.length p a1 rfl g1 hc.1
  · rw [if_neg hc] at g2; cases g2

/-- **C32 (raised once).**  After the exception for a terminated owner was
    raised, it is not raised for that thread again unless a lock operation
    makes that thread the owner anew. -/
theorem C32_abandoned_once {s : St} (h : Reach false s) {p q r : List Ev}
    {own own' : Option Tid} {t t' old : Tid}
    (hl : s.log = p ++ .abandoned t own old :: (q ++ .abandoned t' own' old :: r)) :
    own = some old ∨ ∃ e ∈ q, takes e = some (some old) := by
  obtain ⟨a, h1, _, _⟩ := (reach_inv h).hist
  rw [hl] at h1
  obtain ⟨a1, g1, g2⟩ := play_split h1
  simp only [play] at g2
  cases hr : rule a1 (.abandoned t own old) with
  | none => rw [hr] at g2; cases g2
  | some a2 =>
    rw [hr] at g2
    obtain ⟨a3, g3, g4⟩ := play_split (x := q) g2
    simp only [play, rule] at g4
    by_cases hc : a3.hold = .held (some old) ∧ old ∈ a3.dead
    · rcases held_last q a2 a3 (some old) g3 hc.1 with h' | h'
      · have := takes_held (own := own) rfl hr
        rw [this] at h'; injection h' with h'
        exact .inl h'
      · exact .inr h'
    · rw [if_neg hc] at g4; cases g4

/-- **C32 (no lost wakeup).**  Whenever the mutex is free and some thread is
    blocked in `mutex-lock!`, a thread that has been woken is about to look
    at the mutex, and if it runs now it gets it. -/
theorem C32_progress {s : St} (h : Reach false s) (hf : mutexState s = .notAbandoned)
    (hb : ∃ x, lockBlocked s x) :
    ∃ y own u, Step false s u ∧ (∃ timed, s.phase y = .lockWake timed own .signalled) ∧
      u.log = s.log ++ [.acquire y own] := by
  have hl : s.locked = false := by
    unfold mutexState at hf
    by_cases hl : s.locked = true
    · rw [if_pos hl] at hf
      cases ho : s.owner with
      | none => simp [ho] at hf
      | some o =>
        simp only [ho] at hf
        by_cases ht : terminated s o = true
        · rw [if_pos ht] at hf; cases hf
        · rw [if_neg ht] at hf; cases hf
    · simpa using hl
  obtain ⟨y, timed, own, hy⟩ := (reach_inv h).prog hl hb
  refine ⟨y, own, _, .resume hy, ⟨timed, hy⟩, ?_⟩
  show (lockLoop s y timed own).log = _
  unfold lockLoop
  rw [if_neg (by rw [hl]; simp)]
  rfl

/-- **C32 (release and wait).**  `(mutex-unlock! m cv)` releases the mutex and
    blocks on the condition variable in one step: in every continuation of the
    run, a broadcast on `cv` finds the thread blocked (unless it has been woken,
    has returned or has been terminated), so that after it the thread is not
    blocked any more. -/
theorem C32_release_wait {intrOk : Bool} {s u : St} {t : Tid} {cv : Nat}
    {timed : Bool} {ws : List Tid} (ht : s.phase t = .idle)
    (hu : Steps intrOk (unlock s t (some (cv, timed)) ws) u) :
    ∃ new, u.log = (unlock s t (some (cv, timed)) ws).log ++ new ∧
      ((.broadcast cv ∉ new ∧ cvBlocked u cv t) ∨
       (∃ r, u.phase t = .cvWake cv r) ∨
       (∃ ok, .unlockReturn t ok ∈ new) ∨ .terminate t ∈ new) := by
  induction hu with
  | refl =>
    refine ⟨[], by simp, .inl ⟨by simp, timed, ?_⟩⟩
    show ((wakeLockers _ ws).put t (.cvWait cv timed)).phase t = _
    rw [put_self]
  | @tail v w _ hs ih =>
    obtain ⟨new, h1, h2⟩ := ih
    -- a step adds at most one event and other threads do not touch `t`
    have same : ∀ (new' : List Ev), w.log = v.log ++ new' →
        (cvBlocked v cv t → (.broadcast cv ∉ new' ∧ cvBlocked w cv t) ∨
          (∃ r, w.phase t = .cvWake cv r) ∨ .terminate t ∈ new') →
        (∀ r, v.phase t = .cvWake cv r → (∃ r, w.phase t = .cvWake cv r) ∨
          (∃ ok, .unlockReturn t ok ∈ new')) →
        ∃ n, w.log = (unlock s t (some (cv, timed)) ws).log ++ n ∧
          ((.broadcast cv ∉ n ∧ cvBlocked w cv t) ∨
           (∃ r, w.phase t = .cvWake cv r) ∨
           (∃ ok, .unlockReturn t ok ∈ n) ∨ .terminate t ∈ n) := by
      intro new' e1 e2 e3
      refine ⟨new ++ new', by rw [e1, h1, List.append_assoc], ?_⟩
      rcases h2 with ⟨g1, g2⟩ | ⟨r, g2⟩ | ⟨ok, g2⟩ | g2
      · rcases e2 g2 with ⟨k1, k2⟩ | k2 | k2
        · exact .inl ⟨by simp [g1, k1], k2⟩
        · exact .inr (.inl k2)
        · exact .inr (.inr (.inr (by simp [k2])))
      · rcases e3 r g2 with k2 | ⟨ok, k2⟩
        · exact .inr (.inl k2)
        · exact .inr (.inr (.inl ⟨ok, by simp [k2]⟩))
      · exact .inr (.inr (.inl ⟨ok, by simp [g2]⟩))
      · exact .inr (.inr (.inr (by simp [g2])))
    -- steps of another thread
    have put : ∀ {x : Tid} {p : Phase}, x ≠ t → (v.put x p).phase t = v.phase t :=
      fun hx => put_other v _ (fun h => hx h.symm)
    have other : ∀ (new' : List Ev), w.log = v.log ++ new' → w.phase t = v.phase t →
        .broadcast cv ∉ new' →
        ∃ n, w.log = (unlock s t (some (cv, timed)) ws).log ++ n ∧
          ((.broadcast cv ∉ n ∧ cvBlocked w cv t) ∨
           (∃ r, w.phase t = .cvWake cv r) ∨
           (∃ ok, .unlockReturn t ok ∈ n) ∨ .terminate t ∈ n) := by
      intro new' e1 e2 e3
      apply same new' e1
      · rintro ⟨ti, hb⟩; exact .inl ⟨e3, ti, by rw [e2, hb]⟩
      · intro r hr; exact .inl ⟨r, by rw [e2, hr]⟩
    -- `t` itself is somewhere else
    have self : ∀ (new' : List Ev), w.log = v.log ++ new' →
        (∀ ti, v.phase t ≠ .cvWait cv ti) → (∀ r, v.phase t ≠ .cvWake cv r) →
        ∃ n, w.log = (unlock s t (some (cv, timed)) ws).log ++ n ∧
          ((.broadcast cv ∉ n ∧ cvBlocked w cv t) ∨
           (∃ r, w.phase t = .cvWake cv r) ∨
           (∃ ok, .unlockReturn t ok ∈ n) ∨ .terminate t ∈ n) := by
      intro new' e1 e2 e3
      apply same new' e1
      · rintro ⟨ti, hb⟩; exact absurd hb (e2 ti)
      · intro r hr; exact absurd hr (e3 r)
    have loopFacts : ∀ (x : Tid) (ti : Bool) (own : Option Tid),
        ∃ new', (lockLoop v x ti own).log = v.log ++ new' ∧
          .broadcast cv ∉ new' ∧
          (x ≠ t → (lockLoop v x ti own).phase t = v.phase t) := by
      intro x ti own
      have hw : ∃ new', (v.put x (.lockWait ti own)).log = v.log ++ new' ∧
          .broadcast cv ∉ new' ∧
          (x ≠ t → (v.put x (.lockWait ti own)).phase t = v.phase t) :=
        ⟨[], by simp [St.put], by simp, put⟩
      have htake : ∀ ab (v' : St), v'.phase = v.phase → v'.log = v.log →
          ∃ new', (lockTake v' x own ab).log = v.log ++ new' ∧
          .broadcast cv ∉ new' ∧
          (x ≠ t → (lockTake v' x own ab).phase t = v.phase t) := by
        intro ab v' e1 e2
        cases ab with
        | none =>
          exact ⟨[.acquire x own], by rw [← e2]; rfl, by simp, fun hx => by
            show (v'.put x .idle).phase t = _
            rw [put_other v' _ (fun h => hx h.symm), e1]⟩
        | some old =>
          exact ⟨[.abandoned x own old], by rw [← e2]; rfl, by simp, fun hx => by
            show (v'.put x .idle).phase t = _
            rw [put_other v' _ (fun h => hx h.symm), e1]⟩
      unfold lockLoop
      by_cases hl : v.locked = true
      · rw [if_pos hl]
        cases v.owner with
        | none => exact hw
        | some o =>
          dsimp only
          by_cases ht : terminated v o = true
          · rw [if_pos ht]; exact htake _ _ rfl rfl
          · rw [if_neg ht]; exact hw
      · rw [if_neg hl]; exact htake _ _ rfl rfl
    have takeFacts : ∀ (x : Tid) (own : Option Tid),
        (lockTake v x own none).log = v.log ++ [.acquire x own] ∧
        (x ≠ t → (lockTake v x own none).phase t = v.phase t) := by
      intro x own
      exact ⟨rfl, fun hx => put_other v _ (fun h => hx h.symm)⟩
    cases hs with
    | @lock x ti own hp =>
      obtain ⟨n', e1, e2, e3⟩ := loopFacts x ti own
      by_cases hx : x = t
      · subst hx
        exact self n' e1 (by intro _ h; rw [hp] at h; cases h)
          (by intro _ h; rw [hp] at h; cases h)
      · exact other n' e1 (e3 hx) e2
    | @resume x ti own r hp =>
      have elsewhere : x = t → (∀ ti, v.phase t ≠ .cvWait cv ti) ∧
          (∀ r, v.phase t ≠ .cvWake cv r) := by
        intro hx
        subst hx
        exact ⟨(by intro _ h; rw [hp] at h; cases h), by intro _ h; rw [hp] at h; cases h⟩
      cases r with
      | signalled =>
        obtain ⟨n', e1, e2, e3⟩ := loopFacts x ti own
        by_cases hx : x = t
        · exact self n' e1 (elsewhere hx).1 (elsewhere hx).2
        · exact other n' e1 (e3 hx) e2
      | timedout =>
        by_cases hx : x = t
        · exact self [.lockTimeout x] rfl (elsewhere hx).1 (elsewhere hx).2
        · exact other [.lockTimeout x] rfl (put hx) (by simp)
      | intr =>
        by_cases hx : x = t
        · exact self _ (takeFacts x own).1 (elsewhere hx).1 (elsewhere hx).2
        · exact other _ (takeFacts x own).1 ((takeFacts x own).2 hx) (by simp)
    | @unlock x c ws' hp hw =>
      have hlog : ∃ n', (unlock v x c ws').log = v.log ++ n' ∧ .broadcast cv ∉ n' := by
        unfold unlock
        cases c with
        | none => exact ⟨[.release x, .unlockReturn x true], by simp [St.say, wakeLockers], by simp⟩
        | some c => exact ⟨[.release x], rfl, by simp⟩
      obtain ⟨n', e1, e2⟩ := hlog
      by_cases hx : x = t
      · subst hx
        exact self n' e1 (by intro _ h; rw [hp] at h; cases h)
          (by intro _ h; rw [hp] at h; cases h)
      · have hph : (∀ ti, v.phase t = .cvWait cv ti →
            (unlock v x c ws').phase t = .cvWait cv ti) ∧
            (∀ r, v.phase t = .cvWake cv r → (unlock v x c ws').phase t = .cvWake cv r) := by
          have hwl : ∀ z : St, z.phase t = v.phase t →
              (∀ ti o, v.phase t ≠ .lockWait ti o) →
              (wakeLockers z ws').phase t = v.phase t := by
            intro z hz hn
            unfold wakeLockers
            dsimp only
            rw [hz]
            cases hv : v.phase t with
            | lockWait ti o => exact absurd hv (hn ti o)
            | _ => rfl
          have hall : (∀ ti o, v.phase t ≠ .lockWait ti o) →
              (unlock v x c ws').phase t = v.phase t := by
            intro hn
            unfold unlock
            cases c with
            | none => exact hwl _ rfl hn
            | some c =>
              dsimp only
              rw [put_other _ _ (fun h => hx h.symm)]
              exact hwl _ rfl hn
          constructor
          · intro ti h; rw [hall (by intro _ _ h'; rw [h] at h'; cases h'), h]
          · intro r h; rw [hall (by intro _ _ h'; rw [h] at h'; cases h'), h]
        refine same n' e1 ?_ ?_
        · rintro ⟨ti, hb⟩; exact .inl ⟨e2, ti, hph.1 ti hb⟩
        · intro r hr; exact .inl ⟨r, hph.2 r hr⟩
    | @unlockDone x c r hp =>
      by_cases hx : x = t
      · subst hx
        refine same [.unlockReturn x _] rfl ?_ ?_
        · rintro ⟨ti, hb⟩; rw [hp] at hb; cases hb
        · intro r' _; exact .inr ⟨_, List.mem_singleton_self _⟩
      · exact other [.unlockReturn x _] rfl (put hx) (by simp)
    | cvSignal c ws' hw =>
      refine same [] (by simp [wakeCv]) ?_ ?_
      · rintro ⟨ti, hb⟩
        by_cases hc : cv = c ∧ t ∈ ws'
        · exact .inr (.inl ⟨.signalled, by unfold wakeCv; simp only [hb]; rw [if_pos hc]⟩)
        · exact .inl ⟨by simp, ti, by unfold wakeCv; simp only [hb]; rw [if_neg hc]⟩
      · intro r hr; exact .inl ⟨r, by unfold wakeCv; simp only [hr]⟩
    | cvBroadcast c =>
      refine same [.broadcast c] rfl ?_ ?_
      · rintro ⟨ti, hb⟩
        by_cases hc : cv = c
        · exact .inr (.inl ⟨.signalled, by
            show (wakeAll v c).phase t = _
            unfold wakeAll; simp only [hb]; rw [if_pos hc]⟩)
        · exact .inl ⟨by simp [hc], ti, by
            show (wakeAll v c).phase t = _
            unfold wakeAll; simp only [hb]; rw [if_neg hc]⟩
      · intro r hr; exact .inl ⟨r, by
          show (wakeAll v c).phase t = _
          unfold wakeAll; simp only [hr]⟩
    | @lockTimeout x own hp =>
      by_cases hx : x = t
      · subst hx
        exact self [] (by simp [St.put]) (by intro _ h; rw [hp] at h; cases h)
          (by intro _ h; rw [hp] at h; cases h)
      · exact other [] (by simp [St.put]) (put hx) (by simp)
    | @cvTimeout x c hp =>
      by_cases hx : x = t
      · subst hx
        refine same [] (by simp [St.put]) ?_ ?_
        · rintro ⟨ti, hb⟩
          rw [hp] at hb; injection hb with hb _
          exact .inr (.inl ⟨.timedout, by rw [put_self, hb]⟩)
        · intro r hr; rw [hp] at hr; cases hr
      · exact other [] (by simp [St.put]) (put hx) (by simp)
    | @lockIntr x own _ hp =>
      by_cases hx : x = t
      · subst hx
        exact self [] (by simp [St.put]) (by intro _ h; rw [hp] at h; cases h)
          (by intro _ h; rw [hp] at h; cases h)
      · exact other [] (by simp [St.put]) (put hx) (by simp)
    | @cvIntr x c _ hp =>
      by_cases hx : x = t
      · subst hx
        refine same [] (by simp [St.put]) ?_ ?_
        · rintro ⟨ti, hb⟩
          rw [hp] at hb; injection hb with hb _
          exact .inr (.inl ⟨.intr, by rw [put_self, hb]⟩)
        · intro r hr; rw [hp] at hr; cases hr
      · exact other [] (by simp [St.put]) (put hx) (by simp)
    | @lockSpurious x ti own hp =>
      by_cases hx : x = t
      · subst hx
        exact self [] (by simp [St.put]) (by intro _ h; rw [hp] at h; cases h)
          (by intro _ h; rw [hp] at h; cases h)
      · exact other [] (by simp [St.put]) (put hx) (by simp)
    | @cvSpurious x c ti hp =>
      by_cases hx : x = t
      · subst hx
        refine same [] (by simp [St.put]) ?_ ?_
        · rintro ⟨ti', hb⟩
          rw [hp] at hb; injection hb with hb _
          exact .inr (.inl ⟨.signalled, by rw [put_self, hb]⟩)
        · intro r hr; rw [hp] at hr; cases hr
      · exact other [] (by simp [St.put]) (put hx) (by simp)
    | @terminate x hp =>
      by_cases hx : x = t
      · subst hx
        refine same [.terminate x] rfl ?_ ?_
        · intro _; exact .inr (.inr (by simp))
        · intro r hr
          rcases hp with hp | ⟨_, _, hp⟩ | ⟨_, _, hp⟩ <;> (rw [hp] at hr; cases hr)
      · exact other [.terminate x] rfl (put hx) (by simp)

/-! ## non-vacuity -/

/-- Thread 1 locks, thread 2 blocks, thread 1 unlocks (waking 2), 2 gets it. -/
def s1 : St := lockLoop St.init 1 false (some 1)
def s2 : St := lockLoop s1 2 false (some 2)
def s3 : St := unlock s2 1 none [2]
def s4 : St := lockResume s3 2 false (some 2) .signalled

theorem s2_reach : Reach false s2 :=
  .tail (.tail (.refl _) (.lock false (some 1) rfl)) (.lock false (some 2) rfl)

theorem s3_reach : Reach false s3 :=
  .tail s2_reach (.unlock none [2] rfl (fun _ => ⟨2, by simp, false, some 2, rfl⟩))

example : Reach false s4 ∧
    s4.log = [.acquire 1 (some 1), .release 1, .unlockReturn 1 true, .acquire 2 (some 2)] ∧
    mutexState s4 = .owned 2 :=
  ⟨.tail s3_reach (.resume rfl), rfl, rfl⟩

/-- A third thread blocks before 1 unlocks: the mutex is free and a thread is
    blocked. -/
example : ∃ s, Reach false s ∧ mutexState s = .notAbandoned ∧ ∃ x, lockBlocked s x :=
  ⟨unlock (lockLoop s2 3 false none) 1 none [2],
   .tail (.tail s2_reach (.lock false none rfl))
     (.unlock none [2] rfl (fun _ => ⟨2, by simp, false, some 2, rfl⟩)),
   rfl, 3, false, none, rfl⟩

/-- Abandonment. -/
def d1 : St := (s1.put 1 .dead).say (.terminate 1)
def d2 : St := lockLoop d1 2 false (some 2)

example : Reach false d2 ∧ mutexState d1 = .abandoned ∧
    d2.log = [.acquire 1 (some 1), .terminate 1, .abandoned 2 (some 2) 1] :=
  ⟨.tail (.tail (.tail (.refl _) (.lock false (some 1) rfl)) (.terminate (.inl rfl)))
    (.lock false (some 2) rfl), rfl, rfl⟩

/-! ## disagreements -/

/-- **C32 (finding).**  If a timed `mutex-lock!` is interrupted while the
    mutex is held by a live thread, it takes the mutex and returns `#t`: two
    acquisitions without a release in between.  (`SCM_INTERNAL_COND_INTR` is
    `EINTR`, which POSIX does not let `pthread_cond_timedwait` return; the
    branch is wrong where it can be taken.) -/
theorem C32_bug_intr : ∃ s, Reach true s ∧
    s.log = [.acquire 1 (some 1), .acquire 2 (some 2)] ∧ s.phase 1 = .idle ∧
    mutexState s = .owned 2 := by
  let a2 : St := lockLoop s1 2 true (some 2)
  let a3 : St := a2.put 2 (.lockWake true (some 2) .intr)
  exact ⟨lockResume a3 2 true (some 2) .intr,
    .tail (.tail (.tail (.tail (.refl _) (.lock false (some 1) rfl))
      (.lock true (some 2) rfl)) (.lockIntr rfl rfl)) (.resume rfl), rfl, rfl, rfl⟩

/-- **C32 (finding).**  A thread blocked in `mutex-lock!` is not woken when
    the owner terminates: the mutex reports `abandoned`, but the waiter is
    asleep and nobody has been woken, and as long as no thread calls
    `mutex-unlock!` and no spurious wakeup happens, no step ever wakes it.
    (A thread that calls `mutex-lock!` *after* the termination gets the mutex
    with the exception at once.) -/
theorem C32_bug_abandoned_waiter : ∃ s, Reach false s ∧
    mutexState s = .abandoned ∧ s.phase 2 = .lockWait false (some 2) ∧
    (∀ x timed own r, s.phase x ≠ .lockWake timed own r) ∧
    ∀ v u, Step false v u → v.phase 2 = .lockWait false (some 2) →
      u.phase 2 = .lockWait false (some 2) ∨
      (∃ t, u.log = v.log ++ [.release t] ∨
        u.log = v.log ++ [.release t, .unlockReturn t true]) ∨
      u = v.put 2 (.lockWake false (some 2) .signalled) ∨
      u.log = v.log ++ [.terminate 2] := by
  refine ⟨(s2.put 1 .dead).say (.terminate 1),
    .tail s2_reach (.terminate (.inl rfl)), rfl, rfl, ?_, ?_⟩
  · intro x timed own r
    show (if x = 1 then Phase.dead else if x = 2 then .lockWait false (some 2)
      else if x = 1 then .idle else .idle) ≠ _
    by_cases h1 : x = 1
    · rw [if_pos h1]; intro h; cases h
    · rw [if_neg h1]
      by_cases h2 : x = 2
      · rw [if_pos h2]; intro h; cases h
      · rw [if_neg h2, if_neg h1]; intro h; cases h
  · intro v u hs hv
    have put : ∀ {x : Tid} {p q : Phase}, v.phase x = q →
        q ≠ .lockWait false (some 2) → (v.put x p).phase 2 = .lockWait false (some 2) := by
      intro x p q h1 h2
      have : (2 : Tid) ≠ x := by
        intro hx; subst hx; rw [hv] at h1; exact h2 h1.symm
      rw [put_other v p this, hv]
    have take : ∀ {x : Tid} {q : Phase} (v' : St) (own ab), v'.phase = v.phase →
        v.phase x = q → q ≠ .lockWait false (some 2) →
        (lockTake v' x own ab).phase 2 = .lockWait false (some 2) := by
      intro x q v' own ab e h1 h2
      have h3 : (2 : Tid) ≠ x := by
        intro hx; subst hx; rw [hv] at h1; exact h2 h1.symm
      have : (lockTake v' x own ab).phase 2 = (v'.put x .idle).phase 2 := by
        unfold lockTake; cases ab <;> rfl
      rw [this, put_other v' _ h3, e, hv]
    have loop : ∀ {x : Tid} {q : Phase} (timed own), v.phase x = q →
        q ≠ .lockWait false (some 2) →
        (lockLoop v x timed own).phase 2 = .lockWait false (some 2) := by
      intro x q timed own h1 h2
      unfold lockLoop
      by_cases hl : v.locked = true
      · rw [if_pos hl]
        cases v.owner with
        | none => exact put h1 h2
        | some o =>
          dsimp only
          by_cases ht : terminated v o = true
          · rw [if_pos ht]; exact take _ _ _ rfl h1 h2
          · rw [if_neg ht]; exact put h1 h2
      · rw [if_neg hl]; exact take _ _ _ rfl h1 h2
    cases hs with
    | lock timed own hp => exact .inl (loop timed own hp (by intro h; cases h))
    | @resume t timed own r hp =>
      cases r with
      | signalled => exact .inl (loop timed own hp (by intro h; cases h))
      | timedout => exact .inl (put hp (by intro h; cases h))
      | intr => exact .inl (take v own none rfl hp (by intro h; cases h))
    | @unlock t cv ws hp hw =>
      refine .inr (.inl ⟨t, ?_⟩)
      cases cv with
      | none => exact .inr (by simp [unlock, St.say, wakeLockers])
      | some c => exact .inl rfl
    | unlockDone hp => exact .inl (put hp (by intro h; cases h))
    | cvSignal cv ws hw => left; unfold wakeCv; simp only [hv]
    | cvBroadcast cv =>
      left
      show (wakeAll v cv).phase 2 = _
      unfold wakeAll; simp only [hv]
    | lockTimeout hp => exact .inl (put hp (by intro h; cases h))
    | cvTimeout hp => exact .inl (put hp (by intro h; cases h))
    | lockIntr hi => cases hi
    | cvIntr hi => cases hi
    | @lockSpurious t timed own hp =>
      by_cases h2 : t = 2
      · subst h2
        rw [hv] at hp; injection hp with e1 e2
        subst e1; subst e2
        exact .inr (.inr (.inl rfl))
      · refine .inl ?_
        rw [put_other v _ (fun h => h2 h.symm), hv]
    | cvSpurious hp => exact .inl (put hp (by intro h; cases h))
    | @terminate t hp =>
      by_cases h2 : t = 2
      · subst h2; exact .inr (.inr (.inr rfl))
      · left
        show (v.put t .dead).phase 2 = _
        rw [put_other v _ (fun h => h2 h.symm), hv]

end Gauche.Mutex

import Verif.Proof.DynWindPure
/-!
# C27: dynamic-wind and continuation jumps
-/

namespace Gauche.DynWind
open Spec

/-! ## concrete programs -/

/-- `n` steps. -/
def iter : Nat → Vm → Option Vm
  | 0, s => some s
  | n + 1, s => (step s).bind (iter n)

theorem iter_reach {t : Term} : ∀ (n : Nat) (s u : Vm), ReachAny t s →
    iter n s = some u → ReachAny t u
  | 0, s, u, h, hu => by simp only [iter, Option.some.injEq] at hu; exact hu ▸ h
  | n + 1, s, u, h, hu => by
    simp only [iter] at hu
    cases hs : step s with
    | none => rw [hs] at hu; cases hu
    | some s' => rw [hs] at hu; exact iter_reach n s' u (.step h hs) hu

/-- `(lambda () (emit n))` -/
def out (n : Nat) : Term := .lam (.app (.prim .emit) [.num n])

/-- A re-entrant program: a continuation is captured inside two nested
    winds, the program escapes from them and comes back in once.

    ```
    (let ((b (box #f)))
      (dynamic-wind (out 1)
        (lambda () (dynamic-wind (out 2)
                     (lambda () (call/cc (lambda (k) (box-set! b k))))
                     (out 3)))
        (out 4))
      (let ((k (box-ref b))) (box-set! b #f) (if k (k 0))))
    ``` -/
def reentry : Term :=
  .app (.lam
    (.app (.lam
        (.app (.lam (.app (.lam (.ite (.var 1) (.app (.var 1) [.num 0]) (.num 9)))
                     [.app (.prim .boxSet) [.var 2, .fls]]))
          [.app (.prim .boxRef) [.var 1]]))
      [.app (.prim .dynamicWind)
        [out 1,
         .lam (.app (.prim .dynamicWind)
           [out 2,
            .lam (.app (.prim .callcc)
              [.lam (.app (.prim .boxSet) [.var 1, .var 0])]),
            out 3]),
         out 4]]))
    [.app (.prim .newBox) [.fls]]

/-- `call/cc` out of two winds. -/
def escape : Term :=
  .app (.prim .callcc) [.lam
    (.app (.prim .dynamicWind)
      [out 1,
       .lam (.app (.prim .dynamicWind)
         [out 2, .lam (.app (.var 0) [.num 7]), out 3]),
       out 4])]

/-- The numbers printed so far. -/
def Vm.printed (s : Vm) : List Nat :=
  s.out.map (fun v => match v with | .num n => n | _ => 0)

/-- Run to the end, within a number of steps. -/
def finish : Nat → Vm → Vm
  | 0, s => s
  | n + 1, s => match step s with | none => s | some s' => finish n s'

theorem finish_reach {t : Term} : ∀ (n : Nat) (s : Vm), ReachAny t s →
    ReachAny t (finish n s)
  | 0, _, h => h
  | n + 1, s, h => by
    unfold finish
    split
    · exact h
    · rename_i s' hs; exact finish_reach n s' (.step h hs)

example : (finish 200 (Vm.init reentry)).printed = [1, 2, 3, 4, 1, 2, 3, 4] := by
  rfl
example : (finish 200 (Vm.init escape)).printed = [1, 2, 3, 4] := by rfl
example : Term.noAbort reentry = true := by rfl

/-! ## the property -/

/-- **C27 (history).**  In every reachable state the history of entries and
    exits of dynamic-wind bodies is properly nested, and what it leaves open
    is exactly the chain of winds of the VM. -/
theorem C27_history {t : Term} {s : Vm} (h : Reach t s) :
    replay [] s.trace = some s.handlers := by
  obtain ⟨T, hT⟩ := reach_inv h
  exact hT.rep

/-- **C27 (context).**  Unless a continuation switch is under way, the open
    winds are those of the dynamic-wind calls the current continuation is
    inside of, innermost first. -/
theorem C27_context {t : Term} {s : Vm} (h : Reach t s)
    (hk : ∀ f ∈ s.cont, switching f = false) :
    replay [] s.trace = some (extents s.cont) := by
  obtain ⟨T, hT⟩ := reach_inv h
  rw [hT.rep, hT.inside.extents hk]

/-- **C27 (end).**  When the program returns, every extent that was entered
    has been left. -/
theorem C27_finished {t : Term} {s : Vm} {vs : List Val} (h : Reach t s)
    (_ : s.ctl = .ret vs) (hk : s.cont = []) : replay [] s.trace = some [] := by
  have := C27_context h (by rw [hk]; intro f hf; cases hf)
  rw [this, hk]; rfl

/-- **C27 (each exactly once).**  At every moment of the history an extent has
    been entered as often as left, or once more. -/
theorem C27_alternate {t : Term} {s : Vm} (h : Reach t s) {p q : List Ev}
    (hpq : s.trace = p ++ q) (i : Nat) :
    entered i p = left i p ∨ entered i p = left i p + 1 := by
  obtain ⟨T, hT⟩ := reach_inv h
  obtain ⟨c, h1, h2⟩ := prefix_wf (T := T) p q (by rw [← hpq]; exact hT.ent)
    ⟨s.handlers, by rw [← hpq]; exact hT.rep⟩
  have h3 := replay_count i p [] c h1
  rcases h2.cnt_one i with h4 | ⟨h4, _⟩ <;> (simp only [cnt] at h3; omega)

/-- **C27 (inside or outside).**  The extent has been entered once more than
    left exactly when it is one of the open winds. -/
theorem C27_inside_iff {t : Term} {s : Vm} (h : Reach t s) (i : Nat) :
    entered i s.trace = left i s.trace + 1 ↔ ∃ e ∈ s.handlers, e.id = i := by
  obtain ⟨T, hT⟩ := reach_inv h
  have h3 := replay_count i s.trace [] s.handlers hT.rep
  simp only [cnt] at h3
  constructor
  · intro h5
    rcases hT.wf.cnt_one i with h4 | ⟨_, h4⟩
    · omega
    · exact h4
  · rintro ⟨e, he, hi⟩
    rcases hT.wf.cnt_one i with h4 | ⟨h4, _⟩
    · exfalso
      have : ∀ c : Chain, e ∈ c → cnt i c ≠ 0 := by
        intro c
        induction c with
        | nil => intro h; cases h
        | cons x c ih =>
          intro hx
          unfold cnt
          rcases List.mem_cons.1 hx with rfl | hx
          · rw [if_pos hi]; omega
          · have := ih hx; omega
      exact this _ he h4
    · omega

/-- **C27 (same surroundings).**  Whenever an extent is entered again, it is
    the same wind and it is nested in the same winds as the first time. -/
theorem C27_same_place {t : Term} {s : Vm} (h : Reach t s)
    {p q p' q' : List Ev} {e e' : Entry}
    (h1 : s.trace = p ++ .enter e :: q) (h2 : s.trace = p' ++ .enter e' :: q')
    (hid : e.id = e'.id) : e = e' ∧ replay [] p = replay [] p' := by
  obtain ⟨T, hT⟩ := reach_inv h
  obtain ⟨c, h3, h4⟩ := hT.ent p e q h1
  obtain ⟨c', h5, h6⟩ := hT.ent p' e' q' h2
  rw [hid, h6] at h4
  injection h4 with h4; injection h4 with h4 h7
  exact ⟨h4.symm, by rw [h3, h5, h7]⟩

/-- **C27 (after thunks).**  Whenever an extent is left -- by a normal return,
    a continuation jump or an abort -- the next thing that happens is the call
    of its own after thunk, without arguments, in the dynamic environment
    recorded by its dynamic-wind call and with exactly the winds that were
    open when it was entered. -/
theorem C27_after {t : Term} {s u : Vm} {e : Entry} (h : Reach t s)
    (hs : step s = some u) (hl : u.trace = s.trace ++ [.leave e]) :
    u.ctl = .apply e.after [] ∧ u.denv = e.denv ∧
      ∃ p q, s.trace = p ++ .enter e :: q ∧ replay [] p = some u.handlers := by
  obtain ⟨T, hT⟩ := reach_inv h
  obtain ⟨h1, h2, h3⟩ := leave_calls hT hs hl
  refine ⟨h1, h2, ?_⟩
  rcases replay_mem s.trace [] s.handlers e hT.rep (by rw [h3]; simp) with h4 | ⟨p, q, h4⟩
  · cases h4
  · obtain ⟨c, h5, h6⟩ := hT.ent p e q h4
    refine ⟨p, q, h4, ?_⟩
    have hw := hT.wf
    rw [h3] at hw
    rw [hw.head] at h6
    injection h6 with h6; injection h6 with _ h6
    rw [h5, h6]

/-- **C27 (normal return).**  `(dynamic-wind before body after)`, called in
    any state: `before` is called in the dynamic context of the call; once it
    has returned, `body` is called with one more wind, new, made of these
    thunks and this dynamic environment; once `body` has returned values,
    that wind is closed and `after` is called in the context of the call; and
    once `after` has returned, the values of `body` are returned to the
    continuation of the call. -/
theorem C27_normal {s : Vm} {b t a : Val} (hb : b ≠ .fls)
    (hs : s.ctl = .apply (.prim .dynamicWind) [b, t, a]) :
    ∃ s1, step s = some s1 ∧
      s1.ctl = .apply b [] ∧ s1.denv = s.denv ∧ s1.handlers = s.handlers ∧
      ∀ vs1 t1, Returned s1 vs1 t1 → ∃ s2 e, step t1 = some s2 ∧
        s2.ctl = .apply t [] ∧ s2.denv = s.denv ∧
        e = ⟨t1.next, b, a, s.denv⟩ ∧ s2.handlers = e :: s.handlers ∧
        s2.trace = t1.trace ++ [.enter e] ∧
        ∀ vs2 t2, Returned s2 vs2 t2 → ∃ s3, step t2 = some s3 ∧
          s3.ctl = .apply a [] ∧ s3.denv = s.denv ∧
          s3.handlers = s.handlers ∧ s3.trace = t2.trace ++ [.leave e] ∧
          ∀ vs3 t3, Returned s3 vs3 t3 → ∃ u, step t3 = some u ∧
            u.ctl = .ret vs2 ∧ u.cont = s.cont ∧ u.denv = s.denv ∧
            u.handlers = s.handlers ∧ u.trace = t3.trace := by
  have hdw : dynamicWind s b t a = { s with
      cont := .dwBefore s.denv b t a :: s.cont, ctl := .apply b [] } := by
    unfold dynamicWind
    split
    · exact absurd rfl hb
    · rfl
  refine ⟨{ s with cont := .dwBefore s.denv b t a :: s.cont, ctl := .apply b [] },
    ?_, rfl, rfl, rfl, ?_⟩
  · unfold step; simp only [hs, applyProc, applyPrim, hdw]
  rintro vs1 t1 ⟨_, r2, r3, r4⟩
  refine ⟨dynwindBeforeCC { t1 with cont := s.cont, denv := s.denv } b t a,
    ⟨t1.next, b, a, s.denv⟩, ?_, rfl, rfl, rfl, ?_, rfl, ?_⟩
  · unfold step; simp only [r2, r3]; rfl
  · simp only [dynwindBeforeCC, pushDynamicHandlers, r4]
  rintro vs2 t2 ⟨_, q2, q3, q4⟩
  have q4' : t2.handlers = ⟨t1.next, b, a, s.denv⟩ :: s.handlers := by
    rw [q4]; simp only [dynwindBeforeCC, pushDynamicHandlers, r4]
  refine ⟨{ t2 with
      cont := .dwAfter s.denv vs2 :: s.cont
      denv := s.denv
      handlers := s.handlers
      ctl := .apply a []
      trace := t2.trace ++ [.leave ⟨t1.next, b, a, s.denv⟩] },
    ?_, rfl, rfl, rfl, rfl, ?_⟩
  · unfold step; simp only [q2, q3]
    simp [dynwindBeforeCC, pushDynamicHandlers, returnTo, dynwindBodyCC,
      popDynamicHandlers, q4', Frame.denv]
  rintro vs3 t3 ⟨_, p2, p3, p4⟩
  refine ⟨{ t3 with cont := s.cont, denv := s.denv, ctl := .ret vs2 },
    ?_, rfl, rfl, rfl, ?_, rfl⟩
  · unfold step; simp only [p2, p3]; rfl
  · exact p4

/-- **C27 (capture).**  `(call/cc f)` passes `f` a procedure that stands, for
    the rest of the run, for the continuation, the dynamic environment and the
    chain of winds of the `call/cc` call. -/
theorem C27_capture {s : Vm} {f : Val}
    (hs : s.ctl = .apply (.prim .callcc) [f]) :
    ∃ s1 i, step s = some s1 ∧ s1.ctl = .apply f [.kont i] ∧
      ∀ u, Steps s1 u → u.eps[i]? = some ⟨s.cont, s.denv, s.handlers⟩ := by
  refine ⟨callCC s f, s.eps.length, ?_, rfl, ?_⟩
  · unfold step; simp only [hs, applyProc, applyPrim]
  · intro u hu
    apply (steps_grow hu).get
    simp [callCC]

/-- **C27 (jump).**  A continuation is invoked in a reachable state.  Then the
    winds open now and the winds open when it was captured split into a common
    outer part and two private parts with no entry in common; and, if the
    thunks involved return when called, the machine calls exactly the after
    thunks of the winds to be left, innermost first, then the before thunks of
    the winds to be entered, outermost first, each once, in the dynamic
    environment and the winds of its own dynamic-wind call; and then the
    arguments are returned to the captured continuation, in its dynamic
    environment and with its winds. -/
theorem C27_jump {t : Term} {s : Vm} {i : Nat} {args : List Val} {p : EP}
    (h : Reach t s) (hs : s.ctl = .apply (.kont i) args)
    (hp : s.eps[i]? = some p) :
    ∃ a b c, s.handlers = a ++ c ∧ p.handlers = b ++ c ∧
      (∀ x ∈ a, ∀ y ∈ p.handlers, x.id ≠ y.id) ∧
      (∀ x ∈ b, ∀ y ∈ s.handlers, x.id ≠ y.id) ∧
      ∀ I : List Val → Prop, I s.store →
        (∀ k ∈ afterCalls a c ++ beforeCalls b c, Normal I k) →
        ∃ s1 u, step s = some s1 ∧
          Runs (afterCalls a c ++ beforeCalls b c) s1 u ∧
          u.ctl = .ret args ∧ u.cont = p.cont ∧ u.denv = p.denv ∧
          u.handlers = p.handlers := by
  obtain ⟨T, hT⟩ := reach_inv h
  have hw := (hT.eps p (List.mem_of_getElem? hp)).1
  obtain ⟨a, b, c, h1, h2, h3, h4⟩ := split2 hw hT.wf
  have ids : ∀ {x y : Entry} {l l' : Chain}, WF T l → WF T l' → x ∈ l → y ∈ l' →
      x.id = y.id → x = y := by
    intro x y l l' w w' hx hy hxy
    obtain ⟨d, g1, _⟩ := w.tail_eq hx
    obtain ⟨d', g2, _⟩ := w'.tail_eq hy
    rw [hxy, g2] at g1
    injection g1 with g1; injection g1 with g1 _
    exact g1.symm
  refine ⟨a, b, c, h1, h2, ?_, ?_, ?_⟩
  · intro x hx y hy hxy
    have := ids hT.wf hw (h1 ▸ List.mem_append_left _ hx) hy hxy
    exact h3 x hx (this ▸ hy)
  · intro x hx y hy hxy
    have := ids hw hT.wf (h2 ▸ List.mem_append_left _ hx) hy hxy
    exact h4 x hx (this ▸ hy)
  · intro I hI hn
    obtain ⟨s1, u, g1, g2⟩ := throw_runs I i args p a b c s h1 h2 hp hI hn
    refine ⟨s1, u, ?_, g2⟩
    unfold step
    simp only [hs, applyProc, throwContinuation, hp]
    rw [← g1]
    congr 1
    rw [h1, h2]
    rw [h1] at h4
    rw [h2] at h3
    exact calculate_eq (h2 ▸ hw) (h1 ▸ hT.wf) h3 h4

/-- **C27 (error escapes and exit).**  The C-level walks over the chain: an
    escape to an error handler (or a return from a partial continuation) makes
    the same calls as a jump, and the walk at exit or at an uncaught error
    calls all pending after thunks, innermost first. -/
theorem C27_walks {t : Term} {s : Vm} {p : EP} (h : Reach t s) (hp : p ∈ s.eps) :
    (∃ a b c, s.handlers = a ++ c ∧ p.handlers = b ++ c ∧
      (∀ x ∈ a, ∀ y ∈ p.handlers, x.id ≠ y.id) ∧
      (∀ x ∈ b, ∀ y ∈ s.handlers, x.id ≠ y.id) ∧
      (callDynamicHandlers p.handlers s.handlers).1.map
          (fun k => (⟨k.thunk, k.denv, k.chain⟩ : Calls)) =
        afterCalls a c ++ beforeCalls b c ∧
      (callDynamicHandlers p.handlers s.handlers).2 = p.handlers) ∧
    (flushHandlers s.handlers).1.map
        (fun k => (⟨k.thunk, k.denv, k.chain⟩ : Calls)) =
      afterCalls s.handlers [] ∧ (flushHandlers s.handlers).2 = [] := by
  obtain ⟨T, hT⟩ := reach_inv h
  have hw := (hT.eps p hp).1
  constructor
  · obtain ⟨a, b, c, h1, h2, h3, h4⟩ := split2 hw hT.wf
    have ids : ∀ {x y : Entry} {l l' : Chain}, WF T l → WF T l' → x ∈ l → y ∈ l' →
        x.id = y.id → x = y := by
      intro x y l l' w w' hx hy hxy
      obtain ⟨d, g1, _⟩ := w.tail_eq hx
      obtain ⟨d', g2, _⟩ := w'.tail_eq hy
      rw [hxy, g2] at g1
      injection g1 with g1; injection g1 with g1 _
      exact g1.symm
    refine ⟨a, b, c, h1, h2, ?_, ?_, ?_⟩
    · intro x hx y hy hxy
      have := ids hT.wf hw (h1 ▸ List.mem_append_left _ hx) hy hxy
      exact h3 x hx (this ▸ hy)
    · intro x hx y hy hxy
      have := ids hw hT.wf (h2 ▸ List.mem_append_left _ hx) hy hxy
      exact h4 x hx (this ▸ hy)
    · unfold callDynamicHandlers
      rw [h2] at h3
      rw [h1] at h4
      rw [h1, h2, calculate_eq (h2 ▸ hw) (h1 ▸ hT.wf) h3 h4]
      have hleft : ∀ (a : Chain) (rest : List Act) (cur : Chain), cur = a ++ c →
          callHandlers (leaves a c ++ rest) cur =
          ((afterCalls a c).map (fun k => (⟨k.thunk, k.denv, k.chain⟩ : Call)) ++
            (callHandlers rest c).1, (callHandlers rest c).2) := by
        intro a
        induction a with
        | nil => intro rest cur hc; rw [hc]; rfl
        | cons e a ih =>
          intro rest cur _
          simp only [leaves, List.cons_append, callHandlers, ih rest _ rfl, afterCalls,
            List.map_cons]
      have hright : ∀ (b : Chain) (rest : List Act),
          callHandlers (enters b c ++ rest) c =
          ((beforeCalls b c).map (fun k => (⟨k.thunk, k.denv, k.chain⟩ : Call)) ++
            (callHandlers rest (b ++ c)).1, (callHandlers rest (b ++ c)).2) := by
        intro b
        induction b with
        | nil => intro rest; rfl
        | cons e b ih =>
          intro rest
          simp only [enters, beforeCalls, List.append_assoc, ih]
          simp only [List.cons_append, List.nil_append, callHandlers, beforeCall]
          cases e.before <;> simp [callHandlers]
      have := hright b []
      rw [List.append_nil] at this
      rw [hleft a _ _ rfl, this]
      simp [callHandlers, Function.comp_def]
  · generalize s.handlers = c
    induction c with
    | nil => exact ⟨rfl, rfl⟩
    | cons e c ih =>
      simp only [flushHandlers, List.map_cons, ih.1, ih.2, afterCalls,
        List.append_nil, and_self]

/-- **C27 (scope).**  The runs of a program that does not use
    `abort-current-continuation` are all covered by the theorems above. -/
theorem C27_all_runs {t : Term} (ht : Term.noAbort t = true) {s : Vm}
    (h : ReachAny t s) : Reach t s := (noAbort_reach ht h).1

/-! ## non-vacuity -/

/-- A reachable state in the middle of `reentry` with two open winds. -/
example : ∃ s, Reach reentry s ∧ s.handlers.length = 2 ∧ s.printed = [1, 2] :=
  ⟨finish 55 (Vm.init reentry),
   C27_all_runs rfl (finish_reach _ _ .init), by rfl, by rfl⟩

/-- The state of `reentry` that invokes the continuation from outside: two
    winds to enter. -/
example : ∃ s i args p, Reach reentry s ∧ s.ctl = .apply (.kont i) args ∧
    s.eps[i]? = some p ∧ s.handlers.length = 0 ∧ p.handlers.length = 2 := by
  have key : ∃ n i args p, (finish n (Vm.init reentry)).ctl = .apply (.kont i) args ∧
      (finish n (Vm.init reentry)).eps[i]? = some p ∧
      (finish n (Vm.init reentry)).handlers.length = 0 ∧ p.handlers.length = 2 :=
    ⟨119, 0, _, _, by rfl, by rfl, by rfl, by rfl⟩
  obtain ⟨n, i, args, p, h1, h2, h3, h4⟩ := key
  exact ⟨_, i, args, p, C27_all_runs rfl (finish_reach n _ .init), h1, h2, h3, h4⟩

/-- States without a throw in progress satisfy `AbortOk`. -/
theorem calm_ok {s : Vm} (h : s.cont.all (fun f => !throwing f) = true) :
    AbortOk s := by
  intro tag args _ pre d hh hs k hk _ f hf
  have := List.all_eq_true.1 h f (by rw [hk]; exact List.mem_append_left _ hf)
  simpa using this

/-- A program that aborts out of two winds.

    ```
    (call-with-continuation-prompt
      (lambda () (dynamic-wind (out 1)
         (lambda () (dynamic-wind (out 2)
                       (lambda () (abort-current-continuation tag)) (out 3)))
         (out 4)))
      tag (lambda () 9))
    ``` -/
def aborting : Term :=
  .app (.prim .callPrompt)
    [.lam (.app (.prim .dynamicWind)
      [out 1,
       .lam (.app (.prim .dynamicWind)
         [out 2, .lam (.app (.prim .abort) [.num 7]), out 3]),
       out 4]), .num 7, .lam (.num 9)]

/-- Its whole run is covered. -/
example : ∃ s, Reach aborting s ∧ s.cont.length = 0 ∧ s.printed = [1, 2, 3, 4] := by
  have key : ∀ n, n ≤ 110 → Reach aborting (finish n (Vm.init aborting)) := by
    have fin_succ : ∀ n s, finish (n + 1) s =
        (match step (finish n s) with | none => finish n s | some u => u) := by
      intro n
      induction n with
      | zero => intro s; simp only [finish]
      | succ n ih =>
        intro s
        rw [finish]
        cases hs : step s with
        | none => simp only [finish, hs]
        | some u => simp only [finish, hs]; rw [← ih u, finish]
    intro n
    induction n with
    | zero => intro _; exact .init
    | succ n ih =>
      intro hn
      have h1 := ih (by omega)
      rw [fin_succ]
      cases hs : step (finish n (Vm.init aborting)) with
      | none => exact h1
      | some u =>
        refine .step h1 (calm_ok ?_) hs
        have all : ∀ m, m < 110 →
            (finish m (Vm.init aborting)).cont.all (fun f => !throwing f) = true := by
          decide +kernel
        exact all n (by omega)
  exact ⟨_, key 110 (by omega), by rfl, by rfl⟩

/-- A thunk that prints is `Normal`. -/
theorem out_normal (n : Nat) (d : List (Val × Val)) (c : Chain) (env : List Val) :
    Normal (fun _ => True)
      ⟨.clo (.app (.prim .emit) [.num n]) env, d, c⟩ := by
  intro s h1 h2 h3 _
  let F0 := Frame.arg s.denv [] [.num n] env
  let F1 := Frame.arg s.denv [.prim .emit] [] env
  refine ⟨[.undef], { s with ctl := .ret [.undef], out := s.out ++ [.num n] },
    ⟨?_, rfl, rfl, rfl⟩, trivial⟩
  have a1 : step s = some { s with ctl := .eval (.app (.prim .emit) [.num n]) env } := by
    unfold step; simp only [h1]; rfl
  refine .tail (.tail (.tail (.tail (.tail (.tail (.tail (.refl s) a1)
    (u := { s with ctl := .eval (.prim .emit) env, cont := F0 :: s.cont }) rfl)
    (u := { s with ctl := .ret [.prim .emit], cont := F0 :: s.cont }) rfl)
    (u := { s with ctl := .eval (.num n) env, cont := F1 :: s.cont }) rfl)
    (u := { s with ctl := .ret [.num n], cont := F1 :: s.cont }) rfl)
    (u := { s with ctl := .apply (.prim .emit) [.num n] }) rfl) rfl

/-! ## a disagreement -/

/-- `abort-current-continuation` inside an after thunk run by a jump.

    ```
    (call/cc (lambda (k0)
      (dynamic-wind (lambda () 0)
        (lambda () (call-with-continuation-prompt (lambda () (k0 5)) tag
                                                  (lambda () 9)))
        (lambda () (abort-current-continuation tag)))))
    ``` -/
def abortInAfter : Term :=
  .app (.prim .callcc) [.lam
    (.app (.prim .dynamicWind)
      [.lam (.num 0),
       .lam (.app (.prim .callPrompt)
         [.lam (.app (.var 0) [.num 5]), .num 7, .lam (.num 9)]),
       .lam (.app (.prim .abort) [.num 7])])]

/-- **C27 (finding).**  During a jump the frames of the abandoned continuation
    are still searched for prompts.  An after thunk that aborts to a prompt
    inside its own dynamic-wind body resumes that body although the extent has
    already been left: the wind's frame is returned to with an empty chain,
    and `pop_dynamic_handlers` fails its assertion. -/
theorem C27_bug_abort : ∃ s vs d e a k, ReachAny abortInAfter s ∧
    s.ctl = .ret vs ∧ s.cont = .dwBody d e a :: k ∧ s.handlers = [] ∧
    step s = none := by
  have key : ∃ vs d e a k,
      (finish 200 (Vm.init abortInAfter)).ctl = .ret vs ∧
      (finish 200 (Vm.init abortInAfter)).cont = .dwBody d e a :: k ∧
      (finish 200 (Vm.init abortInAfter)).handlers = [] ∧
      step (finish 200 (Vm.init abortInAfter)) = none :=
    ⟨_, _, _, _, _, by rfl, by rfl, by rfl, by rfl⟩
  obtain ⟨vs, d, e, a, k, h1, h2, h3, h4⟩ := key
  exact ⟨_, vs, d, e, a, k, finish_reach 200 _ .init, h1, h2, h3, h4⟩

end Gauche.DynWind

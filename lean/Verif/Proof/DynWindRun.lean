import Verif.Proof.DynWind
/-!
# Runs of the dynamic-wind model
-/

namespace Gauche.DynWind
open Spec

/-! ## escape points are never changed -/

def Grow (s u : Vm) : Prop := ∃ more, u.eps = s.eps ++ more

theorem Grow.same {s u : Vm} (h : u.eps = s.eps) : Grow s u :=
  ⟨[], by rw [h, List.append_nil]⟩

theorem Grow.trans {s t u : Vm} (h : Grow s t) (h' : Grow t u) : Grow s u := by
  obtain ⟨a, ha⟩ := h
  obtain ⟨b, hb⟩ := h'
  exact ⟨a ++ b, by rw [hb, ha, List.append_assoc]⟩

theorem throwContBody_eps {vm u : Vm} {hd : List Act} {ep : Nat}
    {args : List Val} (h : throwContBody vm hd ep args = some u) :
    u.eps = vm.eps := by
  unfold throwContBody at h
  split at h
  · cases h
  · injection h with h; subst h; rfl
  · injection h with h; subst h; unfold vmCallBefore; split <;> rfl
  · split at h
    · cases h
    · injection h with h; subst h; rfl

theorem vmAbortBody_eps {vm u : Vm} {hd : Val} {args : List Val}
    (h : vmAbortBody vm hd args = some u) : u.eps = vm.eps := by
  unfold vmAbortBody at h
  split at h
  · injection h with h; subst h; rfl
  · cases h
  · injection h with h; subst h; rfl

theorem vmAbortCC_eps {vm u : Vm} {k : List Frame} {args : List Val}
    (h : vmAbortCC vm k args = some u) : u.eps = vm.eps := by
  unfold vmAbortCC at h
  split at h
  · split at h
    · exact vmAbortBody_eps h
    · split at h
      · exact vmAbortBody_eps h
      · rename_i hc _
        simp only [popDynamicHandlers, hc, Option.some.injEq] at h
        subst h; rfl
  · cases h

theorem step_grow {s u : Vm} (h : step s = some u) : Grow s u := by
  unfold step at h
  split at h
  · unfold evalTerm at h
    split at h <;> (injection h with h; subst h; exact .same rfl)
  · unfold applyProc at h
    split at h
    · injection h with h; subst h; exact .same rfl
    · unfold applyPrim at h
      split at h
      all_goals first
        | (injection h with h; subst h
           first
            | exact .same rfl
            | exact ⟨_, rfl⟩
            | (unfold dynamicWind; split <;> exact .same rfl))
        | cases h
        | (unfold abortCurrent at h
           split at h
           · cases h
           · cases h
           · exact .same ((vmAbortCC_eps h).trans rfl))
    · unfold throwContinuation at h
      split at h
      · cases h
      · exact .same ((throwContBody_eps h).trans rfl)
    · cases h
  · split at h
    · cases h
    · rename_i f k hk
      cases f with
      | arg d done rest env =>
        simp only [returnTo] at h
        split at h <;> first | (injection h with h; subst h; exact .same rfl) | cases h
      | br => simp only [returnTo, Option.some.injEq] at h; subst h; exact .same rfl
      | dwBefore => simp only [returnTo, Option.some.injEq] at h; subst h; exact .same rfl
      | dwBody =>
        simp only [returnTo, dynwindBodyCC, popDynamicHandlers] at h
        split at h
        · cases h
        · rename_i h'
          split at h'
          · cases h'
          · injection h with h; injection h' with h'
            obtain ⟨h1, h2⟩ := Prod.mk.inj h'
            subst h1; subst h
            exact .same rfl
      | dwAfter => simp only [returnTo, Option.some.injEq] at h; subst h; exact .same rfl
      | prompt => simp only [returnTo, Option.some.injEq] at h; subst h; exact .same rfl
      | throwCC d rest ep args chain =>
        simp only [returnTo, throwContCC] at h
        split at h
        · exact .same ((throwContBody_eps h).trans rfl)
        · cases h
        · exact .same ((throwContBody_eps h).trans rfl)
      | abortCC =>
        simp only [returnTo] at h
        exact .same ((vmAbortCC_eps h).trans rfl)

theorem steps_grow {s u : Vm} (h : Steps s u) : Grow s u := by
  induction h with
  | refl => exact .same rfl
  | tail _ h ih => exact ih.trans (step_grow h)

theorem Grow.get {s u : Vm} (h : Grow s u) {i : Nat} {p : EP}
    (hp : s.eps[i]? = some p) : u.eps[i]? = some p := by
  obtain ⟨m, hm⟩ := h
  rw [hm, List.getElem?_append_left (List.getElem?_eq_some_iff.1 hp).1, hp]

/-! ## the throw, thunk by thunk -/

theorem Runs.silentOne {l : List Calls} {s t u : Vm} {vs : List Val}
    (h : s.ctl = .ret vs) (hs : step s = some t) (hr : Runs l t u) :
    Runs l s u := .silent h hs hr

/-- The remaining work of a throw, all thunks returning. -/
theorem throw_runs (I : List Val → Prop) (ep : Nat) (args : List Val)
    (p : EP) : ∀ (a b c : Chain) (vm : Vm),
    vm.handlers = a ++ c → p.handlers = b ++ c →
    vm.eps[ep]? = some p → I vm.store →
    (∀ k ∈ afterCalls a c ++ beforeCalls b c, Normal I k) →
    ∃ s1 u, throwContBody vm (leaves a c ++ enters b c) ep args = some s1 ∧
      Runs (afterCalls a c ++ beforeCalls b c) s1 u ∧
      u.ctl = .ret args ∧ u.cont = p.cont ∧ u.denv = p.denv ∧
      u.handlers = p.handlers := by
  -- first the befores, by induction on the outermost end
  have hb : ∀ (n : Nat) (b c : Chain) (vm : Vm), b.length = n →
      vm.handlers = c → p.handlers = b ++ c →
      vm.eps[ep]? = some p → I vm.store →
      (∀ k ∈ beforeCalls b c, Normal I k) →
      ∃ s1 u, throwContBody vm (enters b c) ep args = some s1 ∧
        Runs (beforeCalls b c) s1 u ∧
        u.ctl = .ret args ∧ u.cont = p.cont ∧ u.denv = p.denv ∧
        u.handlers = p.handlers := by
    have split_last : ∀ (b : Chain) (x : Entry) (c : Chain),
        enters (b ++ [x]) c = (true, x :: c) :: enters b (x :: c) ∧
        beforeCalls (b ++ [x]) c = beforeCall x c ++ beforeCalls b (x :: c) := by
      intro b x c
      induction b with
      | nil => simp [enters, beforeCalls]
      | cons y b ih =>
        simp only [List.cons_append, enters, beforeCalls, ih.1, ih.2]
        simp
    intro n
    induction n with
    | zero =>
      intro b c vm hn hh hp he hI _
      have : b = [] := List.length_eq_zero_iff.1 hn
      subst this
      refine ⟨{ vm with cont := p.cont, denv := p.denv, ctl := .ret args },
        _, ?_, .done _, rfl, rfl, rfl, ?_⟩
      · simp [enters, throwContBody, he]
      · rw [show p.handlers = c from hp]; exact hh
    | succ n ih =>
      intro b c vm hn hh hp he hI hnorm
      rcases List.eq_nil_or_concat b with rfl | ⟨b', x, hb'⟩
      · simp at hn
      rw [List.concat_eq_append] at hb'
      subst hb'
      obtain ⟨e1, e2⟩ := split_last b' x c
      rw [e2] at hnorm
      rw [e1, e2]
      let F : Frame := .throwCC vm.denv (enters b' (x :: c)) ep args (some (x :: c))
      let v1 : Vm := { vm with cont := F :: vm.cont }
      -- after the before thunk has returned in state `t`
      have next : ∀ (t : Vm) (vs : List Val), t.ctl = .ret vs →
          t.cont = F :: vm.cont → t.handlers = c → I t.store →
          t.eps[ep]? = some p →
          ∃ s2 u, step t = some s2 ∧ Runs (beforeCalls b' (x :: c)) s2 u ∧
            u.ctl = .ret args ∧ u.cont = p.cont ∧ u.denv = p.denv ∧
            u.handlers = p.handlers := by
        intro t vs h1 h2 h3 h4 h5
        obtain ⟨s2, u, g1, g2⟩ := ih b' (x :: c)
          { t with cont := vm.cont, denv := F.denv, handlers := x :: c,
                   trace := t.trace ++ [.enter x] }
          (by simp at hn; exact hn) rfl (by rw [hp]; simp) h5 h4
          (fun k hk => hnorm k (List.mem_append_right _ hk))
        refine ⟨s2, u, ?_, g2⟩
        unfold step
        simp only [h1, h2]
        exact g1
      by_cases hf : x.before = .fls
      · have hbc : beforeCall x c = [] := by unfold beforeCall; rw [hf]
        obtain ⟨s2, u, g1, g2, g3⟩ := next
          { v1 with denv := x.denv, ctl := .ret [.undef] } [.undef] rfl rfl hh hI he
        refine ⟨{ v1 with denv := x.denv, ctl := .ret [.undef] }, u, ?_, ?_, g3⟩
        · simp only [throwContBody, vmCallBefore, hf]
          rfl
        · rw [hbc, List.nil_append]
          exact .silent rfl g1 g2
      · have hbc : beforeCall x c = [⟨x.before, x.denv, c⟩] := by
          unfold beforeCall
          split
          · exact absurd ‹_› hf
          · rfl
        have hcb : vmCallBefore v1 x = { v1 with denv := x.denv, ctl := .apply x.before [] } := by
          unfold vmCallBefore
          split
          · exact absurd ‹_› hf
          · rfl
        obtain ⟨vs, t, ⟨r1, r2, r3, r4⟩, r5⟩ :=
          hnorm ⟨x.before, x.denv, c⟩ (by rw [hbc]; simp)
            { v1 with denv := x.denv, ctl := .apply x.before [] } rfl rfl hh hI
        obtain ⟨s2, u, g1, g2, g3⟩ := next t vs r2 r3 (r4.trans hh) r5
          ((steps_grow r1).get he)
        refine ⟨{ v1 with denv := x.denv, ctl := .apply x.before [] }, u, ?_, ?_, g3⟩
        · simp only [throwContBody]
          rw [show vmCallBefore _ x = vmCallBefore v1 x from rfl, hcb]
        · rw [hbc]
          exact .call rfl rfl hh ⟨r1, r2, r3, r4⟩ g1 g2
  intro a
  induction a with
  | nil =>
    intro b c vm hh hp he hI hn
    exact hb b.length b c vm rfl hh hp he hI hn
  | cons e a ih =>
    intro b c vm hh hp he hI hn
    let F : Frame := .throwCC vm.denv (leaves a c ++ enters b c) ep args none
    let v1 : Vm := { vm with
      cont := F :: vm.cont,
      handlers := a ++ c,
      trace := vm.trace ++ [.leave e],
      denv := e.denv,
      ctl := .apply e.after [] }
    obtain ⟨vs, t, ⟨r1, r2, r3, r4⟩, r5⟩ :=
      hn ⟨e.after, e.denv, a ++ c⟩ (by simp [afterCalls]) v1 rfl rfl rfl hI
    obtain ⟨s2, u, g1, g2, g3⟩ := ih b c
      { t with cont := vm.cont, denv := F.denv } r4 hp
      ((steps_grow r1).get he) r5
      (fun k hk => hn k (by simp only [afterCalls, List.cons_append]; exact List.mem_cons_of_mem _ hk))
    refine ⟨v1, u, rfl, ?_, g3⟩
    refine Runs.call (l := afterCalls a c ++ beforeCalls b c) rfl rfl rfl
      ⟨r1, r2, r3, r4⟩ (t' := s2) ?_ g2
    unfold step
    simp only [r2, r3]
    exact g1

/-! ## histories -/

theorem replay_mem : ∀ (tr : List Ev) (c0 c : Chain) (e : Entry),
    replay c0 tr = some c → e ∈ c → e ∈ c0 ∨ ∃ p q, tr = p ++ .enter e :: q
  | [], c0, c, e, h, hm => by
    simp only [replay, Option.some.injEq] at h; subst h; exact .inl hm
  | .enter x :: tr, c0, c, e, h, hm => by
    rcases replay_mem tr (x :: c0) c e h hm with h1 | ⟨p, q, h1⟩
    · rcases List.mem_cons.1 h1 with rfl | h1
      · exact .inr ⟨[], tr, rfl⟩
      · exact .inl h1
    · exact .inr ⟨.enter x :: p, q, by rw [h1]; rfl⟩
  | .leave x :: tr, c0, c, e, h, hm => by
    cases c0 with
    | nil => simp [replay] at h
    | cons y c0 =>
      simp only [replay] at h
      by_cases hy : y.id = x.id
      · rw [if_pos hy] at h
        rcases replay_mem tr c0 c e h hm with h1 | ⟨p, q, h1⟩
        · exact .inl (List.mem_cons_of_mem _ h1)
        · exact .inr ⟨.leave x :: p, q, by rw [h1]; rfl⟩
      · rw [if_neg hy] at h; cases h

def cnt (i : Nat) : Chain → Nat
  | [] => 0
  | e :: c => (if e.id = i then 1 else 0) + cnt i c

theorem replay_count (i : Nat) : ∀ (tr : List Ev) (c0 c : Chain),
    replay c0 tr = some c → entered i tr + cnt i c0 = left i tr + cnt i c
  | [], c0, c, h => by
    simp only [replay, Option.some.injEq] at h; subst h; simp [entered, left]
  | .enter x :: tr, c0, c, h => by
    have := replay_count i tr (x :: c0) c h
    simp only [entered, left, cnt] at *
    omega
  | .leave x :: tr, c0, c, h => by
    cases c0 with
    | nil => simp [replay] at h
    | cons y c0 =>
      simp only [replay] at h
      by_cases hy : y.id = x.id
      · rw [if_pos hy] at h
        have := replay_count i tr c0 c h
        simp only [entered, left, cnt, hy] at *
        omega
      · rw [if_neg hy] at h; cases h

theorem WF.cnt_one {T : Tree} {c : Chain} (w : WF T c) (i : Nat) :
    cnt i c = 0 ∨ (cnt i c = 1 ∧ ∃ e ∈ c, e.id = i) := by
  induction w with
  | nil => exact .inl rfl
  | @cons e c h1 hw ih =>
    unfold cnt
    by_cases hi : e.id = i
    · rw [if_pos hi]
      rcases ih with h | ⟨_, x, hx, hxi⟩
      · exact .inr ⟨by omega, e, by simp, hi⟩
      · exfalso
        obtain ⟨d, h2, h3⟩ := hw.tail_eq hx
        rw [hxi, ← hi, h1] at h2
        injection h2 with h2; injection h2 with h2 h4
        subst h2
        exact (WF.cons h1 hw).length_lt hx
    · rw [if_neg hi]
      rcases ih with h | ⟨h, x, hx, hxi⟩
      · exact .inl (by omega)
      · exact .inr ⟨by omega, x, List.mem_cons_of_mem _ hx, hxi⟩

theorem cnt_zero {i : Nat} : ∀ {c : Chain}, (∀ e ∈ c, e.id ≠ i) → cnt i c = 0
  | [], _ => rfl
  | e :: c, h => by
    unfold cnt
    rw [if_neg (h e (by simp)), cnt_zero (fun x hx => h x (List.mem_cons_of_mem _ hx))]

/-- Every moment of the history has a well formed chain. -/
theorem prefix_wf {T : Tree} : ∀ (p q : List Ev),
    (∀ x e y, p ++ q = x ++ .enter e :: y →
      ∃ c, replay [] x = some c ∧ T e.id = some (e, c)) →
    (∃ c, replay [] (p ++ q) = some c) →
    ∃ c, replay [] p = some c ∧ WF T c := by
  intro p
  generalize hn : p.length = n
  induction n generalizing p with
  | zero =>
    intro q _ _
    have : p = [] := List.length_eq_zero_iff.1 hn
    subst this
    exact ⟨[], rfl, .nil⟩
  | succ n ih =>
    intro q he hr
    rcases List.eq_nil_or_concat p with rfl | ⟨p', x, hp'⟩
    · simp at hn
    rw [List.concat_eq_append] at hp'
    subst hp'
    have hq : p' ++ [x] ++ q = p' ++ (x :: q) := by simp
    rw [hq] at he hr
    obtain ⟨c, h1, h2⟩ := ih p' (by simp at hn; exact hn) (x :: q) he hr
    rw [replay_append, h1]
    rw [replay_append, h1] at hr
    cases x with
    | enter e =>
      obtain ⟨c', h3, h4⟩ := he p' e q rfl
      rw [h1] at h3
      injection h3 with h3; subst h3
      exact ⟨e :: c, rfl, .cons h4 h2⟩
    | leave e =>
      obtain ⟨cf, hf⟩ := hr
      cases c with
      | nil => simp [replay] at hf
      | cons y c =>
        simp only [Option.bind_some, replay] at hf ⊢
        by_cases hy : y.id = e.id
        · rw [if_pos hy]; exact ⟨c, rfl, h2.tail⟩
        · rw [if_neg hy] at hf; cases hf

/-! ## continuation and chain -/

theorem Inside.extents {T : Tree} {eps : List EP} {k : List Frame} {c : Chain}
    (w : Inside T eps k c) : (∀ f ∈ k, switching f = false) →
    c = Spec.extents k := by
  induction w with
  | nil => intro _; rfl
  | arg _ ih => intro h; exact ih (fun f hf => h f (List.mem_cons_of_mem _ hf))
  | br _ ih => intro h; exact ih (fun f hf => h f (List.mem_cons_of_mem _ hf))
  | dwBefore _ ih => intro h; exact ih (fun f hf => h f (List.mem_cons_of_mem _ hf))
  | dwAfter _ ih => intro h; exact ih (fun f hf => h f (List.mem_cons_of_mem _ hf))
  | dwBody _ _ ih =>
    intro h
    rw [Spec.extents, ← ih (fun f hf => h f (List.mem_cons_of_mem _ hf))]
  | prompt _ ih => intro h; exact ih (fun f hf => h f (List.mem_cons_of_mem _ hf))
  | throwA => intro h; exact absurd (h _ (List.mem_cons_self ..)) (by simp [switching])
  | throwB => intro h; exact absurd (h _ (List.mem_cons_self ..)) (by simp [switching])
  | abort => intro h; exact absurd (h _ (List.mem_cons_self ..)) (by simp [switching])

/-- A step that leaves an extent calls its after thunk. -/
theorem leave_calls {T : Tree} {s u : Vm} {e : Entry} (h : Inv T s)
    (hs : step s = some u) (ht : u.trace = s.trace ++ [.leave e]) :
    u.ctl = .apply e.after [] ∧ u.denv = e.denv ∧
      s.handlers = e :: u.handlers := by
  have nogrow : u.trace ≠ s.trace := by
    rw [ht]; intro hx
    have := congrArg List.length hx
    simp at this
  have body : ∀ (vm : Vm) (hd : List Act) (ep : Nat) (args : List Val),
      InvT T vm hd ep → throwContBody vm hd ep args = some u →
      u.trace = vm.trace ++ [.leave e] →
      u.ctl = .apply e.after [] ∧ u.denv = e.denv ∧
        vm.handlers = e :: u.handlers := by
    intro vm hd ep args hi hb htr
    obtain ⟨p, hp, hpath⟩ := hi.path
    have hne : u.trace ≠ vm.trace := by
      rw [htr]; intro hx
      have := congrArg List.length hx
      simp at this
    generalize hg : vm.handlers = c at hpath
    cases hpath with
    | nil =>
      simp only [throwContBody, hp, Option.some.injEq] at hb
      subst hb; exact absurd rfl hne
    | @leave x c0 _ _ hq =>
      simp only [throwContBody, Option.some.injEq] at hb
      subst hb
      have : [Ev.leave x] = [Ev.leave e] := List.append_cancel_left htr
      injection this with this; injection this with this; subst this
      exact ⟨rfl, rfl, rfl⟩
    | enter hw hq =>
      simp only [throwContBody, Option.some.injEq] at hb
      subst hb
      exact absurd (by unfold vmCallBefore; split <;> rfl) hne
  have abortB : ∀ (vm : Vm) (hd : Val) (args : List Val),
      vmAbortBody vm hd args = some u → u.trace = vm.trace := by
    intro vm hd args hb
    unfold vmAbortBody at hb
    split at hb
    · injection hb with hb; subst hb; rfl
    · cases hb
    · injection hb with hb; subst hb; rfl
  have abortC : ∀ (vm : Vm) (k : List Frame) (args : List Val),
      vmAbortCC vm k args = some u → u.trace = vm.trace ++ [.leave e] →
      u.ctl = .apply e.after [] ∧ u.denv = e.denv ∧
        vm.handlers = e :: u.handlers := by
    intro vm k args hb htr
    have hne : u.trace ≠ vm.trace := by
      rw [htr]; intro hx
      have := congrArg List.length hx
      simp at this
    unfold vmAbortCC at hb
    split at hb
    · split at hb
      · exact absurd (abortB _ _ _ hb) hne
      · rename_i x tl hc
        split at hb
        · exact absurd (abortB _ _ _ hb) hne
        · simp only [popDynamicHandlers, hc, Option.some.injEq] at hb
          subst hb
          have : [Ev.leave x] = [Ev.leave e] := List.append_cancel_left htr
          injection this with this; injection this with this; subst this
          exact ⟨rfl, rfl, hc⟩
    · cases hb
  unfold step at hs
  split at hs
  · exfalso
    unfold evalTerm at hs
    split at hs <;> (injection hs with hs; subst hs; exact nogrow rfl)
  · unfold applyProc at hs
    split at hs
    · injection hs with hs; subst hs; exact absurd rfl nogrow
    · unfold applyPrim at hs
      split at hs
      all_goals first
        | (injection hs with hs; subst hs; exact absurd rfl nogrow)
        | (cases hs; done)
        | (unfold abortCurrent at hs
           split at hs
           · cases hs
           · cases hs
           · have := abortC _ _ _ hs ht
             exact this)
        | (exfalso
           injection hs with hs; subst hs
           unfold dynamicWind at ht
           split at ht
           · have : [Ev.enter _] = [Ev.leave e] := List.append_cancel_left ht
             simp at this
           · have := congrArg List.length ht
             simp at this)
    · unfold throwContinuation at hs
      split at hs
      · cases hs
      · rename_i p hp
        have he := h.eps p (List.mem_of_getElem? hp)
        exact body s _ _ _ ⟨h.fresh, h.wf, ⟨p, hp, calculate_path he.1 h.wf⟩, h.eps, h.rep, h.ent⟩ hs ht
    · cases hs
  · split at hs
    · cases hs
    · rename_i vals _ f k hk
      have hi := h.inside
      rw [hk] at hi
      cases f with
      | arg d done rest env =>
        exfalso
        simp only [returnTo] at hs
        split at hs <;> first | (injection hs with hs; subst hs; exact nogrow rfl) | cases hs
      | br => simp only [returnTo, Option.some.injEq] at hs; subst hs; exact absurd rfl nogrow
      | dwBefore d b t a =>
        simp only [returnTo, Option.some.injEq] at hs; subst hs
        have : [Ev.enter _] = [Ev.leave e] := List.append_cancel_left ht
        simp at this
      | dwBody d x a =>
        generalize hg : s.handlers = c at hi
        cases hi with
        | @dwBody _ c _ hi h1 =>
          simp only [returnTo, dynwindBodyCC, popDynamicHandlers, hg,
            Option.some.injEq] at hs
          subst hs
          have : [Ev.leave x] = [Ev.leave e] := List.append_cancel_left ht
          injection this with this; injection this with this; subst this
          exact ⟨rfl, rfl, rfl⟩
      | dwAfter => simp only [returnTo, Option.some.injEq] at hs; subst hs; exact absurd rfl nogrow
      | prompt => simp only [returnTo, Option.some.injEq] at hs; subst hs; exact absurd rfl nogrow
      | throwCC d rest ep args chain =>
        generalize hg : s.handlers = c at hi
        cases hi with
        | @throwA _ _ _ _ _ _ p h1 h2 h3 =>
          have := body { s with cont := k, denv := d } rest ep args
            ⟨h.fresh, h.wf, ⟨p, h1, by rw [← hg] at h3; exact h3⟩, h.eps, h.rep, h.ent⟩ hs ht
          rw [← hg]; exact this
        | @throwB _ _ x _ _ _ _ p h1 h2 h3 =>
          exfalso
          -- the history gains an entry first
          have hgt : ∃ y, u.trace = (s.trace ++ [.enter x]) ++ y := by
            simp only [returnTo, throwContCC] at hs
            unfold throwContBody at hs
            split at hs
            · cases hs
            · injection hs with hs; subst hs
              exact ⟨_, rfl⟩
            · injection hs with hs; subst hs
              refine ⟨[], ?_⟩
              unfold vmCallBefore
              split <;> simp
            · split at hs
              · cases hs
              · injection hs with hs; subst hs
                exact ⟨[], by simp⟩
          obtain ⟨y, hy⟩ := hgt
          rw [ht, List.append_assoc] at hy
          have := List.append_cancel_left hy
          simp at this
      | abortCC d k' args =>
        simp only [returnTo] at hs
        have := abortC _ k' args hs ht
        exact this

end Gauche.DynWind

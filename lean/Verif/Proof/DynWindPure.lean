import Verif.Proof.DynWindRun
/-!
# Programs without `abort-current-continuation`
-/

namespace Gauche.DynWind
open Spec

inductive VOk : Val → Prop
  | undef : VOk .undef
  | fls : VOk .fls
  | num (n : Nat) : VOk (.num n)
  | prim {p : Prim} : p ≠ .abort → VOk (.prim p)
  | clo {b : Term} {env : List Val} : Term.noAbort b = true →
      (∀ v ∈ env, VOk v) → VOk (.clo b env)
  | kont (i : Nat) : VOk (.kont i)
  | box (i : Nat) : VOk (.box i)

def LOk (l : List Val) : Prop := ∀ v ∈ l, VOk v

def DOk (d : List (Val × Val)) : Prop := ∀ x ∈ d, VOk x.1 ∧ VOk x.2

def EOk (e : Entry) : Prop := VOk e.before ∧ VOk e.after ∧ DOk e.denv

def COk (c : Chain) : Prop := ∀ e ∈ c, EOk e

def AOk (l : List Act) : Prop := ∀ a ∈ l, COk a.2

inductive FOk : Frame → Prop
  | arg {d x y z} : DOk d → LOk x → Term.noAbortList y = true → LOk z →
      FOk (.arg d x y z)
  | br {d t e z} : DOk d → Term.noAbort t = true → Term.noAbort e = true →
      LOk z → FOk (.br d t e z)
  | dwBefore {d x y z} : DOk d → VOk x → VOk y → VOk z →
      FOk (.dwBefore d x y z)
  | dwBody {d e a} : DOk d → VOk a → FOk (.dwBody d e a)
  | dwAfter {d vs} : DOk d → LOk vs → FOk (.dwAfter d vs)
  | prompt {d t h hs} : DOk d → FOk (.prompt d t h hs)
  | throwCC {d rest ep args ch} : DOk d → AOk rest → LOk args →
      (∀ c, ch = some c → COk c) → FOk (.throwCC d rest ep args ch)

def KOk (k : List Frame) : Prop := ∀ f ∈ k, FOk f

def POk (p : EP) : Prop := KOk p.cont ∧ DOk p.denv ∧ COk p.handlers

inductive CtlOk : Ctl → Prop
  | eval {t env} : Term.noAbort t = true → LOk env → CtlOk (.eval t env)
  | apply {f args} : VOk f → LOk args → CtlOk (.apply f args)
  | ret {vs} : LOk vs → CtlOk (.ret vs)

structure SOk (s : Vm) : Prop where
  ctl : CtlOk s.ctl
  cont : KOk s.cont
  denv : DOk s.denv
  handlers : COk s.handlers
  eps : ∀ p ∈ s.eps, POk p
  store : LOk s.store

theorem LOk.nil : LOk [] := by intro v h; cases h
theorem LOk.cons {v l} (h : VOk v) (h' : LOk l) : LOk (v :: l) := by
  intro x hx
  rcases List.mem_cons.1 hx with rfl | hx
  · exact h
  · exact h' x hx
theorem LOk.append {l l'} (h : LOk l) (h' : LOk l') : LOk (l ++ l') := by
  intro x hx
  rcases List.mem_append.1 hx with hx | hx
  · exact h x hx
  · exact h' x hx
theorem LOk.headD {l} (h : LOk l) : VOk (l.headD .undef) := by
  cases l with
  | nil => exact .undef
  | cons a l => exact h a (by simp)
theorem LOk.getD {l} (h : LOk l) (i : Nat) : VOk (l.getD i .undef) := by
  rw [List.getD_eq_getElem?_getD]
  cases hx : l[i]? with
  | none => exact .undef
  | some v => exact h v (List.mem_of_getElem? hx)
theorem KOk.cons {f k} (h : FOk f) (h' : KOk k) : KOk (f :: k) := by
  intro x hx
  rcases List.mem_cons.1 hx with rfl | hx
  · exact h
  · exact h' x hx
theorem COk.cons {f k} (h : EOk f) (h' : COk k) : COk (f :: k) := by
  intro x hx
  rcases List.mem_cons.1 hx with rfl | hx
  · exact h
  · exact h' x hx
theorem FOk.denv {f} (h : FOk f) : DOk f.denv := by cases h <;> assumption

theorem COk.tail {e c} (h : COk (e :: c)) : COk c :=
  fun x hx => h x (List.mem_cons_of_mem _ hx)

theorem calcAfters_ok {t : Chain} : ∀ {c : Chain}, COk c → AOk (calcAfters t c)
  | [], _ => by intro a ha; cases ha
  | e :: c, h => by
    unfold calcAfters
    by_cases hm : memq e t = true
    · rw [if_pos hm]; intro a ha; cases ha
    · rw [if_neg hm]
      intro a ha
      rcases List.mem_cons.1 ha with rfl | ha
      · exact h
      · exact calcAfters_ok h.tail a ha

theorem calcBefores_ok {t : Chain} : ∀ {c : Chain} {acc : List Act}, COk c →
    AOk acc → AOk (calcBefores t acc c)
  | [], _, _, h => h
  | e :: c, acc, h, ha => by
    unfold calcBefores
    by_cases hm : memq e t = true
    · rw [if_pos hm]; exact ha
    · rw [if_neg hm]
      refine calcBefores_ok h.tail ?_
      intro a hx
      rcases List.mem_cons.1 hx with rfl | hx
      · exact h
      · exact ha a hx

theorem calculate_ok {t c : Chain} (ht : COk t) (hc : COk c) :
    AOk (calculateHandlers t c) := by
  unfold calculateHandlers
  by_cases h : sameCell t c = true
  · rw [if_pos h]; intro a ha; cases ha
  · rw [if_neg h]
    intro a ha
    rcases List.mem_append.1 ha with ha | ha
    · exact calcAfters_ok hc a ha
    · exact calcBefores_ok ht (by intro a ha; cases ha) a ha

theorem throwContBody_ok {vm u : Vm} {hd : List Act} {ep : Nat}
    {args : List Val} (hk : KOk vm.cont) (hdv : DOk vm.denv)
    (hh : COk vm.handlers) (he : ∀ p ∈ vm.eps, POk p) (hst : LOk vm.store)
    (ha : AOk hd) (hargs : LOk args)
    (h : throwContBody vm hd ep args = some u) : SOk u := by
  unfold throwContBody at h
  split at h
  · cases h
  · rename_i e tl rest
    injection h with h; subst h
    have hc := ha _ (List.mem_cons_self ..)
    have hee := hc e (by simp)
    refine ⟨.apply hee.2.1 .nil, .cons (.throwCC hdv ?_ hargs (by simp)) hk, hee.2.2,
      COk.tail hc, he, hst⟩
    exact fun a h' => ha a (List.mem_cons_of_mem _ h')
  · rename_i e tl rest
    injection h with h; subst h
    have hc := ha _ (List.mem_cons_self ..)
    have hee := hc e (by simp)
    have hf : FOk (.throwCC vm.denv rest ep args (some (e :: tl))) :=
      .throwCC hdv (fun a h' => ha a (List.mem_cons_of_mem _ h')) hargs
        (by intro c hc'; injection hc' with hc'; subst hc'; exact hc)
    unfold vmCallBefore
    split
    · exact ⟨.ret (.cons .undef .nil), .cons hf hk, hee.2.2, hh, he, hst⟩
    · exact ⟨.apply hee.1 .nil, .cons hf hk, hee.2.2, hh, he, hst⟩
  · split at h
    · cases h
    · rename_i p hp
      injection h with h; subst h
      have := he p (List.mem_of_getElem? hp)
      exact ⟨.ret hargs, this.1, this.2.1, hh, he, hst⟩

theorem findMark_ok {k : Nat} : ∀ {d : List (Val × Val)}, DOk d →
    VOk (findMark k d)
  | [], _ => .undef
  | (x, v) :: d, h => by
    have h1 := h (x, v) (by simp)
    have h2 : DOk d := fun y hy => h y (List.mem_cons_of_mem _ hy)
    unfold findMark
    split
    · rename_i heq; cases heq
    · rename_i heq
      injection heq with heq heq'
      injection heq with _ heq
      subst heq; subst heq'
      split
      · exact h1.2
      · exact findMark_ok h2
    · rename_i heq
      injection heq with _ heq'
      subst heq'
      exact findMark_ok h2

theorem dynwindBefore_ok {vm : Vm} {b t a : Val} (hk : KOk vm.cont)
    (hdv : DOk vm.denv) (hh : COk vm.handlers) (he : ∀ p ∈ vm.eps, POk p)
    (hst : LOk vm.store) (hb : VOk b) (ht : VOk t) (ha : VOk a) :
    SOk (dynwindBeforeCC vm b t a) :=
  ⟨.apply ht .nil, .cons (.dwBody hdv ha) hk, hdv, .cons ⟨hb, ha, hdv⟩ hh, he, hst⟩

theorem step_ok {s u : Vm} (h : SOk s) (hs : step s = some u) : SOk u := by
  obtain ⟨hctl, hk, hd, hh, he, hst⟩ := h
  unfold step at hs
  split at hs
  · rename_i t env hc
    rw [hc] at hctl
    cases hctl with
    | eval ht henv =>
    cases t <;> (simp only [evalTerm, Option.some.injEq] at hs; subst hs)
    · exact ⟨.ret (.cons (henv.getD _) .nil), hk, hd, hh, he, hst⟩
    · exact ⟨.ret (.cons (.num _) .nil), hk, hd, hh, he, hst⟩
    · exact ⟨.ret (.cons .fls .nil), hk, hd, hh, he, hst⟩
    · exact ⟨.ret (.cons (.prim (by simpa [Term.noAbort] using ht)) .nil), hk, hd, hh, he, hst⟩
    · exact ⟨.ret (.cons (.clo (by simpa [Term.noAbort] using ht) henv) .nil), hk, hd, hh, he, hst⟩
    · simp [Term.noAbort] at ht
      exact ⟨.eval ht.1.1 henv, .cons (.br hd ht.1.2 ht.2 henv) hk, hd, hh, he, hst⟩
    · simp [Term.noAbort] at ht
      exact ⟨.eval ht.1 henv, .cons (.arg hd .nil ht.2 henv) hk, hd, hh, he, hst⟩
  · rename_i f args hc
    rw [hc] at hctl
    cases hctl with
    | apply hf hargs =>
    unfold applyProc at hs
    split at hs
    · injection hs with hs; subst hs
      cases hf with
      | clo h1 h2 => exact ⟨.eval h1 (hargs.append h2), hk, hd, hh, he, hst⟩
    · rename_i p
      cases hf with
      | prim hp =>
      unfold applyPrim at hs
      split at hs
      · injection hs with hs; subst hs
        exact ⟨.ret hargs, hk, hd, hh, he, hst⟩
      · rename_i b t a
        injection hs with hs; subst hs
        have hb : VOk b := hargs b (by simp)
        have ht : VOk t := hargs t (by simp)
        have ha : VOk a := hargs a (by simp)
        unfold dynamicWind
        split
        · exact dynwindBefore_ok hk hd hh he hst hb ht ha
        · exact ⟨.apply hb .nil, .cons (.dwBefore hd hb ht ha) hk, hd, hh, he, hst⟩
      · rename_i f
        injection hs with hs; subst hs
        refine ⟨.apply (hargs f (by simp)) (.cons (.kont _) .nil), hk, hd, hh, ?_, hst⟩
        intro p hp
        rcases List.mem_append.1 hp with hp | hp
        · exact he p hp
        · rw [List.mem_singleton.1 hp]; exact ⟨hk, hd, hh⟩
      · rename_i t tag h
        injection hs with hs; subst hs
        exact ⟨.apply (hargs t (by simp)) .nil, .cons (.prompt hd) hk, hd, hh, he, hst⟩
      · exact absurd rfl hp
      · rename_i k v t
        injection hs with hs; subst hs
        refine ⟨.apply (hargs t (by simp)) .nil, hk, ?_, hh, he, hst⟩
        intro x hx
        rcases List.mem_cons.1 hx with rfl | hx
        · exact ⟨hargs k (by simp), hargs v (by simp)⟩
        · exact hd x hx
      · injection hs with hs; subst hs
        exact ⟨.ret (.cons (findMark_ok hd) .nil), hk, hd, hh, he, hst⟩
      · rename_i v
        injection hs with hs; subst hs
        exact ⟨.ret (.cons (.box _) .nil), hk, hd, hh, he,
          hst.append (.cons (hargs v (by simp)) .nil)⟩
      · injection hs with hs; subst hs
        exact ⟨.ret (.cons (hst.getD _) .nil), hk, hd, hh, he, hst⟩
      · rename_i i v
        injection hs with hs; subst hs
        refine ⟨.ret (.cons .undef .nil), hk, hd, hh, he, ?_⟩
        intro x hx
        rcases List.mem_or_eq_of_mem_set hx with hx | rfl
        · exact hst x hx
        · exact hargs _ (by simp)
      · injection hs with hs; subst hs
        exact ⟨.ret (.cons .undef .nil), hk, hd, hh, he, hst⟩
      · injection hs with hs; subst hs
        refine ⟨.ret (.cons ?_ .nil), hk, hd, hh, he, hst⟩
        split
        · exact .num 1
        · exact .fls
      · cases hs
    · unfold throwContinuation at hs
      split at hs
      · cases hs
      · rename_i p hp
        exact throwContBody_ok hk hd hh he hst
          (calculate_ok (he p (List.mem_of_getElem? hp)).2.2 hh) hargs hs
    · cases hs
  · rename_i vals hc
    rw [hc] at hctl
    cases hctl with
    | ret hv =>
    split at hs
    · cases hs
    · rename_i f k hkk
      rw [hkk] at hk
      have hf : FOk f := hk f (by simp)
      have hk' : KOk k := fun x hx => hk x (List.mem_cons_of_mem _ hx)
      have hfd := hf.denv
      cases hf with
      | @arg d x y z h1 h2 h3 h4 =>
        have h5 : LOk (x ++ [vals.headD .undef]) := h2.append (.cons hv.headD .nil)
        simp only [returnTo] at hs
        split at hs
        · injection hs with hs; subst hs
          simp [Term.noAbortList] at h3
          exact ⟨.eval h3.1 h4, .cons (.arg h1 h5 h3.2 h4) hk', hfd, hh, he, hst⟩
        · rename_i g args heq
          injection hs with hs; subst hs
          rw [heq] at h5
          exact ⟨.apply (h5 g (by simp)) (fun v hv => h5 v (List.mem_cons_of_mem _ hv)),
            hk', hfd, hh, he, hst⟩
        · cases hs
      | br h1 h2 h3 h4 =>
        simp only [returnTo, Option.some.injEq] at hs; subst hs
        refine ⟨.eval ?_ h4, hk', hfd, hh, he, hst⟩
        split
        · exact h2
        · exact h3
      | dwBefore h1 h2 h3 h4 =>
        simp only [returnTo, Option.some.injEq] at hs; subst hs
        exact dynwindBefore_ok hk' hfd hh he hst h2 h3 h4
      | dwBody h1 h2 =>
        cases hg : s.handlers with
        | nil => simp [returnTo, dynwindBodyCC, popDynamicHandlers, hg] at hs
        | cons e tl =>
          simp only [returnTo, dynwindBodyCC, popDynamicHandlers, hg,
            Option.some.injEq] at hs
          subst hs
          rw [hg] at hh
          exact ⟨.apply h2 .nil, .cons (.dwAfter hfd hv) hk', hfd, COk.tail hh, he, hst⟩
      | dwAfter h1 h2 =>
        simp only [returnTo, Option.some.injEq] at hs; subst hs
        exact ⟨.ret h2, hk', hfd, hh, he, hst⟩
      | prompt h1 =>
        simp only [returnTo, Option.some.injEq] at hs; subst hs
        exact ⟨.ret hv, hk', hfd, hh, he, hst⟩
      | throwCC h1 h2 h3 h4 =>
        simp only [returnTo, throwContCC] at hs
        split at hs
        · exact throwContBody_ok (vm := { s with cont := k, denv := _ })
            hk' hfd hh he hst h2 h3 hs
        · cases hs
        · exact throwContBody_ok
            (vm := { s with cont := k, denv := _, handlers := _, trace := _ })
            hk' hfd (h4 _ rfl) he hst h2 h3 hs

theorem noAbort_reach {t : Term} (ht : Term.noAbort t = true) {s : Vm}
    (h : ReachAny t s) : Reach t s ∧ SOk s := by
  induction h with
  | init =>
    exact ⟨.init, .eval ht .nil, (by intro f hf; cases hf), (by intro f hf; cases hf),
      (by intro f hf; cases hf), (by intro f hf; cases hf), .nil⟩
  | @step s u _ hs ih =>
    refine ⟨.step ih.1 ?_ hs, step_ok ih.2 hs⟩
    intro tag args hc
    have := ih.2.ctl
    rw [hc] at this
    cases this with
    | apply hf _ => cases hf with
      | prim hp => exact absurd rfl hp

end Gauche.DynWind

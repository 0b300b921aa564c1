import Verif.Proof.ListPath
/-
Proofs about list primitives: lists being built.
-/
namespace Gauche.ListPrim

open Gauche.Spec.ConsGraph

/-- The object of the last pair. -/
def lastV : List Nat → Val
  | [] => .nil
  | [a] => .pair a
  | _ :: as => lastV as

theorem lastV_snoc (as : List Nat) (a : Nat) : lastV (as ++ [a]) = .pair a := by
  induction as with
  | nil => rfl
  | cons x as ih =>
    cases as with
    | nil => rfl
    | cons y as => exact ih

/-- The list from `start` to `last` consists of pairs made after `h0`, and no pair of `h0` has changed. -/
structure Built (h0 h : Heap) (start last : Val) (fs : List Nat) : Prop where
  keeps : Keeps h0 h
  new : New h0 fs
  path : Path h start fs .nil
  last : last = lastV fs

theorem Built.init (h : Heap) : Built h h .nil .nil [] :=
  ⟨Keeps.refl h, ⟨List.nodup_nil, by simp⟩, rfl, rfl⟩

theorem keeps_cons (h : Heap) (a d : Val) : Keeps h (h.cons a d).1 := by
  refine ⟨Nat.le_succ _, fun i hi => ?_⟩
  unfold Heap.cons
  dsimp only
  rw [if_neg (by omega), if_neg (by omega)]
  exact ⟨rfl, rfl⟩

/-- Changing the cdr of a pair not on the path. -/
theorem path_setCdr {h : Heap} {p : Nat} {x : Val} {as : List Nat} : ∀ {v w : Val}, p ∉ as → Path h v as w → Path (h.setCdr p x) v as w := by
  induction as with
  | nil => intro v w _ q; exact q
  | cons a as ih =>
    rintro v w hp ⟨e, hlt, q⟩
    rw [List.mem_cons, not_or] at hp
    refine ⟨e, hlt, ?_⟩
    show Path _ (if a = p then x else h.cdr a) as w
    rw [if_neg (fun e => hp.1 e.symm)]
    exact ih hp.2 q

/-- Changing the cdr of the last pair. -/
theorem path_setLast {h : Heap} {v w x : Val} {as : List Nat} {a : Nat} (hn : (as ++ [a]).Nodup) (p : Path h v (as ++ [a]) w) :
    Path (h.setCdr a x) v (as ++ [a]) x := by
  obtain ⟨u, p1, p2⟩ := (path_append h _ _ _ _).1 p
  have hna : a ∉ as := by
    intro hm
    have := (List.nodup_append.1 hn).2.2 a hm a (by simp)
    exact this rfl
  refine (path_append _ _ _ _ _).2 ⟨u, path_setCdr hna p1, p2.1, p2.2.1, ?_⟩
  show (if a = a then x else _) = x
  rw [if_pos rfl]

theorem setCdrV_lastV (h : Heap) (as : List Nat) (a : Nat) (x : Val) : h.setCdrV (lastV (as ++ [a])) x = h.setCdr a x := by
  rw [lastV_snoc]; rfl

theorem keeps_setCdr {h0 h : Heap} (k : Keeps h0 h) {a : Nat} (ha : h0.size ≤ a) (x : Val) : Keeps h0 (h.setCdr a x) := by
  refine ⟨k.1, fun i hi => ⟨(k.2 i hi).1, ?_⟩⟩
  show (if i = a then x else h.cdr i) = _
  rw [if_neg (by omega)]
  exact (k.2 i hi).2

theorem elems_setCdr (h : Heap) (a : Nat) (x : Val) (as : List Nat) : elems (h.setCdr a x) as = elems h as := rfl

theorem eq_snoc (fs : List Nat) : fs = [] ∨ ∃ gs g, fs = gs ++ [g] := by
  rcases List.eq_nil_or_concat fs with h | ⟨gs, g, h⟩
  · exact Or.inl h
  · exact Or.inr ⟨gs, g, by rw [h, List.concat_eq_append]⟩

theorem Built.append1 {h0 h : Heap} {start last : Val} {fs : List Nat} (b : Built h0 h start last fs) (obj : Val) :
    let r := append1 h start last obj
    Built h0 r.1 r.2.1 r.2.2 (fs ++ [h.size]) ∧ Keeps h0 r.1 ∧ elems r.1 (fs ++ [h.size]) = elems h fs ++ [obj] ∧
      (∀ i < h.size, r.1.car i = h.car i) ∧ r.1.size = h.size + 1 := by
  intro r
  have hlt := path_mem b.path
  have hnot : h.size ∉ fs := fun hm => absurd (hlt _ hm) (by omega)
  have hnew : New h0 (fs ++ [h.size]) := by
    refine ⟨?_, ?_⟩
    · rw [List.nodup_append]
      refine ⟨b.new.1, List.nodup_singleton _, ?_⟩
      intro x hx y hy e
      rw [List.mem_singleton] at hy
      rw [e, hy] at hx
      exact hnot hx
    · intro a ha
      rcases List.mem_append.1 ha with ha | ha
      · exact b.new.2 a ha
      · rw [List.mem_singleton] at ha; rw [ha]; exact b.keeps.1
  have kc := keeps_cons h obj .nil
  have helems : elems (h.cons obj .nil).1 (fs ++ [h.size]) = elems h fs ++ [obj] := by
    unfold elems
    rw [List.map_append]
    congr 1
    · exact elems_keeps kc hlt
    · show [if h.size = h.size then obj else _] = [obj]
      rw [if_pos rfl]
  rcases eq_snoc fs with e | ⟨gs, g, e⟩
  · have hs : start = .nil := by have := b.path; rw [e] at this; exact this
    have hr : r = ((h.cons obj .nil).1, .pair h.size, .pair h.size) := by
      show ListPrim.append1 h start last obj = _
      unfold ListPrim.append1
      rw [hs]; rfl
    rw [hr]
    refine ⟨⟨Keeps.trans b.keeps kc, hnew, ?_, ?_⟩, Keeps.trans b.keeps kc, helems, fun i hi => (kc.2 i hi).1, rfl⟩
    · rw [e]
      refine ⟨rfl, Nat.lt_succ_self _, ?_⟩
      show (if h.size = h.size then Val.nil else _) = _
      rw [if_pos rfl]
    · rw [lastV_snoc]
  · have hs : start ≠ .nil := by
      intro e'
      have := b.path
      rw [e, e'] at this
      cases gs with
      | nil => exact absurd this.1 (by simp)
      | cons x xs => exact absurd this.1 (by simp)
    have hr : r = ((h.cons obj .nil).1.setCdr g (.pair h.size), start, .pair h.size) := by
      show ListPrim.append1 h start last obj = _
      unfold ListPrim.append1
      dsimp only
      rw [if_neg hs, b.last, e, setCdrV_lastV]; rfl
    have hg : h0.size ≤ g := b.new.2 g (by rw [e]; simp)
    have hk : Keeps h0 ((h.cons obj .nil).1.setCdr g (.pair h.size)) := keeps_setCdr (Keeps.trans b.keeps kc) hg _
    have hg' : g < h.size := hlt g (by rw [e]; simp)
    rw [hr]
    refine ⟨⟨hk, hnew, ?_, ?_⟩, hk, helems, fun i hi => (kc.2 i hi).1, rfl⟩
    · refine (path_append _ _ _ _ _).2 ⟨.pair h.size, ?_, rfl, Nat.lt_succ_self _, ?_⟩
      · rw [e]
        refine path_setLast (w := .nil) ?_ ?_
        · rw [← e]; exact b.new.1
        · rw [← e]; exact path_keeps kc b.path
      · show (if h.size = g then _ else (if h.size = h.size then Val.nil else _)) = _
        rw [if_neg (by omega), if_pos rfl]
    · rw [lastV_snoc]

/-! ### Scm_CopyList and Scm_AlistCopy -/

/-- What copying one more element does. -/
def Step (el : Heap → Val → Heap × Val) (P : Heap → List Nat → List Val → Prop) (h0 : Heap) : Prop :=
  ∀ h start last fs xs x, Built h0 h start last fs → P h fs xs → Exists h0 x →
    Built h0 (append1 (el h x).1 start last (el h x).2).1 (append1 (el h x).1 start last (el h x).2).2.1 (append1 (el h x).1 start last (el h x).2).2.2
      (fs ++ [(el h x).1.size]) ∧ P (append1 (el h x).1 start last (el h x).2).1 (fs ++ [(el h x).1.size]) (xs ++ [x])

theorem Step.keeps {h0 h : Heap} {start last : Val} {fs : List Nat} (b : Built h0 h start last fs) {a : Nat} (ha : a < h0.size) : h.cdr a = h0.cdr a ∧ h.car a = h0.car a :=
  ⟨(b.keeps.2 a ha).2, (b.keeps.2 a ha).1⟩

theorem cdrV_keeps {h0 h : Heap} (k : Keeps h0 h) {v : Val} (hv : Exists h0 v) : h.cdrV v = h0.cdrV v := by
  cases v with
  | pair a => exact (k.2 a (hv a rfl)).2
  | nil => rfl
  | atom n => rfl

theorem path_exists {h : Heap} {v w : Val} {as : List Nat} (p : Path h v as w) (hw : Exists h w) : Exists h v := by
  cases as with
  | nil => have p : v = w := p; rw [p]; exact hw
  | cons a as => intro b e; have := p.1; rw [e] at this; injection this with this; rw [this]; exact p.2.1

theorem exists_atomic {h : Heap} {t : Val} (ht : Val.Atomic t) : Exists h t := fun a e => absurd e (ht a)

theorem elems_take_succ (h : Heap) (as : List Nat) (n : Nat) (hn : n < as.length) : elems h (as.take n) ++ [h.car as[n]] = elems h (as.take (n + 1)) := by
  unfold elems
  rw [List.take_succ_eq_append_getElem hn, List.map_append]; rfl

theorem copyLoop_finite {el : Heap → Val → Heap × Val} {P : Heap → List Nat → List Val → Prop} {h0 : Heap} (hc : Closed h0) (st : Step el P h0) {v t : Val} {as : List Nat}
    (ht : Val.Atomic t) (p : Path h0 v as t) (fuel : Nat) :
    ∀ (k : Nat) (h : Heap) (start last : Val) (fs : List Nat), 2 * k ≤ as.length → as.length < 2 * k + 2 * fuel →
      Built h0 h start last fs → P h fs (elems h0 (as.take (2 * k))) →
      ∃ h' start' last' fs', copyLoop el fuel h (tl h0 (2 * k) v) (tl h0 k v) start last = .ok (h', start', last', t) ∧
        Built h0 h' start' last' fs' ∧ P h' fs' (elems h0 as) := by
  induction fuel with
  | zero => intro k h start last fs h1 h2; omega
  | succ fuel ih =>
    intro k h start last fs h1 h2 b hP
    have hsz : ∀ i (hi : i < as.length), as[i] < h0.size := fun i hi => path_mem p _ (List.getElem_mem hi)
    unfold copyLoop
    by_cases hk : 2 * k = as.length
    · have e : tl h0 (2 * k) v = t := by rw [hk]; exact path_tl p
      rw [hk, List.take_length] at hP
      rw [e]
      refine ⟨h, start, last, fs, ?_, b, hP⟩
      cases t with
      | nil => rfl
      | atom x => rfl
      | pair a => exact absurd rfl (ht a)
    · rw [tl_pair p (2 * k) (by omega)]
      dsimp only
      have hx : Exists h0 (h0.car as[2 * k]) := (hc _ (hsz _ (by omega))).1
      rw [(Step.keeps b (hsz (2 * k) (by omega))).2]
      obtain ⟨b1, P1⟩ := st h start last fs _ _ b hP hx
      rw [elems_take_succ] at P1
      generalize append1 (el h (h0.car as[2 * k])).1 start last (el h (h0.car as[2 * k])).2 = r1 at *
      generalize fs ++ [(el h (h0.car as[2 * k])).1.size] = fs1 at *
      rw [(Step.keeps b1 (hsz (2 * k) (by omega))).1]
      have e1 : h0.cdr as[2 * k] = tl h0 (2 * k + 1) v := by rw [tl_succ, tl_pair p (2 * k) (by omega)]; rfl
      rw [e1]
      by_cases hk1 : 2 * k + 1 = as.length
      · have e : tl h0 (2 * k + 1) v = t := by rw [hk1]; exact path_tl p
        rw [hk1, List.take_length] at P1
        rw [e]
        refine ⟨r1.1, r1.2.1, r1.2.2, fs1, ?_, b1, P1⟩
        cases t with
        | nil => rfl
        | atom x => rfl
        | pair a => exact absurd rfl (ht a)
      · rw [tl_pair p (2 * k + 1) (by omega)]
        dsimp only
        have hy : Exists h0 (h0.car as[2 * k + 1]) := (hc _ (hsz _ (by omega))).1
        rw [(Step.keeps b1 (hsz (2 * k + 1) (by omega))).2]
        obtain ⟨b2, P2⟩ := st r1.1 r1.2.1 r1.2.2 fs1 _ _ b1 P1 hy
        rw [elems_take_succ] at P2
        generalize append1 (el r1.1 (h0.car as[2 * k + 1])).1 r1.2.1 r1.2.2 (el r1.1 (h0.car as[2 * k + 1])).2 = r2 at *
        generalize fs1 ++ [(el r1.1 (h0.car as[2 * k + 1])).1.size] = fs2 at *
        rw [(Step.keeps b2 (hsz (2 * k + 1) (by omega))).1]
        have e2 : h0.cdr as[2 * k + 1] = tl h0 (2 * (k + 1)) v := by
          rw [show 2 * (k + 1) = 2 * k + 1 + 1 by omega, tl_succ, tl_pair p (2 * k + 1) (by omega)]; rfl
        rw [e2, cdrV_keeps b2.keeps (exists_tl hc k (path_exists p (exists_atomic ht))), ← tl_succ]
        rw [if_neg (fun e => path_tl_ne ht p (k + 1) (2 * (k + 1)) (by omega) (by omega) e.symm)]
        exact ih (k + 1) r2.1 r2.2.1 r2.2.2 fs2 (by omega) (by omega) b2 (by rw [show 2 * (k + 1) = 2 * k + 1 + 1 by omega]; exact P2)

theorem copyLoop_circular {el : Heap → Val → Heap × Val} {P : Heap → List Nat → List Val → Prop} {h0 : Heap} (hc : Closed h0) (st : Step el P h0) {v : Val}
    (hv : Exists h0 v) (c : Circular h0 v) (K : Nat) (hK : tl h0 (2 * K) v = tl h0 K v) (fuel : Nat) :
    ∀ (k : Nat) (h : Heap) (start last : Val) (fs : List Nat) (xs : List Val), k < K → K ≤ k + fuel →
      Built h0 h start last fs → P h fs xs → copyLoop el fuel h (tl h0 (2 * k) v) (tl h0 k v) start last = .error := by
  induction fuel with
  | zero => intro k h start last fs xs h1 h2; omega
  | succ fuel ih =>
    intro k h start last fs xs h1 h2 b hP
    unfold copyLoop
    obtain ⟨x, hx⟩ := circular_pairs c (2 * k)
    obtain ⟨y, hy⟩ := circular_pairs c (2 * k + 1)
    have sx : x < h0.size := exists_tl hc (2 * k) hv x hx
    have sy : y < h0.size := exists_tl hc (2 * k + 1) hv y hy
    rw [hx]
    dsimp only
    rw [(Step.keeps b sx).2]
    obtain ⟨b1, P1⟩ := st h start last fs _ _ b hP (hc _ sx).1
    generalize append1 (el h (h0.car x)).1 start last (el h (h0.car x)).2 = r1 at *
    generalize fs ++ [(el h (h0.car x)).1.size] = fs1 at *
    rw [(Step.keeps b1 sx).1]
    have e1 : h0.cdr x = .pair y := by rw [← hy, tl_succ, hx]; rfl
    rw [e1]
    dsimp only
    rw [(Step.keeps b1 sy).2]
    obtain ⟨b2, P2⟩ := st r1.1 r1.2.1 r1.2.2 fs1 _ _ b1 P1 (hc _ sy).1
    generalize append1 (el r1.1 (h0.car y)).1 r1.2.1 r1.2.2 (el r1.1 (h0.car y)).2 = r2 at *
    generalize fs1 ++ [(el r1.1 (h0.car y)).1.size] = fs2 at *
    rw [(Step.keeps b2 sy).1]
    have e2 : h0.cdr y = tl h0 (2 * (k + 1)) v := by
      rw [show 2 * (k + 1) = 2 * k + 1 + 1 by omega, tl_succ, hy]; rfl
    rw [e2, cdrV_keeps b2.keeps (exists_tl hc k hv), ← tl_succ]
    by_cases he : tl h0 (2 * (k + 1)) v = tl h0 (k + 1) v
    · rw [if_pos he]
    · rw [if_neg he]
      have : k + 1 ≠ K := fun e => he (by rw [e]; exact hK)
      exact ih (k + 1) r2.1 r2.2.1 r2.2.2 fs2 _ (by omega) (by omega) b2 P2

/-- Changing the cdr of the last pair of a list built, or nothing if there is none. -/
theorem Built.setLast {h0 h : Heap} {start last : Val} {fs : List Nat} (b : Built h0 h start last fs) (hne : fs ≠ []) (x : Val) :
    Keeps h0 (h.setCdrV last x) ∧ Path (h.setCdrV last x) start fs x ∧ elems (h.setCdrV last x) fs = elems h fs := by
  rcases eq_snoc fs with e | ⟨gs, g, e⟩
  · exact absurd e hne
  · have e1 : h.setCdrV last x = h.setCdr g x := by rw [b.last, e, setCdrV_lastV]
    rw [e1]
    refine ⟨keeps_setCdr b.keeps (b.new.2 g (by rw [e]; simp)) x, ?_, rfl⟩
    have := b.path
    have hn := b.new.1
    rw [e] at this hn ⊢
    exact path_setLast hn this

theorem step_copy (h0 : Heap) : Step (fun h x => (h, x)) (fun h fs xs => elems h fs = xs) h0 := by
  intro h start last fs xs x b hP _
  obtain ⟨h1, _, h2, _⟩ := b.append1 x
  exact ⟨h1, by rw [← hP]; exact h2⟩

theorem elems_length (h : Heap) (as : List Nat) : (elems h as).length = as.length := List.length_map _

theorem copyList_finite {h : Heap} (hc : Closed h) {v t : Val} {as : List Nat} (ht : Val.Atomic t) (p : Path h v as t) (fuel : Nat) (hf : h.size < fuel) :
    ∃ h' v' fs, copyList fuel h v = .ok (h', v') ∧ Keeps h h' ∧ New h fs ∧ Path h' v' fs t ∧ elems h' fs = elems h as := by
  cases as with
  | nil =>
    have p : v = t := p
    subst p
    refine ⟨h, v, [], ?_, Keeps.refl h, ⟨List.nodup_nil, by simp⟩, rfl, rfl⟩
    cases v with
    | nil => rfl
    | atom x => rfl
    | pair a => exact absurd rfl (ht a)
  | cons a as =>
    have hl := path_len ht p
    obtain ⟨h', start', last', fs', e, b, hP⟩ := copyLoop_finite hc (step_copy h) ht p fuel 0 h .nil .nil [] (by omega) (by omega) (Built.init h) rfl
    have ev : v = .pair a := p.1
    have hne : fs' ≠ [] := by
      intro e0
      have := congrArg List.length hP
      rw [elems_length, elems_length, e0] at this
      simp at this
    have hcl : copyList fuel h v = .ok (if t = .nil then h' else h'.setCdrV last' t, start') := by
      unfold copyList
      rw [ev] at e ⊢
      dsimp only
      have e : copyLoop (fun h x => (h, x)) fuel h (.pair a) (.pair a) .nil .nil = _ := e
      rw [e]
    rw [hcl]
    by_cases htn : t = .nil
    · rw [if_pos htn]
      refine ⟨h', start', fs', rfl, b.keeps, b.new, ?_, hP⟩
      rw [htn]; exact b.path
    · rw [if_neg htn]
      obtain ⟨k1, k2, k3⟩ := b.setLast hne t
      exact ⟨_, start', fs', rfl, k1, b.new, k2, by rw [k3]; exact hP⟩

theorem copyList_circular {h : Heap} (hc : Closed h) {v : Val} (hv : Exists h v) (c : Circular h v) (fuel : Nat) (hf : h.size < fuel) :
    copyList fuel h v = .error := by
  obtain ⟨K, h1, h2, h3⟩ := circular_meet hc hv c
  have e := copyLoop_circular hc (step_copy h) hv c K h3 fuel 0 h .nil .nil [] [] (by omega) (by omega) (Built.init h) rfl
  obtain ⟨a, ha⟩ := circular_pairs c 0
  have ha : v = .pair a := ha
  unfold copyList
  rw [ha] at e ⊢
  dsimp only
  have e : copyLoop (fun h x => (h, x)) fuel h (.pair a) (.pair a) .nil .nil = .error := e
  rw [e]

/-! ### Scm_AlistCopy -/

theorem append1_cdr (h : Heap) (start last obj : Val) (i : Nat) (hi : i < h.size) (hl : last ≠ .pair i) : (append1 h start last obj).1.cdr i = h.cdr i := by
  unfold append1
  have e : (h.cons obj .nil).1.cdr i = h.cdr i := ((keeps_cons h obj .nil).2 i hi).2
  dsimp only
  by_cases hs : start = .nil
  · rw [if_pos hs]; exact e
  · rw [if_neg hs]
    cases last with
    | nil => exact e
    | atom n => exact e
    | pair a =>
      show (if i = a then _ else (h.cons obj .nil).1.cdr i) = _
      rw [if_neg (fun e => hl (by rw [e]))]
      exact e

theorem lastV_mem (fs : List Nat) (a : Nat) (e : lastV fs = .pair a) : a ∈ fs := by
  rcases eq_snoc fs with h | ⟨gs, g, h⟩
  · rw [h] at e; simp [lastV] at e
  · rw [h, lastV_snoc] at e
    injection e with e
    rw [h, ← e]; simp

/-- The state of Scm_AlistCopy. -/
def EntryInv (h0 h : Heap) (fs : List Nat) (xs : List Val) : Prop :=
  New h0 (fs ++ pairs (elems h fs)) ∧ (∀ d ∈ pairs (elems h fs), d < h.size) ∧ List.Forall₂ (CopyOf h0 h) xs (elems h fs)

theorem new_snoc {h0 : Heap} {fs ds : List Nat} {n : Nat} (hn : New h0 (fs ++ ds)) (h1 : n ∉ fs ++ ds) (h2 : h0.size ≤ n) : New h0 ((fs ++ [n]) ++ ds) := by
  have hp : ((fs ++ [n]) ++ ds).Perm (n :: (fs ++ ds)) := by
    rw [List.append_assoc]; exact List.perm_middle
  refine ⟨?_, ?_⟩
  · rw [hp.nodup_iff, List.nodup_cons]; exact ⟨h1, hn.1⟩
  · intro a ha
    rcases List.mem_cons.1 (hp.mem_iff.1 ha) with ha | ha
    · rw [ha]; exact h2
    · exact hn.2 a ha

theorem new_snoc' {h0 : Heap} {fs ds : List Nat} {n : Nat} (hn : New h0 (fs ++ ds)) (h1 : n ∉ fs ++ ds) (h2 : h0.size ≤ n) : New h0 (fs ++ (ds ++ [n])) := by
  have hp : (fs ++ (ds ++ [n])).Perm (n :: (fs ++ ds)) := by
    rw [← List.append_assoc]; exact List.perm_append_singleton _ _
  refine ⟨?_, ?_⟩
  · rw [hp.nodup_iff, List.nodup_cons]; exact ⟨h1, hn.1⟩
  · intro a ha
    rcases List.mem_cons.1 (hp.mem_iff.1 ha) with ha | ha
    · rw [ha]; exact h2
    · exact hn.2 a ha

theorem pairs_append (xs ys : List Val) : pairs (xs ++ ys) = pairs xs ++ pairs ys := List.filterMap_append

theorem mem_pairs {xs : List Val} {d : Nat} (h : Val.pair d ∈ xs) : d ∈ pairs xs := List.mem_filterMap.2 ⟨_, h, rfl⟩

theorem copyOf_keep {h0 h h' : Heap} {xs ys : List Val} (hk : ∀ d ∈ pairs ys, h'.car d = h.car d ∧ h'.cdr d = h.cdr d) (f : List.Forall₂ (CopyOf h0 h) xs ys) :
    List.Forall₂ (CopyOf h0 h') xs ys := by
  induction f with
  | nil => exact .nil
  | @cons x y xs ys hxy _ ih =>
    refine .cons ?_ (ih fun d hd => hk d ?_)
    · cases x with
      | pair e =>
        obtain ⟨d, e1, e2, e3⟩ := hxy
        obtain ⟨k1, k2⟩ := hk d (mem_pairs (by rw [e1]; simp))
        exact ⟨d, e1, k1.trans e2, k2.trans e3⟩
      | nil => exact hxy
      | atom n => exact hxy
    · obtain ⟨z, hz, e⟩ := List.mem_filterMap.1 hd
      exact List.mem_filterMap.2 ⟨z, List.mem_cons_of_mem _ hz, e⟩

theorem Built.keepsMore {h0 h h' : Heap} {start last : Val} {fs : List Nat} (b : Built h0 h start last fs) (k : Keeps h h') : Built h0 h' start last fs :=
  ⟨Keeps.trans b.keeps k, b.new, path_keeps k b.path, b.last⟩

theorem step_entry (h0 : Heap) : Step copyEntry (EntryInv h0) h0 := by
  intro h start last fs xs x b ⟨hN, hlt, hF⟩ hx
  have hfs := path_mem b.path
  have hnot : h.size ∉ fs ++ pairs (elems h fs) := by
    intro hm
    rcases List.mem_append.1 hm with hm | hm
    · exact absurd (hfs _ hm) (by omega)
    · exact absurd (hlt _ hm) (by omega)
  have hdisj : ∀ d ∈ pairs (elems h fs), last ≠ .pair d := by
    intro d hd e
    rw [b.last] at e
    exact (List.nodup_append.1 hN.1).2.2 d (lastV_mem _ _ e) d hd rfl
  have atomic : Val.Atomic x → copyEntry h x = (h, x) := by
    intro ha
    cases x with
    | pair e => exact absurd rfl (ha e)
    | nil => rfl
    | atom n => rfl
  rcases atomic_or x with ha | ⟨e, he⟩
  · rw [atomic ha]
    obtain ⟨b1, _, e2, e3, e4⟩ := b.append1 x
    refine ⟨b1, ?_⟩
    dsimp only at *
    have hp : pairs (elems (append1 h start last x).1 (fs ++ [h.size])) = pairs (elems h fs) := by
      rw [e2, pairs_append]
      have : pairs [x] = [] := by
        cases x with
        | pair e => exact absurd rfl (ha e)
        | nil => rfl
        | atom n => rfl
      rw [this, List.append_nil]
    refine ⟨?_, ?_, ?_⟩
    · rw [hp]; exact new_snoc hN hnot b.keeps.1
    · rw [hp, e4]; intro d hd; have := hlt d hd; omega
    · rw [e2]
      refine List.rel_append (copyOf_keep ?_ hF) (.cons ?_ .nil)
      · intro d hd
        exact ⟨e3 d (hlt d hd), append1_cdr h start last x d (hlt d hd) (hdisj d hd)⟩
      · cases x with
        | pair e => exact absurd rfl (ha e)
        | nil => rfl
        | atom n => rfl
  · subst he
    have hce : copyEntry h (.pair e) = h.cons (h.car e) (h.cdr e) := rfl
    rw [hce]
    have he0 := hx e rfl
    have kc := keeps_cons h (h.car e) (h.cdr e)
    have hcar : (h.cons (h.car e) (h.cdr e)).1.car h.size = h.car e := by
      show (if h.size = h.size then _ else _) = _; rw [if_pos rfl]
    have hcdr : (h.cons (h.car e) (h.cdr e)).1.cdr h.size = h.cdr e := by
      show (if h.size = h.size then _ else _) = _; rw [if_pos rfl]
    have hs1 : (h.cons (h.car e) (h.cdr e)).1.size = h.size + 1 := rfl
    have hv1 : (h.cons (h.car e) (h.cdr e)).2 = .pair h.size := rfl
    rw [hv1]
    generalize (h.cons (h.car e) (h.cdr e)).1 = h1 at *
    have hb1 := b.keepsMore kc
    obtain ⟨b1, _, e2, e3, e4⟩ := hb1.append1 (.pair h.size)
    refine ⟨b1, ?_⟩
    have hel : elems h1 fs = elems h fs := elems_keeps kc hfs
    rw [hel] at e2
    have hp : pairs (elems (append1 h1 start last (.pair h.size)).1 (fs ++ [h1.size])) = pairs (elems h fs) ++ [h.size] := by
      rw [e2, pairs_append]; rfl
    have hlast : last ≠ .pair h.size := by
      intro e'
      rw [b.last] at e'
      exact absurd (hfs _ (lastV_mem _ _ e')) (by omega)
    refine ⟨?_, ?_, ?_⟩
    · rw [hp]
      refine new_snoc (new_snoc' hN hnot b.keeps.1) ?_ (by rw [hs1]; have := b.keeps.1; omega)
      intro hm
      rcases List.mem_append.1 hm with hm | hm
      · have := hfs _ hm; omega
      · rcases List.mem_append.1 hm with hm | hm
        · have := hlt _ hm; omega
        · rw [List.mem_singleton] at hm; omega
    · rw [hp, e4]
      intro d hd
      rcases List.mem_append.1 hd with hd | hd
      · have := hlt d hd; omega
      · rw [List.mem_singleton] at hd; omega
    · rw [e2]
      refine List.rel_append (copyOf_keep ?_ hF) (.cons ?_ .nil)
      · intro d hd
        have hd' := hlt d hd
        exact ⟨(e3 d (by omega)).trans (kc.2 d hd').1, (append1_cdr h1 start last _ d (by omega) (hdisj d hd)).trans (kc.2 d hd').2⟩
      · refine ⟨h.size, rfl, ?_, ?_⟩
        · rw [e3 _ (by omega), hcar]; exact (b.keeps.2 e he0).1
        · rw [append1_cdr h1 start last _ _ (by omega) hlast, hcdr]; exact (b.keeps.2 e he0).2

theorem alistCopy_proper {h : Heap} (hc : Closed h) {v : Val} {as : List Nat} (p : Path h v as .nil) (fuel : Nat) (hf : h.size < fuel) :
    ∃ h' v' fs, alistCopy fuel h v = .ok (h', v') ∧ Keeps h h' ∧ Path h' v' fs .nil ∧ New h (fs ++ pairs (elems h' fs)) ∧
      List.Forall₂ (CopyOf h h') (elems h as) (elems h' fs) := by
  cases as with
  | nil =>
    have p : v = .nil := p
    subst p
    exact ⟨h, .nil, [], rfl, Keeps.refl h, rfl, ⟨List.nodup_nil, by simp [elems, pairs]⟩, .nil⟩
  | cons a as =>
    have hl := path_len atomic_nil p
    obtain ⟨h', start', last', fs', e, b, hP⟩ := copyLoop_finite hc (step_entry h) atomic_nil p fuel 0 h .nil .nil [] (by omega) (by omega) (Built.init h)
      ⟨⟨List.nodup_nil, by simp [elems, pairs]⟩, by simp [elems, pairs], .nil⟩
    have ev : v = .pair a := p.1
    refine ⟨h', start', fs', ?_, b.keeps, b.path, hP.1, hP.2.2⟩
    unfold alistCopy
    rw [ev] at e ⊢
    dsimp only
    have e : copyLoop copyEntry fuel h (.pair a) (.pair a) .nil .nil = _ := e
    rw [e]; rfl

theorem alistCopy_error {h : Heap} (hc : Closed h) {v : Val} (hv : Exists h v) (hp : ∃ a, v = .pair a) (hn : ¬ ∃ as, Path h v as .nil) (fuel : Nat) (hf : h.size < fuel) :
    alistCopy fuel h v = .error := by
  obtain ⟨a, ha⟩ := hp
  have hI : EntryInv h h [] [] := ⟨⟨List.nodup_nil, by simp [elems, pairs]⟩, by simp [elems, pairs], .nil⟩
  rcases classify hc hv with ⟨as, t, ht, p⟩ | c
  · have hl := path_len ht p
    obtain ⟨h', start', last', fs', e, b, hP⟩ := copyLoop_finite hc (step_entry h) ht p fuel 0 h .nil .nil [] (by omega) (by omega) (Built.init h) hI
    have htn : t ≠ .nil := fun e => hn ⟨as, by rw [← e]; exact p⟩
    unfold alistCopy
    rw [ha] at e ⊢
    dsimp only
    have e : copyLoop copyEntry fuel h (.pair a) (.pair a) .nil .nil = _ := e
    rw [e]
    show (if t = .nil then _ else _) = _
    rw [if_neg htn]
  · obtain ⟨K, h1, h2, h3⟩ := circular_meet hc hv c
    have e := copyLoop_circular hc (step_entry h) hv c K h3 fuel 0 h .nil .nil [] [] (by omega) (by omega) (Built.init h) hI
    unfold alistCopy
    rw [ha] at e ⊢
    dsimp only
    have e : copyLoop copyEntry fuel h (.pair a) (.pair a) .nil .nil = .error := e
    rw [e]

end Gauche.ListPrim

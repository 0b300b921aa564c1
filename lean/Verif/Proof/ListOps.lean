import Verif.Proof.ListBuild
/-
Proofs about list primitives: last-pair, append, reverse and the searches.
-/
namespace Gauche.ListPrim

open Gauche.Spec.ConsGraph

/-! ### last-pair -/

theorem lastLoop_finite {h : Heap} {v t : Val} {as : List Nat} (ht : Val.Atomic t) (p : Path h v as t) (fuel : Nat) :
    ∀ (k : Nat) (hk : 2 * k < as.length), as.length < 2 * k + 2 * fuel → ∃ a, lastLoop h fuel as[2 * k] (tl h k v) = .ok a ∧ lastV as = .pair a := by
  have hlast : ∀ (as : List Nat) (n : Nat) (hn : n + 1 = as.length), lastV as = .pair as[n] := by
    intro as n hn
    rcases eq_snoc as with e | ⟨gs, g, e⟩
    · rw [e] at hn; simp at hn
    · subst e
      rw [lastV_snoc]
      have : n = gs.length := by simp at hn; omega
      subst this
      rw [List.getElem_append_right (by omega)]
      simp
  induction fuel with
  | zero => intro k h1 h2; omega
  | succ fuel ih =>
    intro k h1 h2
    unfold lastLoop
    have e1 : h.cdr as[2 * k] = tl h (2 * k + 1) v := by rw [tl_succ, tl_pair p (2 * k) (by omega)]; rfl
    rw [e1]
    by_cases hk1 : 2 * k + 1 = as.length
    · have e : tl h (2 * k + 1) v = t := by rw [hk1]; exact path_tl p
      rw [e]
      refine ⟨as[2 * k], ?_, hlast as _ hk1⟩
      cases t with
      | nil => rfl
      | atom x => rfl
      | pair a => exact absurd rfl (ht a)
    · rw [tl_pair p (2 * k + 1) (by omega)]
      dsimp only
      have e2 : h.cdr as[2 * k + 1] = tl h (2 * (k + 1)) v := by
        rw [show 2 * (k + 1) = 2 * k + 1 + 1 by omega, tl_succ, tl_pair p (2 * k + 1) (by omega)]; rfl
      rw [e2]
      by_cases hk2 : 2 * k + 2 = as.length
      · have e : tl h (2 * (k + 1)) v = t := by rw [show 2 * (k + 1) = as.length by omega]; exact path_tl p
        rw [e]
        refine ⟨as[2 * k + 1], ?_, hlast as _ hk2⟩
        cases t with
        | nil => rfl
        | atom x => rfl
        | pair a => exact absurd rfl (ht a)
      · have e3 := tl_pair p (2 * (k + 1)) (by omega)
        rw [e3]
        dsimp only
        rw [← tl_succ, ← e3, if_neg (fun e => path_tl_ne ht p (k + 1) (2 * (k + 1)) (by omega) (by omega) e.symm)]
        exact ih (k + 1) (by omega) (by omega)

theorem lastLoop_circular {h : Heap} {v : Val} (c : Circular h v) (K : Nat) (hK : tl h (2 * K) v = tl h K v) (fuel : Nat) :
    ∀ (k a : Nat), k < K → K ≤ k + fuel → tl h (2 * k) v = .pair a → lastLoop h fuel a (tl h k v) = .error := by
  induction fuel with
  | zero => intro k a h1 h2; omega
  | succ fuel ih =>
    intro k a h1 h2 ha
    unfold lastLoop
    obtain ⟨b, hb⟩ := circular_pairs c (2 * k + 1)
    obtain ⟨d, hd⟩ := circular_pairs c (2 * (k + 1))
    have e1 : h.cdr a = .pair b := by rw [← hb, tl_succ, ha]; rfl
    have e2 : h.cdr b = .pair d := by
      rw [← hd, show 2 * (k + 1) = 2 * k + 1 + 1 by omega, tl_succ, hb]; rfl
    rw [e1]
    dsimp only
    rw [e2]
    dsimp only
    rw [← tl_succ, ← hd]
    by_cases he : tl h (2 * (k + 1)) v = tl h (k + 1) v
    · rw [if_pos he]
    · rw [if_neg he]
      have : k + 1 ≠ K := fun e => he (by rw [e]; exact hK)
      exact ih (k + 1) d (by omega) (by omega) hd

theorem lastPair_finite' {h : Heap} {v t : Val} {as : List Nat} {a : Nat} (ht : Val.Atomic t) (p : Path h v (as ++ [a]) t) (fuel : Nat)
    (hf : (as ++ [a]).length < 2 * fuel) : lastPair fuel h v = .ok a := by
  have h0 : 0 < (as ++ [a]).length := by simp
  have ev : v = .pair ((as ++ [a])[0]) := tl_pair p 0 h0
  obtain ⟨b, h1, h2⟩ := lastLoop_finite ht p fuel 0 (by omega) (by omega)
  rw [lastV_snoc] at h2
  injection h2 with h2
  have h1 : lastLoop h fuel (as ++ [a])[0] v = .ok b := h1
  unfold lastPair
  rw [ev] at h1 ⊢
  dsimp only
  rw [h1, h2]

theorem lastPair_finite {h : Heap} {v t : Val} {as : List Nat} {a : Nat} (ht : Val.Atomic t) (p : Path h v (as ++ [a]) t) (fuel : Nat) (hf : h.size < fuel) :
    lastPair fuel h v = .ok a := by
  have hl := path_len ht p
  exact lastPair_finite' ht p fuel (by omega)

theorem lastPair_circular {h : Heap} (hc : Closed h) {v : Val} (hv : Exists h v) (c : Circular h v) (fuel : Nat) (hf : h.size < fuel) :
    lastPair fuel h v = .error := by
  obtain ⟨K, h1, h2, h3⟩ := circular_meet hc hv c
  obtain ⟨a, ha⟩ := circular_pairs c 0
  have e := lastLoop_circular c K h3 fuel 0 a (by omega) (by omega) ha
  have ha : v = .pair a := ha
  have e : lastLoop h fuel a v = .error := e
  unfold lastPair
  rw [ha] at e ⊢
  exact e

/-! ### append -/

theorem append2Loop_finite {h0 : Heap} {t : Val} (ht : Val.Atomic t) (as : List Nat) : ∀ (fuel : Nat) (v : Val) (h : Heap) (start last : Val) (fs : List Nat),
    Path h0 v as t → as.length < fuel → Built h0 h start last fs →
    ∃ h' start' last' fs', append2Loop fuel h v start last = .ok (h', start', last', t) ∧ Built h0 h' start' last' fs' ∧
      elems h' fs' = elems h fs ++ elems h0 as := by
  induction as with
  | nil =>
    intro fuel v h start last fs p hf b
    have p : v = t := p
    subst p
    cases fuel with
    | zero => simp at hf
    | succ fuel =>
      refine ⟨h, start, last, fs, ?_, b, by simp [elems]⟩
      unfold append2Loop
      cases v with
      | nil => rfl
      | atom x => rfl
      | pair a => exact absurd rfl (ht a)
  | cons a as ih =>
    intro fuel v h start last fs p hf b
    cases fuel with
    | zero => simp at hf
    | succ fuel =>
      obtain ⟨rfl, ha, p⟩ := p
      unfold append2Loop
      dsimp only
      rw [(Step.keeps b ha).2]
      obtain ⟨b1, _, e2, _⟩ := b.append1 (h0.car a)
      generalize append1 h start last (h0.car a) = r at *
      rw [(Step.keeps b1 ha).1]
      obtain ⟨h', start', last', fs', h1, h2, h3⟩ := ih fuel _ r.1 r.2.1 r.2.2 _ p (by rw [List.length_cons] at hf; omega) b1
      refine ⟨h', start', last', fs', h1, h2, ?_⟩
      rw [h3, e2, List.append_assoc]; rfl

/-- `append2` as used for quasiquotation. -/
theorem append2_proper {h : Heap} {v obj : Val} {as : List Nat} (p : Path h v as .nil) (fuel : Nat) (hf : h.size < fuel) :
    ∃ h' v' fs, append2 fuel h v obj = .ok (h', v') ∧ Keeps h h' ∧ New h fs ∧ Path h' v' fs obj ∧ elems h' fs = elems h as := by
  cases as with
  | nil =>
    have p : v = .nil := p
    subst p
    exact ⟨h, obj, [], rfl, Keeps.refl h, ⟨List.nodup_nil, by simp⟩, rfl, rfl⟩
  | cons a as =>
    have hl := path_len atomic_nil p
    obtain ⟨h', start', last', fs', e, b, hP⟩ := append2Loop_finite atomic_nil (a :: as) fuel v h .nil .nil [] p (by omega) (Built.init h)
    have hne : fs' ≠ [] := by
      intro e0
      have := congrArg List.length hP
      rw [e0] at this
      simp [elems] at this
    obtain ⟨k1, k2, k3⟩ := b.setLast hne obj
    refine ⟨_, start', fs', ?_, k1, b.new, k2, by rw [k3, hP]; rfl⟩
    unfold append2
    have hv : v ≠ .nil := by rw [p.1]; simp
    rw [if_neg hv, e]
    rfl

theorem append2_dotted {h : Heap} {v t obj : Val} {as : List Nat} (ht : Val.Atomic t) (htn : t ≠ .nil) (p : Path h v as t) (fuel : Nat) (hf : h.size < fuel) :
    append2 fuel h v obj = .error := by
  have hl := path_len ht p
  obtain ⟨h', start', last', fs', e, b, hP⟩ := append2Loop_finite ht as fuel v h .nil .nil [] p (by omega) (Built.init h)
  unfold append2
  have hv : v ≠ .nil := by
    intro e
    cases as with
    | nil => have p : v = t := p; exact htn (by rw [← p, e])
    | cons a as => have := p.1; rw [e] at this; simp at this
  rw [if_neg hv, e]
  show (if t = .nil then _ else _) = _
  rw [if_neg htn]

/-- In a longer list. -/
theorem path_snoc_last {h : Heap} {v w : Val} {fs : List Nat} {g : Nat} (p : Path h v (fs ++ [g]) w) : h.cdr g = w ∧ g < h.size := by
  obtain ⟨u, _, q⟩ := (path_append h _ _ _ _).1 p
  exact ⟨q.2.2, q.2.1⟩

/-- Objects that exist in `h0` exist in `h`; paths of `h0` are paths of `h`, and `h` is closed if what is new is. -/
theorem path_keeps_back {h0 h : Heap} (hc : Closed h0) (k : Keeps h0 h) {as : List Nat} : ∀ {v w : Val}, Exists h0 v → Path h v as w → Path h0 v as w := by
  induction as with
  | nil => intro v w _ p; exact p
  | cons a as ih =>
    rintro v w hv ⟨e, _, p⟩
    have ha := hv a e
    rw [(k.2 a ha).2] at p
    exact ⟨e, ha, ih (hc a ha).2 p⟩

/-! A copy made when more pairs exist. -/

theorem step_copyM (h0 hm : Heap) : Step (fun h x => (h, x)) (fun h fs xs => elems h fs = xs ∧ Keeps hm h ∧ New hm fs) h0 := by
  intro h start last fs xs x b ⟨hP, hk, hn⟩ _
  obtain ⟨h1, _, h2, _⟩ := b.append1 x
  obtain ⟨g1, _⟩ := (Built.mk hk hn b.path b.last : Built hm h start last fs).append1 x
  exact ⟨h1, by rw [← hP]; exact h2, g1.keeps, g1.new⟩

theorem copyList_finiteM {h0 h : Heap} (hc : Closed h0) (k : Keeps h0 h) {v t : Val} {as : List Nat} (ht : Val.Atomic t) (p : Path h0 v as t) (fuel : Nat) (hf : h0.size < fuel) :
    ∃ h' v' fs, copyList fuel h v = .ok (h', v') ∧ Keeps h h' ∧ New h fs ∧ Path h' v' fs t ∧ elems h' fs = elems h0 as := by
  cases as with
  | nil =>
    have p : v = t := p
    subst p
    refine ⟨h, v, [], ?_, Keeps.refl h, ⟨List.nodup_nil, by simp⟩, rfl, rfl⟩
    cases v with
    | nil => rfl
    | atom x => rfl
    | pair a => exact absurd rfl (ht a)
  | cons a as =>
    have hl := path_len ht p
    have b0 : Built h0 h .nil .nil [] := ⟨k, ⟨List.nodup_nil, by simp⟩, rfl, rfl⟩
    obtain ⟨h', start', last', fs', e, b, hP, hk, hn⟩ := copyLoop_finite hc (step_copyM h0 h) ht p fuel 0 h .nil .nil [] (by omega) (by omega) b0
      ⟨rfl, Keeps.refl h, List.nodup_nil, by simp⟩
    have ev : v = .pair a := p.1
    have hne : fs' ≠ [] := by
      intro e0
      have := congrArg List.length hP
      rw [elems_length, elems_length, e0] at this
      simp at this
    have hcl : copyList fuel h v = .ok (if t = .nil then h' else h'.setCdrV last' t, start') := by
      unfold copyList
      rw [ev] at e ⊢
      dsimp only
      have e : copyLoop (fun h x => (h, x)) fuel h (.pair a) (.pair a) .nil .nil = _ := e
      rw [e]
    rw [hcl]
    by_cases htn : t = .nil
    · rw [if_pos htn]
      refine ⟨h', start', fs', rfl, hk, hn, ?_, hP⟩
      rw [htn]; exact b.path
    · rw [if_neg htn]
      obtain ⟨k1, k2, k3⟩ := (Built.mk hk hn b.path b.last : Built h h' start' last' fs').setLast hne t
      exact ⟨_, start', fs', rfl, k1, hn, k2, by rw [k3]; exact hP⟩

theorem copyList_circularM {h0 h : Heap} (hc : Closed h0) (k : Keeps h0 h) {v : Val} (hv : Exists h0 v) (c : Circular h0 v) (fuel : Nat) (hf : h0.size < fuel) :
    copyList fuel h v = .error := by
  obtain ⟨K, h1, h2, h3⟩ := circular_meet hc hv c
  have b0 : Built h0 h .nil .nil [] := ⟨k, ⟨List.nodup_nil, by simp⟩, rfl, rfl⟩
  have e := copyLoop_circular hc (step_copyM h0 h) hv c K h3 fuel 0 h .nil .nil [] [] (by omega) (by omega) b0 ⟨rfl, Keeps.refl h, List.nodup_nil, by simp⟩
  obtain ⟨a, ha⟩ := circular_pairs c 0
  have ha : v = .pair a := ha
  unfold copyList
  rw [ha] at e ⊢
  dsimp only
  have e : copyLoop (fun h x => (h, x)) fuel h (.pair a) (.pair a) .nil .nil = .error := e
  rw [e]

/-- SCM_APPEND of a list of new pairs. -/
theorem appendMacro_ok {h0 h1 h2 : Heap} {start last c t : Val} {fs gs : List Nat} {g : Nat} (b : Built h0 h1 start last fs) (k : Keeps h1 h2) (hn : New h1 (gs ++ [g]))
    (ht : Val.Atomic t) (p : Path h2 c (gs ++ [g]) t) (fuel : Nat) (hf : gs.length + 2 < 2 * fuel) :
    ∃ h3 start', appendMacro fuel h2 start last c = .ok (h3, start', .pair g) ∧ Keeps h0 h3 ∧ New h0 (fs ++ (gs ++ [g])) ∧ Path h3 start' (fs ++ (gs ++ [g])) t ∧
      elems h3 (fs ++ (gs ++ [g])) = elems h1 fs ++ elems h2 (gs ++ [g]) ∧ h3.cdr g = t := by
  have hfs := path_mem b.path
  have b2 := b.keepsMore k
  have hdis : ∀ a ∈ fs, ∀ b ∈ gs ++ [g], a ≠ b := by
    intro a ha b hb e
    have := hfs a ha
    have := hn.2 b hb
    omega
  have hnew : New h0 (fs ++ (gs ++ [g])) := by
    refine ⟨List.nodup_append.2 ⟨b.new.1, hn.1, hdis⟩, ?_⟩
    intro a ha
    rcases List.mem_append.1 ha with ha | ha
    · exact b.new.2 a ha
    · exact le_trans b.keeps.1 (hn.2 a ha)
  have hel : elems h2 (fs ++ (gs ++ [g])) = elems h1 fs ++ elems h2 (gs ++ [g]) := by
    unfold elems
    rw [List.map_append]
    congr 1
    exact elems_keeps k hfs
  have hc : c ≠ .nil := by
    cases gs with
    | nil => rw [p.1]; simp
    | cons x xs => rw [p.1]; simp
  rcases eq_snoc fs with e | ⟨es, x, e⟩
  · have hs : start = .nil := by have := b.path; rw [e] at this; exact this
    refine ⟨h2, c, ?_, b2.keeps, hnew, ?_, hel, (path_snoc_last p).1⟩
    · unfold appendMacro
      rw [if_pos hs, if_neg hc, lastPair_finite' ht p fuel (by simp; omega)]
    · rw [e]; exact p
  · have hs : start ≠ .nil := by
      intro e'
      have := b.path
      rw [e, e'] at this
      cases es with
      | nil => exact absurd this.1 (by simp)
      | cons x xs => exact absurd this.1 (by simp)
    have hl : last = .pair x := by rw [b.last, e, lastV_snoc]
    have hx : x ∈ fs := by rw [e]; simp
    have hxg : x ∉ gs ++ [g] := fun hm => hdis x hx x hm rfl
    have e1 : h2.setCdrV last c = h2.setCdr x c := by rw [hl]; rfl
    have p2 : Path (h2.setCdr x c) c (gs ++ [g]) t := path_setCdr hxg p
    have p1 : Path (h2.setCdr x c) (.pair x) (x :: (gs ++ [g])) t := by
      refine ⟨rfl, ?_, ?_⟩
      · exact lt_of_lt_of_le (hfs x hx) k.1
      · show Path _ (if x = x then c else _) _ _
        rw [if_pos rfl]; exact p2
    refine ⟨h2.setCdr x c, start, ?_, keeps_setCdr b2.keeps (b.new.2 x hx) c, hnew, ?_, hel, ?_⟩
    · unfold appendMacro
      rw [if_neg hs, e1, hl]
      have := lastPair_finite' (as := x :: gs) ht p1 fuel (by simp; omega)
      dsimp only
      rw [this]
    · refine (path_append _ _ _ _ _).2 ⟨c, ?_, p2⟩
      rw [e]
      refine path_setLast (w := .nil) ?_ ?_
      · rw [← e]; exact b.new.1
      · rw [← e]; exact b2.path
    · exact (path_snoc_last p2).1

/-- What `append` of the lists gives. -/
theorem appendLoop_spec {h0 : Heap} (hc : Closed h0) (z : Val) (fuel : Nat) (hf : h0.size < fuel) (xs : List Val) : ∀ (ass : List (List Nat)) (h : Heap) (start last : Val) (fs : List Nat),
    Built h0 h start last fs → List.Forall₂ (fun x as => Path h0 x as .nil) xs ass →
    ∃ h' v' fs', appendLoop fuel (xs ++ [z]) h start last = .ok (h', v') ∧ Keeps h0 h' ∧ New h0 fs' ∧ Path h' v' fs' z ∧
      elems h' fs' = elems h fs ++ elems h0 ass.flatten := by
  induction xs with
  | nil =>
    intro ass h start last fs b f
    cases f
    have e : appendLoop fuel ([] ++ [z]) h start last = if start = .nil then .ok (h, z) else .ok (h.setCdrV last z, start) := rfl
    rw [e]
    rcases eq_snoc fs with e | ⟨es, x, e⟩
    · have hs : start = .nil := by have := b.path; rw [e] at this; exact this
      rw [if_pos hs]
      exact ⟨h, z, [], rfl, b.keeps, ⟨List.nodup_nil, by simp⟩, rfl, by rw [e]; rfl⟩
    · have hs : start ≠ .nil := by
        intro e'
        have := b.path
        rw [e, e'] at this
        cases es with
        | nil => exact absurd this.1 (by simp)
        | cons x xs => exact absurd this.1 (by simp)
      rw [if_neg hs]
      obtain ⟨k1, k2, k3⟩ := b.setLast (by rw [e]; simp) z
      exact ⟨_, start, fs, rfl, k1, b.new, k2, by rw [k3]; simp [elems]⟩
  | cons x xs ih =>
    intro ass h start last fs b f
    obtain ⟨as, ass, hx, f', rfl⟩ : ∃ as ass', Path h0 x as .nil ∧ List.Forall₂ (fun x as => Path h0 x as .nil) xs ass' ∧ ass = as :: ass' := by
      cases f with
      | cons hx f => exact ⟨_, _, hx, f, rfl⟩
    have hcons : ∃ y ys, xs ++ [z] = y :: ys := by
      cases xs with
      | nil => exact ⟨z, [], rfl⟩
      | cons y ys => exact ⟨y, ys ++ [z], rfl⟩
    obtain ⟨y, ys, hys⟩ := hcons
    cases as with
    | nil =>
      have hx : x = .nil := hx
      subst hx
      have e : appendLoop fuel ((.nil :: xs) ++ [z]) h start last = appendLoop fuel (xs ++ [z]) h start last := by
        rw [List.cons_append, hys, appendLoop]; simp
      rw [e]
      exact ih ass h start last fs b f'
    | cons a as =>
      obtain ⟨h1, c, gs0, e1, k1, n1, p1, el1⟩ := copyList_finiteM hc b.keeps atomic_nil hx fuel hf
      have hlen := path_len atomic_nil hx
      have hgl : gs0.length = (a :: as).length := by have := congrArg List.length el1; rwa [elems_length, elems_length] at this
      rcases eq_snoc gs0 with e0 | ⟨gs, g, e0⟩
      · rw [e0] at hgl; simp at hgl
      subst e0
      obtain ⟨h3, start', e3, k3, n3, p3, el3, hg⟩ := appendMacro_ok b k1 n1 atomic_nil p1 fuel (by simp at hgl hlen; omega)
      have hxp : x = .pair a := hx.1
      have e : appendLoop fuel ((x :: xs) ++ [z]) h start last = appendLoop fuel (xs ++ [z]) h3 start' (.pair g) := by
        rw [hxp] at e1 ⊢
        rw [List.cons_append, hys, appendLoop]
        · rw [e1]
          dsimp only
          rw [e3]
          dsimp only
          show (if h3.cdr g = .nil then _ else _) = _
          rw [if_pos hg]
        · simp
      rw [e]
      obtain ⟨h', v', fs', r1, r2, r3, r4, r5⟩ := ih ass h3 start' (.pair g) _ ⟨k3, n3, p3, by rw [← List.append_assoc, lastV_snoc]⟩ f'
      refine ⟨h', v', fs', r1, r2, r3, r4, ?_⟩
      rw [r5, el3, el1, List.flatten_cons]
      unfold elems
      rw [List.map_append, List.append_assoc]

theorem appendLoop_error {h0 : Heap} (hc : Closed h0) (z : Val) (fuel : Nat) (hf : h0.size < fuel) (xs : List Val) : ∀ (h : Heap) (start last : Val) (fs : List Nat),
    Built h0 h start last fs → (∀ x ∈ xs, Exists h0 x) → (∃ x ∈ xs, ¬ ∃ as, Path h0 x as .nil) → appendLoop fuel (xs ++ [z]) h start last = .error := by
  induction xs with
  | nil => intro h start last fs b _ ⟨x, hx, _⟩; simp at hx
  | cons x xs ih =>
    intro h start last fs b hex hbad
    have hcons : ∃ y ys, xs ++ [z] = y :: ys := by
      cases xs with
      | nil => exact ⟨z, [], rfl⟩
      | cons y ys => exact ⟨y, ys ++ [z], rfl⟩
    obtain ⟨y, ys, hys⟩ := hcons
    have hvx := hex x (by simp)
    have hbad' : (∃ as, Path h0 x as .nil) → ∃ x ∈ xs, ¬ ∃ as, Path h0 x as .nil := by
      intro hp
      obtain ⟨w, hw, hnw⟩ := hbad
      rcases List.mem_cons.1 hw with e | hw
      · rw [e] at hnw; exact absurd hp hnw
      · exact ⟨w, hw, hnw⟩
    cases x with
    | nil =>
      have e : appendLoop fuel ((.nil :: xs) ++ [z]) h start last = appendLoop fuel (xs ++ [z]) h start last := by
        rw [List.cons_append, hys, appendLoop]; simp
      rw [e]
      exact ih h start last fs b (fun x hx => hex x (by simp [hx])) (hbad' ⟨[], rfl⟩)
    | atom n =>
      rw [List.cons_append, hys, appendLoop]; simp
    | pair a =>
      rw [List.cons_append, hys, appendLoop]
      swap
      · simp
      rcases classify hc hvx with ⟨as, t, ht, hx⟩ | c
      · obtain ⟨h1, c, gs0, e1, k1, n1, p1, el1⟩ := copyList_finiteM hc b.keeps ht hx fuel hf
        have hlen := path_len ht hx
        have hgl : gs0.length = as.length := by have := congrArg List.length el1; rwa [elems_length, elems_length] at this
        rcases eq_snoc gs0 with e0 | ⟨gs, g, e0⟩
        · exfalso
          rw [e0] at hgl
          have : as = [] := List.length_eq_zero_iff.1 hgl.symm
          rw [this] at hx
          have hx : Val.pair a = t := hx
          exact ht a hx.symm
        subst e0
        obtain ⟨h3, start', e3, k3, n3, p3, el3, hg⟩ := appendMacro_ok b k1 n1 ht p1 fuel (by simp at hgl hlen; omega)
        rw [e1]
        dsimp only
        rw [e3]
        dsimp only
        show (if h3.cdr g = .nil then _ else _) = _
        rw [hg]
        by_cases htn : t = .nil
        · rw [if_pos htn, ← hys]
          rw [htn] at p3 hx
          exact ih h3 start' (.pair g) _ ⟨k3, n3, p3, by rw [← List.append_assoc, lastV_snoc]⟩ (fun x hx => hex x (by simp [hx])) (hbad' ⟨as, hx⟩)
        · rw [if_neg htn]
      · rw [copyList_circularM hc b.keeps hvx c fuel hf]

end Gauche.ListPrim

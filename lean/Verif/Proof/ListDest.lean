import Verif.Proof.ListOps
/-
Proofs about list primitives: the destructive ones, reverse and the searches.
-/
namespace Gauche.ListPrim

open Gauche.Spec.ConsGraph

/-! ### append! -/

theorem path_changes {h h' : Heap} {cs : List Nat} (k : ChangesCdrs cs h h') {as : List Nat} : ∀ {v w : Val}, (∀ a ∈ as, a ∉ cs) → Path h v as w → Path h' v as w := by
  induction as with
  | nil => intro v w _ p; exact p
  | cons a as ih =>
    rintro v w hd ⟨e, hlt, p⟩
    refine ⟨e, by rw [k.1]; exact hlt, ?_⟩
    rw [k.2.2 a (hd a (by simp))]
    exact ih (fun b hb => hd b (by simp [hb])) p

theorem ChangesCdrs.refl (h : Heap) : ChangesCdrs [] h h := ⟨rfl, rfl, fun _ _ => rfl⟩

theorem changes_setCdr {h0 h : Heap} {cs : List Nat} (k : ChangesCdrs cs h0 h) {a : Nat} (x : Val) (ds : List Nat) (h1 : ∀ c ∈ cs, c ∈ ds) (h2 : a ∈ ds) :
    ChangesCdrs ds h0 (h.setCdr a x) := by
  refine ⟨k.1, k.2.1, fun i hi => ?_⟩
  show (if i = a then x else h.cdr i) = _
  rw [if_neg (fun e => hi (by rw [e]; exact h2))]
  exact k.2.2 i (fun hm => hi (h1 i hm))

theorem changes_mono {h0 h : Heap} {cs : List Nat} (k : ChangesCdrs cs h0 h) (ds : List Nat) (h1 : ∀ c ∈ cs, c ∈ ds) : ChangesCdrs ds h0 h :=
  ⟨k.1, k.2.1, fun i hi => k.2.2 i (fun hm => hi (h1 i hm))⟩

/-- The state of `append!`: the lists so far are one. -/
structure Joined (h0 h : Heap) (start last : Val) (ds : List Nat) : Prop where
  changes : ChangesCdrs ds h0 h
  path : Path h start ds .nil
  last : last = lastV ds
  nodup : ds.Nodup

theorem start_nil {h : Heap} {start : Val} {ds : List Nat} (p : Path h start ds .nil) : start = .nil ↔ ds = [] := by
  constructor
  · intro e
    cases ds with
    | nil => rfl
    | cons x xs => have := p.1; rw [e] at this; simp at this
  · intro e; rw [e] at p; exact p

/-- SCM_APPEND of a list. -/
theorem appendMacro_join {h0 h : Heap} {start last x t : Val} {ds as : List Nat} {a : Nat} (j : Joined h0 h start last ds) (ht : Val.Atomic t) (p : Path h0 x (as ++ [a]) t)
    (hn : (ds ++ (as ++ [a])).Nodup) (fuel : Nat) (hf : h0.size < fuel) :
    ∃ h' start', appendMacro fuel h start last x = .ok (h', start', .pair a) ∧ ChangesCdrs (ds ++ (as ++ [a])) h0 h' ∧ Path h' start' (ds ++ (as ++ [a])) t ∧ h'.cdr a = t := by
  have hlen := path_len ht p
  simp at hlen
  have hdis := (List.nodup_append.1 hn).2.2
  have p1 : Path h x (as ++ [a]) t := path_changes j.changes (fun y hy hm => hdis y hm y hy rfl) p
  have hx : x ≠ .nil := by
    cases as with
    | nil => rw [p.1]; simp
    | cons x xs => rw [p.1]; simp
  rcases eq_snoc ds with e | ⟨es, d, e⟩
  · have hs : start = .nil := (start_nil j.path).2 e
    refine ⟨h, x, ?_, changes_mono j.changes _ (fun c hc => by simp [hc]), by rw [e]; exact p1, (path_snoc_last p1).1⟩
    unfold appendMacro
    rw [if_pos hs, if_neg hx, lastPair_finite' ht p1 fuel (by simp; omega)]
  · have hs : start ≠ .nil := fun e' => by rw [(start_nil j.path).1 e'] at e; simp at e
    have hl : last = .pair d := by rw [j.last, e, lastV_snoc]
    have hd : d ∈ ds := by rw [e]; simp
    have hda : d ∉ as ++ [a] := fun hm => hdis d hd d hm rfl
    have e1 : h.setCdrV last x = h.setCdr d x := by rw [hl]; rfl
    have p2 : Path (h.setCdr d x) x (as ++ [a]) t := path_setCdr hda p1
    have p3 : Path (h.setCdr d x) (.pair d) (d :: (as ++ [a])) t := by
      refine ⟨rfl, path_mem j.path d hd, ?_⟩
      show Path _ (if d = d then x else _) _ _
      rw [if_pos rfl]; exact p2
    refine ⟨h.setCdr d x, start, ?_, changes_setCdr j.changes x _ (fun c hc => by simp [hc]) (by simp [hd]), ?_, (path_snoc_last p2).1⟩
    · unfold appendMacro
      rw [if_neg hs, e1, hl]
      have := lastPair_finite' (as := d :: as) ht p3 fuel (by simp; omega)
      dsimp only
      rw [this]
    · refine (path_append _ _ _ _ _).2 ⟨x, ?_, p2⟩
      rw [e]
      refine path_setLast (w := .nil) ?_ ?_
      · rw [← e]; exact j.nodup
      · rw [← e]; exact j.path

theorem appendMacro_nil {h0 h : Heap} {start last : Val} {ds : List Nat} (j : Joined h0 h start last ds) (fuel : Nat) (hf : 0 < fuel) :
    ∃ h', appendMacro fuel h start last .nil = .ok (h', start, last) ∧ Joined h0 h' start last ds ∧ (last = .nil ∨ h'.cdrV last = .nil) := by
  rcases eq_snoc ds with e | ⟨es, d, e⟩
  · have hs : start = .nil := (start_nil j.path).2 e
    have hl : last = .nil := by rw [j.last, e]; rfl
    refine ⟨h, ?_, j, Or.inl hl⟩
    unfold appendMacro
    rw [if_pos hs, if_pos rfl, hs]
  · have hs : start ≠ .nil := fun e' => by rw [(start_nil j.path).1 e'] at e; simp at e
    have hl : last = .pair d := by rw [j.last, e, lastV_snoc]
    have hd : d ∈ ds := by rw [e]; simp
    have e1 : h.setCdrV last .nil = h.setCdr d .nil := by rw [hl]; rfl
    have p3 : Path (h.setCdr d .nil) (.pair d) ([] ++ [d]) .nil := by
      refine ⟨rfl, path_mem j.path d hd, ?_⟩
      show (if d = d then Val.nil else _) = _
      rw [if_pos rfl]
    refine ⟨h.setCdr d .nil, ?_, ⟨changes_setCdr j.changes _ _ (fun c hc => hc) hd, ?_, j.last, j.nodup⟩, Or.inr ?_⟩
    · unfold appendMacro
      rw [if_neg hs, e1, hl]
      have := lastPair_finite' (as := []) atomic_nil p3 fuel (by simp; omega)
      dsimp only
      rw [this]
    · rw [e]
      refine path_setLast (w := .nil) ?_ ?_
      · rw [← e]; exact j.nodup
      · rw [← e]; exact j.path
    · rw [hl]
      show (if d = d then Val.nil else _) = _
      rw [if_pos rfl]

theorem appendXLoop_spec {h0 : Heap} (z : Val) (fuel : Nat) (hf : h0.size < fuel) (xs : List Val) : ∀ (ass : List (List Nat)) (h : Heap) (start last : Val) (ds : List Nat),
    Joined h0 h start last ds → List.Forall₂ (fun x as => Path h0 x as .nil) xs ass → (ds ++ ass.flatten).Nodup →
    ∃ h' v', appendXLoop fuel (xs ++ [z]) h start last = .ok (h', v') ∧ ChangesCdrs (ds ++ ass.flatten) h0 h' ∧ Path h' v' (ds ++ ass.flatten) z := by
  induction xs with
  | nil =>
    intro ass h start last ds j f hn
    cases f
    have e : appendXLoop fuel ([] ++ [z]) h start last = if start = .nil then .ok (h, z) else .ok (h.setCdrV last z, start) := rfl
    rw [e, List.flatten_nil, List.append_nil]
    rcases eq_snoc ds with e | ⟨es, d, e⟩
    · rw [if_pos ((start_nil j.path).2 e)]
      exact ⟨h, z, rfl, j.changes, by rw [e]; rfl⟩
    · have hs : start ≠ .nil := fun e' => by rw [(start_nil j.path).1 e'] at e; simp at e
      have hl : last = .pair d := by rw [j.last, e, lastV_snoc]
      have e1 : h.setCdrV last z = h.setCdr d z := by rw [hl]; rfl
      rw [if_neg hs, e1]
      refine ⟨_, start, rfl, changes_setCdr j.changes _ _ (fun c hc => hc) (by rw [e]; simp), ?_⟩
      rw [e]
      refine path_setLast (w := .nil) ?_ ?_
      · rw [← e]; exact j.nodup
      · rw [← e]; exact j.path
  | cons x xs ih =>
    intro ass h start last ds j f hn
    obtain ⟨as, ass, hx, f', rfl⟩ : ∃ as ass', Path h0 x as .nil ∧ List.Forall₂ (fun x as => Path h0 x as .nil) xs ass' ∧ ass = as :: ass' := by
      cases f with
      | cons hx f => exact ⟨_, _, hx, f, rfl⟩
    have hcons : ∃ y ys, xs ++ [z] = y :: ys := by
      cases xs with
      | nil => exact ⟨z, [], rfl⟩
      | cons y ys => exact ⟨y, ys ++ [z], rfl⟩
    obtain ⟨y, ys, hys⟩ := hcons
    rw [List.flatten_cons, ← List.append_assoc] at hn ⊢
    have step : ∀ h' start' last', appendMacro fuel h start last x = .ok (h', start', last') → (last' = .nil ∨ h'.cdrV last' = .nil) →
        appendXLoop fuel ((x :: xs) ++ [z]) h start last = appendXLoop fuel (xs ++ [z]) h' start' last' := by
      intro h' start' last' e1 e2
      rw [List.cons_append, hys, appendXLoop]
      · rw [e1]
        dsimp only
        rw [if_pos e2]
      · simp
    rcases eq_snoc as with e | ⟨es, a, e⟩
    · subst e
      have hx : x = .nil := hx
      subst hx
      obtain ⟨h', e1, j', e2⟩ := appendMacro_nil j fuel (by omega)
      rw [step h' start last e1 e2]
      rw [List.append_nil] at hn ⊢
      exact ih ass h' start last ds j' f' hn
    · subst e
      have hn' := (List.nodup_append.1 hn).1
      obtain ⟨h', start', e1, k1, p1, e2⟩ := appendMacro_join j atomic_nil hx hn' fuel hf
      rw [step h' start' (.pair a) e1 (Or.inr e2)]
      exact ih ass h' start' (.pair a) _ ⟨k1, p1, by rw [← List.append_assoc, lastV_snoc], hn'⟩ f' hn

/-! ### append2! -/

theorem append2X_loop {h : Heap} {list obj : Val} (as : List Nat) : ∀ (a : Nat) (v : Val) (fuel : Nat), Path h v (as ++ [a]) .nil → as.length < fuel →
    append2X list obj fuel h v = .ok (h.setCdr a obj, list) := by
  induction as with
  | nil =>
    intro a v fuel p hf
    cases fuel with
    | zero => simp at hf
    | succ fuel =>
      obtain ⟨rfl, _, p⟩ := p
      unfold append2X
      dsimp only
      have p : h.cdr a = .nil := p
      rw [if_pos p]
  | cons b as ih =>
    intro a v fuel p hf
    cases fuel with
    | zero => simp at hf
    | succ fuel =>
      obtain ⟨rfl, _, p⟩ := p
      unfold append2X
      dsimp only
      rw [if_neg ?_]
      · exact ih a _ fuel p (by rw [List.length_cons] at hf; omega)
      · intro e
        cases as with
        | nil => have := p.1; rw [e] at this; simp at this
        | cons x xs => have := p.1; rw [e] at this; simp at this

theorem append2X_dotted {h : Heap} {list obj t : Val} (ht : Val.Atomic t) (htn : t ≠ .nil) (as : List Nat) : ∀ (v : Val) (fuel : Nat), Path h v as t → as.length < fuel →
    append2X list obj fuel h v = .ok (h, obj) := by
  induction as with
  | nil =>
    intro v fuel p hf
    cases fuel with
    | zero => simp at hf
    | succ fuel =>
      have p : v = t := p
      subst p
      unfold append2X
      cases v with
      | nil => rfl
      | atom x => rfl
      | pair a => exact absurd rfl (ht a)
  | cons b as ih =>
    intro v fuel p hf
    cases fuel with
    | zero => simp at hf
    | succ fuel =>
      obtain ⟨rfl, _, p⟩ := p
      unfold append2X
      dsimp only
      rw [if_neg ?_]
      · exact ih _ fuel p (by rw [List.length_cons] at hf; omega)
      · intro e
        cases as with
        | nil => have p : h.cdr b = t := p; rw [e] at p; exact htn p.symm
        | cons x xs => have := p.1; rw [e] at this; simp at this

/-! ### reverse! -/

theorem reverse2X_loop {h0 : Heap} {t tail : Val} (ht : Val.Atomic t) (as : List Nat) : ∀ (fuel : Nat) (h : Heap) (v result : Val) (ps : List Nat),
    Path h v as t → as.length < fuel → (ps ++ as).Nodup → Path h result ps tail → ChangesCdrs ps h0 h →
    ∃ h' v', reverse2X fuel h v result = .ok (h', v') ∧ Path h' v' (as.reverse ++ ps) tail ∧ ChangesCdrs (ps ++ as) h0 h' := by
  induction as with
  | nil =>
    intro fuel h v result ps p hf hn q k
    cases fuel with
    | zero => simp at hf
    | succ fuel =>
      have p : v = t := p
      subst p
      refine ⟨h, result, ?_, q, by rw [List.append_nil]; exact k⟩
      unfold reverse2X
      cases v with
      | nil => rfl
      | atom x => rfl
      | pair a => exact absurd rfl (ht a)
  | cons a as ih =>
    intro fuel h v result ps p hf hn q k
    cases fuel with
    | zero => simp at hf
    | succ fuel =>
      obtain ⟨rfl, hlt, p⟩ := p
      have hn2 := List.nodup_append.1 hn
      have ha1 : a ∉ ps := fun hm => hn2.2.2 a hm a (by simp) rfl
      have ha2 : a ∉ as := (List.nodup_cons.1 hn2.2.1).1
      unfold reverse2X
      dsimp only
      have hp : (ps ++ a :: as).Perm (a :: ps ++ as) := List.perm_middle
      obtain ⟨h', v', e1, e2, e3⟩ := ih fuel (h.setCdr a result) (h.cdr a) (.pair a) (a :: ps) (path_setCdr ha2 p) (by rw [List.length_cons] at hf; omega)
        (hp.nodup_iff.1 hn)
        ⟨rfl, hlt, by
          show Path _ (if a = a then result else _) _ _
          rw [if_pos rfl]; exact path_setCdr ha1 q⟩
        (changes_setCdr k result _ (fun c hc => by simp [hc]) (by simp))
      refine ⟨h', v', e1, ?_, changes_mono e3 _ (fun c hc => hp.mem_iff.2 hc)⟩
      rw [List.reverse_cons, List.append_assoc]
      exact e2

theorem reverse2X_spec {h : Heap} {v t tail : Val} {as : List Nat} (ht : Val.Atomic t) (p : Path h v as t) (fuel : Nat) (hf : h.size < fuel) :
    ∃ h' v', reverse2X fuel h v tail = .ok (h', v') ∧ Path h' v' as.reverse tail ∧ ChangesCdrs as h h' := by
  have := path_len ht p
  obtain ⟨h', v', e1, e2, e3⟩ := reverse2X_loop (h0 := h) (tail := tail) ht as fuel h v tail [] p (by omega) (path_nodup ht p) rfl (ChangesCdrs.refl h)
  rw [List.append_nil] at e2
  exact ⟨h', v', e1, e2, e3⟩

/-! ### reverse -/

theorem path_setCar {h : Heap} {r : Nat} {x : Val} {as : List Nat} : ∀ {v w : Val}, Path h v as w → Path (h.setCar r x) v as w := by
  induction as with
  | nil => intro v w p; exact p
  | cons a as ih => rintro v w ⟨e, hlt, p⟩; exact ⟨e, hlt, ih p⟩

theorem reverseLoop_spec {h0 : Heap} {t tail : Val} (ht : Val.Atomic t) (as : List Nat) : ∀ (fuel : Nat) (h : Heap) (v : Val) (r : Nat) (fs : List Nat),
    Path h0 v as t → as.length < fuel → Keeps h0 h → New h0 (r :: fs) → Path h (.pair r) (r :: fs) tail →
    ∃ h' r' fs', reverseLoop fuel h v r = .ok (h', r') ∧ Keeps h0 h' ∧ New h0 (r' :: fs') ∧ Path h' (.pair r') (r' :: fs') tail ∧
      elems h' fs' = (elems h0 as).reverse ++ elems h fs := by
  induction as with
  | nil =>
    intro fuel h v r fs p hf k hn q
    cases fuel with
    | zero => simp at hf
    | succ fuel =>
      have p : v = t := p
      subst p
      refine ⟨h, r, fs, ?_, k, hn, q, rfl⟩
      unfold reverseLoop
      cases v with
      | nil => rfl
      | atom x => rfl
      | pair a => exact absurd rfl (ht a)
  | cons a as ih =>
    intro fuel h v r fs p hf k hn q
    cases fuel with
    | zero => simp at hf
    | succ fuel =>
      obtain ⟨rfl, hlt, p⟩ := p
      have hr0 : h0.size ≤ r := hn.2 r (by simp)
      have hmem : ∀ c ∈ r :: fs, c < h.size := path_mem q
      unfold reverseLoop
      dsimp only
      rw [(k.2 a hlt).1]
      have hk1 : Keeps h0 (h.setCar r (h0.car a)) := by
        refine ⟨k.1, fun i hi => ⟨?_, (k.2 i hi).2⟩⟩
        show (if i = r then _ else h.car i) = _
        rw [if_neg (by omega)]
        exact (k.2 i hi).1
      have kc := keeps_cons (h.setCar r (h0.car a)) .nil (.pair r)
      have hk2 := Keeps.trans hk1 kc
      rw [(hk2.2 a hlt).2]
      have hsz : (h.setCar r (h0.car a)).size = h.size := rfl
      have q1 : Path ((h.setCar r (h0.car a)).cons .nil (.pair r)).1 (.pair r) (r :: fs) tail := path_keeps kc (path_setCar q)
      have hnotin : h.size ∉ r :: fs := fun hm => absurd (hmem _ hm) (by omega)
      obtain ⟨h', r', fs', e1, e2, e3, e4, e5⟩ := ih fuel _ (h0.cdr a) h.size (r :: fs) p (by rw [List.length_cons] at hf; omega) hk2
        ⟨List.nodup_cons.2 ⟨hnotin, hn.1⟩, fun c hc => by
          rcases List.mem_cons.1 hc with hc | hc
          · rw [hc]; exact k.1
          · exact hn.2 c hc⟩
        ⟨rfl, Nat.lt_succ_self _, by
          show Path _ (if h.size = h.size then .pair r else _) _ _
          rw [if_pos rfl]; exact q1⟩
      refine ⟨h', r', fs', e1, e2, e3, e4, ?_⟩
      have hel : elems ((h.setCar r (h0.car a)).cons .nil (.pair r)).1 (r :: fs) = h0.car a :: elems h fs := by
        rw [elems_keeps kc hmem]
        show (if r = r then h0.car a else _) :: _ = _
        rw [if_pos rfl]
        congr 1
        refine List.map_congr_left fun c hc => ?_
        show (if c = r then _ else h.car c) = _
        rw [if_neg (fun e => (List.nodup_cons.1 hn.1).1 (by rw [← e]; exact hc))]
      rw [e5, hel]
      show _ = (h0.car a :: elems h0 as).reverse ++ _
      rw [List.reverse_cons, List.append_assoc]; rfl

theorem reverse2_spec {h : Heap} {v t tail : Val} {as : List Nat} (ht : Val.Atomic t) (p : Path h v as t) (fuel : Nat) (hf : h.size < fuel) :
    ∃ h' v' fs, reverse2 fuel h v tail = .ok (h', v') ∧ Keeps h h' ∧ New h fs ∧ Path h' v' fs tail ∧ elems h' fs = (elems h as).reverse := by
  cases as with
  | nil =>
    have p : v = t := p
    subst p
    refine ⟨h, tail, [], ?_, Keeps.refl h, ⟨List.nodup_nil, by simp⟩, rfl, rfl⟩
    cases v with
    | nil => rfl
    | atom x => rfl
    | pair a => exact absurd rfl (ht a)
  | cons a as =>
    have hl := path_len ht p
    have kc := keeps_cons h .nil tail
    obtain ⟨h', r', fs', e1, e2, e3, e4, e5⟩ := reverseLoop_spec (tail := tail) ht (a :: as) fuel (h.cons .nil tail).1 v h.size [] p (by omega) kc
      ⟨List.nodup_singleton _, by simp⟩ ⟨rfl, Nat.lt_succ_self _, by
        show (if h.size = h.size then tail else _) = _
        rw [if_pos rfl]⟩
    have ev : v = .pair a := p.1
    refine ⟨h', h'.cdr r', fs', ?_, e2, ⟨(List.nodup_cons.1 e3.1).2, fun c hc => e3.2 c (by simp [hc])⟩, e4.2.2, by rw [e5]; simp [elems]⟩
    unfold reverse2
    rw [ev] at e1 ⊢
    dsimp only
    rw [e1]

/-! ### list-tail, list-ref -/

theorem listTailLoop_spec {h : Heap} (hc : Closed h) (n : Nat) : ∀ {v : Val}, Exists h v → ∀ w, listTailLoop h n v = some w ↔ ∃ as, as.length = n ∧ Path h v as w := by
  induction n with
  | zero =>
    intro v _ w
    show some v = some w ↔ _
    constructor
    · intro e; injection e with e; exact ⟨[], rfl, e⟩
    · rintro ⟨as, hl, p⟩
      rw [List.length_eq_zero_iff.1 hl] at p
      have p : v = w := p
      rw [p]
  | succ n ih =>
    intro v hv w
    cases v with
    | pair a =>
      show listTailLoop h n (h.cdr a) = some w ↔ _
      rw [ih (hc a (hv a rfl)).2 w]
      constructor
      · rintro ⟨as, hl, p⟩; exact ⟨a :: as, by rw [List.length_cons, hl], rfl, hv a rfl, p⟩
      · rintro ⟨as, hl, p⟩
        cases as with
        | nil => simp at hl
        | cons b as =>
          obtain ⟨e, _, p⟩ := p
          injection e with e
          subst e
          exact ⟨as, by rw [List.length_cons] at hl; omega, p⟩
    | nil =>
      show none = some w ↔ _
      constructor
      · intro e; simp at e
      · rintro ⟨as, hl, p⟩
        cases as with
        | nil => simp at hl
        | cons b as => have := p.1; simp at this
    | atom m =>
      show none = some w ↔ _
      constructor
      · intro e; simp at e
      · rintro ⟨as, hl, p⟩
        cases as with
        | nil => simp at hl
        | cons b as => have := p.1; simp at this

/-! ### member, assoc -/

theorem member_found {h : Heap} {eq : Val → Bool} (cs : List Nat) : ∀ (v : Val) (a fuel : Nat), Path h v cs (.pair a) → (∀ c ∈ cs, eq (h.car c) = false) → eq (h.car a) = true →
    cs.length < fuel → member h eq fuel v = .ok (some a) := by
  induction cs with
  | nil =>
    intro v a fuel p _ ha hf
    cases fuel with
    | zero => simp at hf
    | succ fuel =>
      have p : v = .pair a := p
      subst p
      unfold member
      dsimp only
      rw [if_pos ha]
  | cons c cs ih =>
    intro v a fuel p hno ha hf
    cases fuel with
    | zero => simp at hf
    | succ fuel =>
      obtain ⟨rfl, _, p⟩ := p
      unfold member
      dsimp only
      rw [if_neg (by rw [hno c (by simp)]; simp)]
      exact ih _ a fuel p (fun d hd => hno d (by simp [hd])) ha (by rw [List.length_cons] at hf; omega)

theorem member_none {h : Heap} {eq : Val → Bool} {t : Val} (ht : Val.Atomic t) (cs : List Nat) : ∀ (v : Val) (fuel : Nat), Path h v cs t → (∀ c ∈ cs, eq (h.car c) = false) →
    cs.length < fuel → member h eq fuel v = .ok none := by
  induction cs with
  | nil =>
    intro v fuel p _ hf
    cases fuel with
    | zero => simp at hf
    | succ fuel =>
      have p : v = t := p
      subst p
      unfold member
      cases v with
      | nil => rfl
      | atom x => rfl
      | pair a => exact absurd rfl (ht a)
  | cons c cs ih =>
    intro v fuel p hno hf
    cases fuel with
    | zero => simp at hf
    | succ fuel =>
      obtain ⟨rfl, _, p⟩ := p
      unfold member
      dsimp only
      rw [if_neg (by rw [hno c (by simp)]; simp)]
      exact ih _ fuel p (fun d hd => hno d (by simp [hd])) (by rw [List.length_cons] at hf; omega)

/-- `assoc` is `member` with the test of the entry. -/
theorem assoc_member (h : Heap) (eq : Val → Bool) (fuel : Nat) : ∀ v, assoc h eq fuel v =
    match member h (entryTest eq h) fuel v with
    | .ok (some a) => (match h.car a with | .pair e => .ok (some e) | _ => .error)
    | .ok none => .ok none
    | .error => .error
    | .diverge => .diverge := by
  induction fuel with
  | zero => intro v; rfl
  | succ fuel ih =>
    intro v
    unfold assoc member
    cases v with
    | nil => rfl
    | atom n => rfl
    | pair a =>
      dsimp only
      cases e : h.car a with
      | nil =>
        rw [if_neg (by simp [entryTest])]
        exact ih _
      | atom n =>
        rw [if_neg (by simp [entryTest])]
        exact ih _
      | pair b =>
        dsimp only
        by_cases hb : eq (h.car b) = true
        · have ht : entryTest eq h (.pair b) = true := hb
          rw [if_pos hb, if_pos ht]
          dsimp only
          rw [e]
        · have ht : ¬ entryTest eq h (.pair b) = true := hb
          rw [if_neg hb, if_neg ht]
          exact ih _

/-- The first pair reached with a property: before it no pair comes twice. -/
theorem first_reach {h : Heap} (hc : Closed h) {v : Val} (hv : Exists h v) (q : Nat → Bool) (hex : ∃ cs a, Path h v cs (.pair a) ∧ q a = true) :
    ∃ cs a, Path h v cs (.pair a) ∧ q a = true ∧ (∀ c ∈ cs, q c = false) ∧ cs.length < h.size := by
  have hex' : ∃ n a, tl h n v = .pair a ∧ q a = true := by
    obtain ⟨cs, a, p, e⟩ := hex
    exact ⟨cs.length, a, path_tl p, e⟩
  classical
  obtain ⟨a, e1, e2⟩ := Nat.find_spec hex'
  have hmin : ∀ m, m < Nat.find hex' → ∀ b, tl h m v = .pair b → q b = false := by
    intro m hm b hb
    have := Nat.find_min hex' hm
    by_contra hq
    exact this ⟨b, hb, by simpa using hq⟩
  generalize Nat.find hex' = n at *
  have hp : ∀ i < n, ∃ b, tl h i v = .pair b := by
    intro i hi
    rcases atomic_or (tl h i v) with ha | ha
    · exfalso
      have : ∀ m, tl h (i + m) v = tl h i v := by
        intro m
        induction m with
        | zero => rfl
        | succ m ih => rw [← Nat.add_assoc, tl_succ, ih, cdrV_atomic ha]
      have := this (n - i)
      rw [show i + (n - i) = n by omega, e1] at this
      exact ha a this.symm
    · exact ha
  obtain ⟨cs, hl, p⟩ := path_of_tl hc n hv hp
  rw [e1] at p
  have hno : ∀ c ∈ cs, q c = false := by
    intro c hcm
    obtain ⟨i, hi, e⟩ := List.mem_iff_getElem.1 hcm
    exact hmin i (by omega) c (by rw [tl_pair p i hi, e])
  refine ⟨cs, a, p, e2, hno, ?_⟩
  -- no object comes twice before the first
  have hinj : ∀ i j, i < j → j ≤ n → tl h i v ≠ tl h j v := by
    intro i j hij hj e
    have h1 : tl h (i + (n - j)) v = tl h n v := by
      rw [tl_add, e, ← tl_add, show j + (n - j) = n by omega]
    rw [e1] at h1
    have := hmin (i + (n - j)) (by omega) a h1
    rw [e2] at this
    simp at this
  have hpos : ∀ i, i ≤ n → addr (tl h i v) < h.size ∧ tl h i v = .pair (addr (tl h i v)) := by
    intro i hi
    by_cases h' : i = n
    · rw [h', e1]; exact ⟨exists_tl hc n hv a e1, rfl⟩
    · obtain ⟨b, hb⟩ := hp i (by omega)
      rw [hb]; exact ⟨exists_tl hc i hv b hb, rfl⟩
  rw [hl]
  by_contra hge
  obtain ⟨x, y, hne, e⟩ := Fintype.exists_ne_map_eq_of_card_lt (fun m : Fin (n + 1) => (⟨addr (tl h m v), (hpos m (by omega)).1⟩ : Fin h.size)) (by simp; omega)
  simp only [Fin.mk.injEq] at e
  have e' : tl h x v = tl h y v := by rw [(hpos x (by omega)).2, (hpos y (by omega)).2, e]
  rcases Nat.lt_trichotomy x.1 y.1 with hlt | heq | hgt
  · exact hinj x y hlt (by omega) e'
  · exact hne (Fin.ext heq)
  · exact hinj y x hgt (by omega) e'.symm

end Gauche.ListPrim

import Verif.Proof.EqualRun
/-! The C part of `equal?`. -/
namespace Gauche.Equal

/-- The `n`th cdr. -/
def nth (H : Heap) : Nat → Val → Val
  | 0, v => v
  | n + 1, v => cdr H (nth H n v)

theorem nth_add (H : Heap) (m : Nat) (v : Val) : ∀ n, nth H (m + n) v = nth H n (nth H m v)
  | 0 => rfl
  | n + 1 => by rw [← Nat.add_assoc, nth, nth, nth_add H m v n]

/-- The value is a pair. -/
def IsPair (H : Heap) (v : Val) : Prop := (asPair H v).isSome = true

theorem asPair_some {H : Heap} {v a d : Val} (h : asPair H v = some (a, d)) : kids H v = [a, d] ∧ shape H v = .pair ∧ cdr H v = d := by
  cases v with
  | leaf b => cases h
  | ptr p =>
    simp only [asPair] at h
    cases hc : cellAt H p with
    | vec l => simp only [hc] at h; cases h
    | pair a' d' =>
      simp only [hc] at h
      cases h
      exact ⟨(kids_pair hc).1, (kids_pair hc).2, by simp [cdr, asPair, hc]⟩

theorem asPair_none {H : Heap} {v : Val} (h : asPair H v = none) : shape H v ≠ .pair := by
  cases v with
  | leaf b => cases b <;> simp [shape]
  | ptr p =>
    simp only [asPair] at h
    cases hc : cellAt H p with
    | vec l => simp [shape, hc]
    | pair a' d' => simp only [hc] at h; cases h

theorem asVec_some {H : Heap} {v : Val} {l : List Val} (h : asVec H v = some l) : kids H v = l ∧ shape H v = .vec l.length ∧ asPair H v = none := by
  cases v with
  | leaf b => cases h
  | ptr p =>
    simp only [asVec] at h
    cases hc : cellAt H p with
    | pair a' d' => simp only [hc] at h; cases h
    | vec l' =>
      simp only [hc] at h
      cases h
      exact ⟨(kids_vec hc).1, (kids_vec hc).2, by simp [asPair, hc]⟩

theorem asVec_none {H : Heap} {v : Val} (h : asVec H v = none) : ∀ n, shape H v ≠ .vec n := by
  intro n
  cases v with
  | leaf b => cases b <;> simp [shape]
  | ptr p =>
    simp only [asVec] at h
    cases hc : cellAt H p with
    | pair a' d' => simp [shape, hc]
    | vec l => simp only [hc] at h; cases h

theorem leaf_of {H : Heap} {v : Val} (h : asPair H v = none) (h' : asVec H v = none) : ∃ a, v = .leaf a := by
  cases v with
  | leaf a => exact ⟨a, rfl⟩
  | ptr p =>
    simp only [asPair] at h
    simp only [asVec] at h'
    cases hc : cellAt H p with
    | pair a' d' => simp only [hc] at h; cases h
    | vec l => simp only [hc] at h'; cases h'

theorem sameTree_of_kids {H : Heap} {x y : Val} (h : KidsRel H (SameTree H) x y) : SameTree H x y := by
  intro path
  cases path with
  | nil => simp only [follow, Option.map_some, h.1]
  | cons i path =>
    rw [follow, follow]
    cases hx : (kids H x)[i]? with
    | none =>
      have : (kids H y)[i]? = none := by
        rw [List.getElem?_eq_none_iff] at hx ⊢; have := h.2.1; omega
      rw [this]
    | some v =>
      have hi : i < (kids H y).length := by
        rw [← h.2.1]; exact (List.getElem?_eq_some_iff.1 hx).1
      rw [List.getElem?_eq_getElem hi]
      exact h.2.2 i _ _ hx (List.getElem?_eq_getElem hi) path

theorem sameTree_pair {H : Heap} {x y a d a' d' : Val} (hx : asPair H x = some (a, d)) (hy : asPair H y = some (a', d')) :
    SameTree H x y ↔ SameTree H a a' ∧ SameTree H d d' := by
  obtain ⟨kx, sx, _⟩ := asPair_some hx
  obtain ⟨ky, sy, _⟩ := asPair_some hy
  constructor
  · intro h
    exact ⟨h.kid (i := 0) (by rw [kx]; rfl) (by rw [ky]; rfl), h.kid (i := 1) (by rw [kx]; rfl) (by rw [ky]; rfl)⟩
  · rintro ⟨h1, h2⟩
    refine sameTree_of_kids ⟨by rw [sx, sy], by rw [kx, ky]; rfl, ?_⟩
    intro i v w hv hw
    rw [kx] at hv; rw [ky] at hw
    match i with
    | 0 => cases hv; cases hw; exact h1
    | 1 => cases hv; cases hw; exact h2
    | i + 2 => simp at hv

theorem equalAtom_same {H : Heap} {a : Leaf} {y : Val} : equalAtom (.leaf a) y = true ↔ SameTree H (.leaf a) y := by
  constructor
  · intro h
    exact sameTree_of_kids (kidsRel_leaf h)
  · intro h
    exact equalAtom_iff.2 h.shape

theorem checkAgg_ok {H : Heap} {a b : Val} (h : checkAgg H a b = .ok) : SameTree H a b := by
  unfold checkAgg at h
  by_cases h1 : (asPair H a).isSome = true
  · rw [if_pos h1] at h
    by_cases h2 : (asPair H b).isSome = true
    · rw [if_pos h2] at h; cases h
    · rw [if_neg h2] at h; cases h
  · rw [if_neg h1] at h
    by_cases h2 : (asVec H a).isSome = true
    · rw [if_pos h2] at h
      by_cases h3 : (asVec H b).isSome = true
      · rw [if_pos h3] at h; cases h
      · rw [if_neg h3] at h; cases h
    · rw [if_neg h2] at h
      obtain ⟨l, rfl⟩ := leaf_of (by simpa using h1) (by simpa using h2)
      by_cases h3 : equalAtom (.leaf l) b = true
      · exact equalAtom_same.1 h3
      · rw [if_neg h3] at h; cases h

theorem checkAgg_no {H : Heap} {a b : Val} (h : checkAgg H a b = .no) : ¬ SameTree H a b := by
  unfold checkAgg at h
  by_cases h1 : (asPair H a).isSome = true
  · rw [if_pos h1] at h
    obtain ⟨⟨c, d⟩, hc⟩ := Option.isSome_iff_exists.1 h1
    by_cases h2 : (asPair H b).isSome = true
    · rw [if_pos h2] at h; cases h
    · refine shape_ne ?_
      rw [(asPair_some hc).2.1]
      exact fun e => asPair_none (by simpa using h2) e.symm
  · rw [if_neg h1] at h
    by_cases h2 : (asVec H a).isSome = true
    · rw [if_pos h2] at h
      obtain ⟨l, hc⟩ := Option.isSome_iff_exists.1 h2
      by_cases h3 : (asVec H b).isSome = true
      · rw [if_pos h3] at h; cases h
      · refine shape_ne ?_
        rw [(asVec_some hc).2.1]
        exact fun e => asVec_none (by simpa using h3) _ e.symm
    · rw [if_neg h2] at h
      obtain ⟨l, rfl⟩ := leaf_of (by simpa using h1) (by simpa using h2)
      by_cases h3 : equalAtom (.leaf l) b = true
      · rw [if_pos h3] at h; cases h
      · exact fun hs => h3 (equalAtom_same.2 hs)

/-- The car of a pair. -/
def car (H : Heap) (v : Val) : Val :=
  match asPair H v with
  | some (a, _) => a
  | none => v

theorem asPair_eq {H : Heap} {v a d : Val} (h : asPair H v = some (a, d)) : car H v = a ∧ cdr H v = d := by
  simp [car, cdr, h]

/-- The first `n` cars agree, in lists of at least `n` pairs. -/
def Agree (H : Heap) (x y : Val) (n : Nat) : Prop :=
  ∀ i, i < n → IsPair H (nth H i x) ∧ IsPair H (nth H i y) ∧ SameTree H (car H (nth H i x)) (car H (nth H i y))

theorem Agree.succ {H : Heap} {x y : Val} {n : Nat} (h : Agree H x y n) {a d a' d' : Val} (hx : asPair H (nth H n x) = some (a, d))
    (hy : asPair H (nth H n y) = some (a', d')) (hs : SameTree H a a') : Agree H x y (n + 1) := by
  intro i hi
  by_cases e : i = n
  · subst e
    refine ⟨by rw [IsPair, hx]; rfl, by rw [IsPair, hy]; rfl, ?_⟩
    rw [(asPair_eq hx).1, (asPair_eq hy).1]; exact hs
  · exact h i (by omega)

theorem Agree.same {H : Heap} {x y : Val} : ∀ {n : Nat}, Agree H x y n → (SameTree H x y ↔ SameTree H (nth H n x) (nth H n y))
  | 0, _ => Iff.rfl
  | n + 1, h => by
    rw [Agree.same (n := n) (fun i hi => h i (by omega))]
    obtain ⟨h1, h2, h3⟩ := h n (by omega)
    obtain ⟨⟨a, d⟩, hx⟩ := Option.isSome_iff_exists.1 h1
    obtain ⟨⟨a', d'⟩, hy⟩ := Option.isSome_iff_exists.1 h2
    rw [sameTree_pair hx hy, nth, nth, (asPair_eq hx).2, (asPair_eq hy).2]
    rw [(asPair_eq hx).1, (asPair_eq hy).1] at h3
    exact ⟨fun h => h.2, fun h => ⟨h3, h⟩⟩

/-- The hare met the tortoise in round `k`. -/
def Meet (H : Heap) (x : Val) (k : Nat) : Prop := nth H k x = nth H (2 * k + 1) x

/-- What the outcome of the loop over the lists means. -/
def OutOK (H : Heap) (x y : Val) : Out → Prop
  | .ret false => ¬ SameTree H x y
  | .ret true => ∃ K k1 k2, k1 ≤ K ∧ k2 ≤ K ∧ Meet H x k1 ∧ Meet H y k2 ∧ Agree H x y (2 * K + 2)
  | .fallback x' y' => SameTree H x' y' ↔ SameTree H x y
  | .tail x' y' => (SameTree H x' y' ↔ SameTree H x y) ∧ ¬ (IsPair H x' ∧ IsPair H y')

theorem listLoop_ok {H : Heap} {x y : Val} : ∀ (m k : Nat) (xc yc : Bool) (out : Out), Agree H x y (2 * k) →
    (xc = true → ∃ k1, k1 ≤ k ∧ Meet H x k1) → (yc = true → ∃ k2, k2 ≤ k ∧ Meet H y k2) →
    listLoop H m (nth H (2 * k) x) (nth H (2 * k) y) (nth H k x) (nth H k y) xc yc = some out → IsPair H (nth H (2 * k) x) ∧ IsPair H (nth H (2 * k) y) → OutOK H x y out
  | 0, _, _, _, _, _, _, _, h, _ => by cases h
  | m + 1, k, xc, yc, out, ha, hxc, hyc, h, ⟨hpx, hpy⟩ => by
    obtain ⟨⟨a, x1⟩, hx⟩ := Option.isSome_iff_exists.1 hpx
    obtain ⟨⟨b, y1⟩, hy⟩ := Option.isSome_iff_exists.1 hpy
    have ex1 : nth H (2 * k + 1) x = x1 := by rw [nth, (asPair_eq hx).2]
    have ey1 : nth H (2 * k + 1) y = y1 := by rw [nth, (asPair_eq hy).2]
    rw [listLoop] at h
    simp only [hx, hy] at h
    cases hc : checkAgg H a b with
    | no =>
      rw [hc] at h; cases h
      show ¬ SameTree H x y
      rw [ha.same, sameTree_pair hx hy]
      exact fun h => checkAgg_no hc h.1
    | fallback =>
      rw [hc] at h; cases h
      exact ha.same.symm
    | ok =>
      have ha1 : Agree H x y (2 * k + 1) := ha.succ hx hy (checkAgg_ok hc)
      rw [hc] at h
      simp only at h
      by_cases hp1 : IsPair H x1 ∧ IsPair H y1
      · obtain ⟨⟨a', x2⟩, hx1⟩ := Option.isSome_iff_exists.1 hp1.1
        obtain ⟨⟨b', y2⟩, hy1⟩ := Option.isSome_iff_exists.1 hp1.2
        simp only [hx1, hy1] at h
        have hx1' : asPair H (nth H (2 * k + 1) x) = some (a', x2) := by rw [ex1]; exact hx1
        have hy1' : asPair H (nth H (2 * k + 1) y) = some (b', y2) := by rw [ey1]; exact hy1
        have ex2 : nth H (2 * k + 2) x = x2 := by rw [nth, (asPair_eq hx1').2]
        have ey2 : nth H (2 * k + 2) y = y2 := by rw [nth, (asPair_eq hy1').2]
        cases hc1 : checkAgg H a' b' with
        | no =>
          rw [hc1] at h; cases h
          show ¬ SameTree H x y
          rw [ha1.same, sameTree_pair hx1' hy1']
          exact fun h => checkAgg_no hc1 h.1
        | fallback =>
          rw [hc1] at h; cases h
          show SameTree H x1 y1 ↔ SameTree H x y
          rw [ha1.same, ex1, ey1]
        | ok =>
          have ha2 : Agree H x y (2 * k + 2) := ha1.succ hx1' hy1' (checkAgg_ok hc1)
          rw [hc1] at h
          simp only at h
          by_cases c1 : nth H k x = x1 ∧ yc = true
          · rw [if_pos c1] at h; cases h
            obtain ⟨k2, hk2, hm2⟩ := hyc c1.2
            exact ⟨k, k, k2, Nat.le_refl _, hk2, c1.1.trans ex1.symm, hm2, ha2⟩
          · rw [if_neg c1] at h
            by_cases c2 : nth H k y = y1 ∧ (xc = true ∨ nth H k x = x1)
            · rw [if_pos c2] at h; cases h
              have : ∃ k1, k1 ≤ k ∧ Meet H x k1 := by
                rcases c2.2 with h | h
                · exact hxc h
                · exact ⟨k, Nat.le_refl _, h.trans ex1.symm⟩
              obtain ⟨k1, hk1, hm1⟩ := this
              exact ⟨k, k1, k, hk1, Nat.le_refl _, hm1, c2.1.trans ey1.symm, ha2⟩
            · rw [if_neg c2] at h
              by_cases c3 : (asPair H x2).isSome = true ∧ (asPair H y2).isSome = true
              · rw [if_pos c3] at h
                have e2 : 2 * (k + 1) = 2 * k + 2 := by omega
                refine listLoop_ok m (k + 1) (xc || decide (nth H k x = x1)) (yc || decide (nth H k y = y1)) out (by rw [e2]; exact ha2) ?_ ?_ ?_ ?_
                · intro hh
                  rw [Bool.or_eq_true, decide_eq_true_eq] at hh
                  rcases hh with h | h
                  · obtain ⟨k1, h1, h2⟩ := hxc h; exact ⟨k1, by omega, h2⟩
                  · exact ⟨k, by omega, h.trans ex1.symm⟩
                · intro hh
                  rw [Bool.or_eq_true, decide_eq_true_eq] at hh
                  rcases hh with h | h
                  · obtain ⟨k1, h1, h2⟩ := hyc h; exact ⟨k1, by omega, h2⟩
                  · exact ⟨k, by omega, h.trans ey1.symm⟩
                · rw [e2, ex2, ey2]; exact h
                · rw [e2, ex2, ey2]; exact c3
              · rw [if_neg c3] at h; cases h
                refine ⟨?_, c3⟩
                rw [ha2.same, ex2, ey2]
      · have h' : some (Out.tail x1 y1) = some out := by
          cases hx1 : asPair H x1 with
          | none => simp only [hx1] at h; exact h
          | some w =>
            obtain ⟨a', x2⟩ := w
            cases hy1 : asPair H y1 with
            | none => simp only [hx1, hy1] at h; exact h
            | some w => exact absurd ⟨by rw [IsPair, hx1]; rfl, by rw [IsPair, hy1]; rfl⟩ hp1
        cases h'
        refine ⟨?_, hp1⟩
        rw [ha1.same, ex1, ey1]

theorem vecLoop_ok {H : Heap} : ∀ (l l' : List Val) (b : Bool), l.length = l'.length → vecLoop H l l' = some b →
    (b = true → ∀ (i : Nat) (v w : Val), l[i]? = some v → l'[i]? = some w → SameTree H v w) ∧
    (b = false → ∃ (i : Nat) (v w : Val), l[i]? = some v ∧ l'[i]? = some w ∧ ¬ SameTree H v w)
  | [], [], b, _, h => by cases h; exact ⟨fun _ i v w h => (by simp at h), fun h => (by cases h)⟩
  | [], _ :: _, _, h, _ => by simp at h
  | _ :: _, [], _, h, _ => by simp at h
  | a :: l, a' :: l', b, hl, h => by
    rw [vecLoop] at h
    cases hc : checkAgg H a a' with
    | no =>
      rw [hc] at h; cases h
      exact ⟨fun h => (by cases h), fun _ => ⟨0, a, a', rfl, rfl, checkAgg_no hc⟩⟩
    | fallback => rw [hc] at h; cases h
    | ok =>
      rw [hc] at h
      obtain ⟨h1, h2⟩ := vecLoop_ok l l' b (by simpa using hl) h
      constructor
      · intro hb i v w hv hw
        cases i with
        | zero => simp at hv hw; subst hv; subst hw; exact checkAgg_ok hc
        | succ i => exact h1 hb i v w (by simpa using hv) (by simpa using hw)
      · intro hb
        obtain ⟨i, v, w, hv, hw, hd⟩ := h2 hb
        exact ⟨i + 1, v, w, by simpa using hv, by simpa using hw, hd⟩

theorem equalNonPair_ok {H : Heap} {rnd : Nat → Nat} {n : Nat} {x y : Val} {b : Bool} (hp : ¬ (IsPair H x ∧ IsPair H y))
    (h : equalNonPair H rnd n x y = some b) : b = true ↔ SameTree H x y := by
  unfold equalNonPair at h
  by_cases he : eqv x y = true
  · rw [if_pos he] at h; cases h
    have : x = y := of_decide_eq_true he
    subst this
    exact ⟨fun _ => .refl H x, fun _ => rfl⟩
  · rw [if_neg he] at h
    by_cases h1 : (asPair H x).isSome = true
    · rw [if_pos h1] at h; cases h
      refine ⟨fun h => (by cases h), fun hs => absurd hs (shape_ne ?_)⟩
      obtain ⟨⟨a, d⟩, hx⟩ := Option.isSome_iff_exists.1 h1
      rw [(asPair_some hx).2.1]
      refine fun e => asPair_none ?_ e.symm
      cases hy : asPair H y with
      | none => rfl
      | some w => exact absurd ⟨h1, by rw [IsPair, hy]; rfl⟩ hp
    · rw [if_neg h1] at h
      cases hx : asVec H x with
      | none =>
        simp only [hx] at h; cases h
        obtain ⟨a, rfl⟩ := leaf_of (by simpa using h1) hx
        exact equalAtom_same
      | some l =>
        simp only [hx] at h
        cases hy : asVec H y with
        | none =>
          simp only [hy] at h; cases h
          refine ⟨fun h => (by cases h), fun hs => absurd hs (shape_ne ?_)⟩
          rw [(asVec_some hx).2.1]
          exact fun e => asVec_none hy _ e.symm
        | some l' =>
          simp only [hy] at h
          by_cases hl : l'.length = l.length
          · rw [if_pos hl] at h
            cases hv : vecLoop H l l' with
            | none => simp only [hv] at h; exact interleave_ok h
            | some b' =>
              simp only [hv] at h; cases h
              obtain ⟨h2, h3⟩ := vecLoop_ok l l' b hl.symm hv
              have kx := (asVec_some hx).1
              have ky := (asVec_some hy).1
              constructor
              · intro hb
                refine sameTree_of_kids ⟨by rw [(asVec_some hx).2.1, (asVec_some hy).2.1, hl], by rw [kx, ky, hl], ?_⟩
                intro i v w hv hw
                rw [kx] at hv; rw [ky] at hw
                exact h2 hb i v w hv hw
              · intro hs
                cases b with
                | true => rfl
                | false =>
                  obtain ⟨i, v, w, hv, hw, hd⟩ := h3 rfl
                  exact absurd (hs.kid (by rw [kx]; exact hv) (by rw [ky]; exact hw)) hd
          · rw [if_neg hl] at h; cases h
            refine ⟨fun h => (by cases h), fun hs => absurd hs (shape_ne ?_)⟩
            rw [(asVec_some hx).2.1, (asVec_some hy).2.1]
            intro e; injection e with e; exact hl e.symm

/-- What an answer of `equal?` means. -/
theorem equalP_ok {H : Heap} {rnd : Nat → Nat} {n : Nat} {x y : Val} {b : Bool} (h : equalP H rnd n x y = some b) :
    (b = false → ¬ SameTree H x y) ∧
    (b = true → SameTree H x y ∨ ∃ K k1 k2, k1 ≤ K ∧ k2 ≤ K ∧ Meet H x k1 ∧ Meet H y k2 ∧ Agree H x y (2 * K + 2)) := by
  have iff : ∀ {P : Prop} {b : Bool}, (b = true ↔ SameTree H x y) → (b = false → ¬ SameTree H x y) ∧ (b = true → SameTree H x y ∨ P) := by
    intro P b h
    exact ⟨fun hb hs => (by rw [h.2 hs] at hb; cases hb), fun hb => .inl (h.1 hb)⟩
  unfold equalP at h
  by_cases he : eqv x y = true
  · rw [if_pos he] at h; cases h
    have : x = y := of_decide_eq_true he
    subst this
    exact ⟨fun h => (by cases h), fun _ => .inl (.refl H x)⟩
  · rw [if_neg he] at h
    by_cases hp : (asPair H x).isSome = true ∧ (asPair H y).isSome = true
    · rw [if_pos hp] at h
      cases hl : listLoop H n x y x y false false with
      | none => rw [hl] at h; cases h
      | some out =>
        have hok := listLoop_ok (x := x) (y := y) n 0 false false out (fun i hi => absurd hi (by omega)) (fun h => (by cases h)) (fun h => (by cases h)) hl hp
        rw [hl] at h
        cases out with
        | ret b' =>
          cases h
          cases b with
          | false => exact ⟨fun _ => hok, fun h => (by cases h)⟩
          | true => exact ⟨fun h => (by cases h), fun _ => .inr hok⟩
        | fallback x' y' => exact iff ((interleave_ok h).trans hok)
        | tail x' y' => exact iff ((equalNonPair_ok hok.2 h).trans hok.1)
    · rw [if_neg hp] at h
      exact iff (equalNonPair_ok hp h)

/-! ### circular lists -/

theorem follow_nth {H : Heap} {x : Val} : ∀ {n : Nat}, (∀ i, i < n → IsPair H (nth H i x)) → follow H (List.replicate n 1) x = some (nth H n x) := by
  intro n
  induction n generalizing x with
  | zero => intro _; rfl
  | succ n ih =>
    intro h
    obtain ⟨⟨a, d⟩, hx⟩ := Option.isSome_iff_exists.1 (h 0 (by omega))
    have hx : asPair H x = some (a, d) := hx
    have e : ∀ i, nth H i d = nth H (i + 1) x := by
      intro i
      have : nth H 1 x = d := (asPair_eq hx).2
      rw [Nat.add_comm, nth_add H 1 x i, this]
    rw [List.replicate_succ, follow, (asPair_some hx).1]
    show follow H (List.replicate n 1) d = _
    rw [ih (fun i hi => by rw [e]; exact h (i + 1) (by omega)), e]

theorem nth_of_follow {H : Heap} {x : Val} (h : CircularList H x) (n : Nat) : follow H (List.replicate n 1) x = some (nth H n x) ∧ IsPair H (nth H n x) := by
  induction n with
  | zero =>
    refine ⟨rfl, ?_⟩
    obtain ⟨v, h1, h2⟩ := h 0
    cases h1
    show (asPair H x).isSome = true
    cases hc : asPair H x with
    | none => exact absurd h2 (asPair_none hc)
    | some w => rfl
  | succ n ih =>
    obtain ⟨v, h1, h2⟩ := h (n + 1)
    have key : ∀ (p q : List Nat) (x : Val), follow H (p ++ q) x = (follow H p x).bind (follow H q) := by
      intro p q
      induction p with
      | nil => intro x; rfl
      | cons i p ih =>
        intro x
        rw [List.cons_append, follow, follow]
        cases (kids H x)[i]? with
        | none => rfl
        | some w => exact ih w
    obtain ⟨⟨a, d⟩, hx⟩ := Option.isSome_iff_exists.1 ih.2
    have hs : follow H (List.replicate (n + 1) 1) x = some (nth H (n + 1) x) := by
      rw [List.replicate_succ', key, ih.1, Option.bind_some, follow, (asPair_some hx).1]
      show some d = some (nth H (n + 1) x)
      rw [nth, (asPair_eq hx).2]
    refine ⟨hs, ?_⟩
    rw [hs] at h1; cases h1
    show (asPair H _).isSome = true
    cases hc : asPair H (nth H (n + 1) x) with
    | none => exact absurd h2 (asPair_none hc)
    | some w => rfl

theorem nth_shift {H : Heap} {x : Val} {i j : Nat} (h : nth H i x = nth H j x) (n : Nat) : nth H (i + n) x = nth H (j + n) x := by
  rw [nth_add, nth_add, h]

theorem circular_of_meet {H : Heap} {x : Val} {k : Nat} (hm : Meet H x k) (hp : ∀ i, i < 2 * k + 1 → IsPair H (nth H i x)) : CircularList H x := by
  have all : ∀ n, IsPair H (nth H n x) := by
    intro n
    induction n using Nat.strongRecOn with
    | _ n ih =>
      by_cases h : n < 2 * k + 1
      · exact hp n h
      · have := nth_shift hm (n - (2 * k + 1))
        rw [show 2 * k + 1 + (n - (2 * k + 1)) = n by omega] at this
        rw [← this]
        exact ih _ (by omega)
  intro n
  refine ⟨_, follow_nth (fun i _ => all i), ?_⟩
  obtain ⟨⟨a, d⟩, hx⟩ := Option.isSome_iff_exists.1 (all n)
  exact (asPair_some hx).2.1

/-- In a list that comes back to its first pair the tortoise and the hare meet after a whole number of turns. -/
theorem meet_pure {H : Heap} {x : Val} {k n : Nat} (hn : 0 < n) (hx : nth H n x = x) (hm : Meet H x k) : nth H (k + 1) x = x := by
  have mul : ∀ t, nth H (n * t) x = x := by
    intro t
    induction t with
    | zero => rfl
    | succ t ih => rw [Nat.mul_succ, nth_add, ih, hx]
  have hle : k ≤ n * k := Nat.le_mul_of_pos_left k hn
  have := nth_shift hm (n * k - k)
  rw [show k + (n * k - k) = n * k by omega, mul, show 2 * k + 1 + (n * k - k) = n * k + (k + 1) by omega, nth_add, mul] at this
  exact this.symm

theorem mod_nth {H : Heap} {x : Val} {p : Nat} (hx : nth H p x = x) (i : Nat) : nth H (i + p) x = nth H i x := by
  rw [Nat.add_comm, nth_add, hx]

/-- Two lists that come back to their first pairs after `p` and `q` steps and agree on `p + q` elements are the same. -/
theorem same_of_periods {H : Heap} {x y : Val} {p q : Nat} (hp0 : 0 < p) (hq0 : 0 < q) (hx : nth H p x = x) (hy : nth H q y = y) (ha : Agree H x y (p + q)) :
    SameTree H x y := by
  have pairx : ∀ i, IsPair H (nth H i x) := by
    intro i
    induction i using Nat.strongRecOn with
    | _ i ih =>
      by_cases h : i < p
      · exact (ha i (by omega)).1
      · have := mod_nth hx (i - p)
        rw [show i - p + p = i by omega] at this
        rw [this]; exact ih _ (by omega)
  have pairy : ∀ i, IsPair H (nth H i y) := by
    intro i
    induction i using Nat.strongRecOn with
    | _ i ih =>
      by_cases h : i < q
      · exact (ha i (by omega)).2.1
      · have := mod_nth hy (i - q)
        rw [show i - q + q = i by omega] at this
        rw [this]; exact ih _ (by omega)
  -- the elements of the first list have the period of the second one too
  have xq : ∀ i, SameTree H (car H (nth H (i + q) x)) (car H (nth H i x)) := by
    intro i
    induction i using Nat.strongRecOn with
    | _ i ih =>
      by_cases h : i < p
      · have h1 := (ha (i + q) (by omega)).2.2
        have h2 := (ha i (by omega)).2.2
        rw [mod_nth hy i] at h1
        exact h1.trans h2.symm
      · have e := mod_nth hx (i - p)
        have e' := mod_nth hx (i - p + q)
        rw [show i - p + p = i by omega] at e
        rw [show i - p + q + p = i + q by omega] at e'
        rw [e, e']
        exact ih _ (by omega)
  have all : ∀ i, SameTree H (car H (nth H i x)) (car H (nth H i y)) := by
    intro i
    induction i using Nat.strongRecOn with
    | _ i ih =>
      by_cases h : i < q
      · exact (ha i (by omega)).2.2
      · have e := mod_nth hy (i - q)
        have e' := xq (i - q)
        rw [show i - q + q = i by omega] at e e'
        rw [e]
        exact e'.trans (ih _ (by omega))
  refine sameTree_of_bisim (E := fun v w => SameTree H v w ∨ ∃ i, v = nth H i x ∧ w = nth H i y) ?_ (.inr ⟨0, rfl, rfl⟩)
  rintro v w (h | ⟨i, rfl, rfl⟩)
  · refine ⟨h.shape, ?_, fun i v' w' h1 h2 => .inl (h.kid h1 h2)⟩
    have hh := h
    have hs := h.shape
    cases v with
    | leaf a =>
      cases w with
      | leaf b => rfl
      | ptr p => exact absurd hs.symm leaf_shape_ne
    | ptr p =>
      cases w with
      | leaf b => exact absurd hs leaf_shape_ne
      | ptr q =>
        cases c1 : cellAt H p <;> cases c2 : cellAt H q <;> simp_all [shape, kids]
  · obtain ⟨⟨a, d⟩, h1⟩ := Option.isSome_iff_exists.1 (pairx i)
    obtain ⟨⟨a', d'⟩, h2⟩ := Option.isSome_iff_exists.1 (pairy i)
    obtain ⟨k1, s1, c1⟩ := asPair_some h1
    obtain ⟨k2, s2, c2⟩ := asPair_some h2
    refine ⟨by rw [s1, s2], by rw [k1, k2]; rfl, ?_⟩
    intro j v w hv hw
    rw [k1] at hv; rw [k2] at hw
    match j with
    | 0 =>
      cases hv; cases hw
      have := all i
      rw [(asPair_eq h1).1, (asPair_eq h2).1] at this
      exact .inl this
    | 1 =>
      cases hv; cases hw
      exact .inr ⟨i + 1, c1.symm, c2.symm⟩
    | j + 2 => simp at hv

end Gauche.Equal

import Verif.Model.Lcs
import Verif.Spec.Subsequence
import Mathlib.Tactic.Ring
import Mathlib.Data.Nat.Notation
/-
Proofs about the longest common subsequence: Myers' furthest-reaching paths.
-/
namespace Gauche.Lcs
open Gauche.Spec

variable {α : Type} (eq : α → α → Bool) (a b : List α)

/-- The positions hold equal elements. -/
def Eqv (i j : Nat) : Prop := ∃ x y, a[i]? = some x ∧ b[j]? = some y ∧ eq x y = true

/-- Points reached with `d` steps to the right or down, over the unbounded grid. -/
inductive Reach : Nat → Nat → Nat → Prop
  | start : Reach 0 0 0
  | diag {d x y} : Reach d x y → Eqv eq a b x y → Reach d (x + 1) (y + 1)
  | right {d x y} : Reach d x y → Reach (d + 1) (x + 1) y
  | down {d x y} : Reach d x y → Reach (d + 1) x (y + 1)

variable {eq a b}

theorem Reach.bound {d x y : Nat} (h : Reach eq a b d x y) :
    (x : Int) - y ≤ d ∧ (y : Int) - x ≤ d ∧ ((x : Int) - y - d) % 2 = 0 := by
  induction h with
  | start => simp
  | diag _ _ ih => push_cast; omega
  | right _ ih => push_cast; omega
  | down _ ih => push_cast; omega

theorem Reach.rights {d x y : Nat} (h : Reach eq a b d x y) (n : Nat) : Reach eq a b (d + n) (x + n) y := by
  induction n with
  | zero => exact h
  | succ n ih => exact ih.right

theorem Reach.downs {d x y : Nat} (h : Reach eq a b d x y) (n : Nat) : Reach eq a b (d + n) x (y + n) := by
  induction n with
  | zero => exact h
  | succ n ih => exact ih.down

theorem reach_of_matching (ps : List (Nat × Nat)) {d x y : Nat} (h : Reach eq a b d x y)
    (hm : IsMatching eq a b ps) (hlo : ∀ p ∈ ps, x ≤ p.1 ∧ y ≤ p.2) (hx : x ≤ a.length) (hy : y ≤ b.length) :
    ∃ e, Reach eq a b e a.length b.length ∧ e + 2 * ps.length + x + y = d + a.length + b.length := by
  induction ps generalizing d x y with
  | nil =>
    refine ⟨d + (a.length - x) + (b.length - y), ?_, by simp; omega⟩
    have := (h.rights (a.length - x)).downs (b.length - y)
    rwa [Nat.add_sub_cancel' hx, Nat.add_sub_cancel' hy] at this
  | cons p ps ih =>
    obtain ⟨h1, h2⟩ := List.pairwise_cons.1 hm.1
    obtain ⟨hlo1, hlo2⟩ := hlo p (by simp)
    obtain ⟨u, w, hu, hw, he⟩ := hm.2 p (by simp)
    have hpa := (List.getElem?_eq_some_iff.1 hu).1
    have hpb := (List.getElem?_eq_some_iff.1 hw).1
    have hr := (h.rights (p.1 - x)).downs (p.2 - y)
    rw [Nat.add_sub_cancel' hlo1, Nat.add_sub_cancel' hlo2] at hr
    obtain ⟨e, he1, he2⟩ := ih (hr.diag ⟨u, w, hu, hw, he⟩) ⟨h2, fun q hq => hm.2 q (by simp [hq])⟩
      (fun q hq => by have := h1 q hq; omega) (by omega) (by omega)
    exact ⟨e, he1, by simp only [List.length_cons]; omega⟩

/-! ### Cells -/

/-- The recorded matches (latest first) form a matching below the point. -/
structure Rec (eq : α → α → Bool) (a b : List α) (x y l : Int) (r : List (α × Int × Int)) : Prop where
  len : (r.length : Int) = l
  ord : r.Pairwise fun p q => q.2.1 < p.2.1 ∧ q.2.2 < p.2.2
  ok : ∀ p ∈ r, 0 ≤ p.2.1 ∧ p.2.1 < x ∧ 0 ≤ p.2.2 ∧ p.2.2 < y ∧ a[p.2.1.toNat]? = some p.1 ∧
    Eqv eq a b p.2.1.toNat p.2.2.toNat

theorem Rec.mono {x y x' y' l : Int} {r : List (α × Int × Int)} (h : Rec eq a b x y l r) (hx : x ≤ x') (hy : y ≤ y') :
    Rec eq a b x' y' l r :=
  ⟨h.len, h.ord, fun p hp => by
    obtain ⟨h1, h2, h3, h4, h5⟩ := h.ok p hp
    exact ⟨h1, by omega, h3, by omega, h5⟩⟩

/-- A cell on diagonal `k` in round `d`. -/
structure Good (eq : α → α → Bool) (a b : List α) (d k : Int) (c : Cell α) : Prop where
  x0 : 0 ≤ c.x
  y0 : 0 ≤ c.x - k
  sum : c.x + (c.x - k) = 2 * c.l + d
  rcd : Rec eq a b c.x (c.x - k) c.l c.r

/-- No path of `d` steps gets further on the diagonal. -/
def Far (eq : α → α → Bool) (a b : List α) (d k : Int) (c : Cell α) : Prop :=
  ∀ (e x y : Nat), (e : Int) = d → Reach eq a b e x y → (x : Int) - y = k → (x : Int) ≤ c.x

theorem vref_nat (l : List α) (i : Nat) : vref l (i : Int) = l[i]? := by simp [vref]

theorem xyLoop_spec (fuel : Nat) (x y l : Int) (r : List (α × Int × Int)) (hx : 0 ≤ x) (hy : 0 ≤ y)
    (hf : (a.length : Int) < fuel + x ∧ 0 < fuel) (hr : Rec eq a b x y l r) :
    ∃ x' y' l' r', xyLoop eq a b fuel x y l r = some (x', y', l', r') ∧ x ≤ x' ∧ x' - y' = x - y ∧
      x' + y' - 2 * l' = x + y - 2 * l ∧ Rec eq a b x' y' l' r' ∧ ¬ Eqv eq a b x'.toNat y'.toNat := by
  induction fuel generalizing x y l r with
  | zero => omega
  | succ n ih =>
    rw [xyLoop]
    by_cases h1 : (a.length : Int) ≤ x
    · rw [if_pos h1]
      refine ⟨x, y, l, r, rfl, le_refl _, rfl, rfl, hr, ?_⟩
      rintro ⟨u, w, hu, _, _⟩
      have := (List.getElem?_eq_some_iff.1 hu).1
      omega
    · rw [if_neg h1]
      by_cases h2 : (b.length : Int) ≤ y
      · rw [if_pos h2]
        refine ⟨x, y, l, r, rfl, le_refl _, rfl, rfl, hr, ?_⟩
        rintro ⟨u, w, _, hw, _⟩
        have := (List.getElem?_eq_some_iff.1 hw).1
        omega
      · rw [if_neg h2]
        obtain ⟨X, rfl⟩ := Int.eq_ofNat_of_zero_le hx
        obtain ⟨Y, rfl⟩ := Int.eq_ofNat_of_zero_le hy
        have ha : X < a.length := by omega
        have hb : Y < b.length := by omega
        rw [vref_nat, vref_nat, List.getElem?_eq_getElem ha, List.getElem?_eq_getElem hb]
        simp only [Option.bind_some]
        by_cases he : eq a[X] b[Y] = true
        · rw [if_pos he]
          have hE : Eqv eq a b X Y := ⟨a[X], b[Y], List.getElem?_eq_getElem ha, List.getElem?_eq_getElem hb, he⟩
          obtain ⟨x', y', l', r', e1, e2, e3, e4, e5, e6⟩ := ih ((X : Int) + 1) ((Y : Int) + 1) (l + 1) ((a[X], (X : Int), (Y : Int)) :: r)
            (by omega) (by omega) (by omega) ⟨by have := hr.len; simp; omega,
              List.pairwise_cons.2 ⟨fun q hq => by have := hr.ok q hq; simp only; omega, hr.ord⟩,
              fun p hp => by
                rcases List.mem_cons.1 hp with rfl | hp
                · simp only [Int.toNat_natCast]
                  exact ⟨by omega, by omega, by omega, by omega, List.getElem?_eq_getElem ha, hE⟩
                · obtain ⟨h1, h2, h3, h4, h5⟩ := hr.ok p hp
                  exact ⟨h1, by omega, h3, by omega, h5⟩⟩
          exact ⟨x', y', l', r', e1, by omega, by omega, by omega, e5, e6⟩
        · rw [if_neg he]
          refine ⟨X, Y, l, r, rfl, le_refl _, rfl, rfl, hr, ?_⟩
          rintro ⟨u, w, hu, hw, hx⟩
          simp only [Int.toNat_natCast] at hu hw
          rw [List.getElem?_eq_getElem ha] at hu
          rw [List.getElem?_eq_getElem hb] at hw
          cases hu; cases hw
          exact he hx

/-! ### The vectors -/

theorem Vec.get_set {v v' : Vec α} {i : Int} {c : Cell α} (h : v.set i c = some v') (j : Int) :
    v'.get j = if i = j then some c else v.get j := by
  unfold Vec.set at h
  by_cases hi : 0 ≤ i + v.mn ∧ i + v.mn < v.cells.length
  · rw [if_pos hi] at h
    cases h
    unfold Vec.get
    dsimp only
    by_cases hij : i = j
    · subst hij
      rw [if_pos rfl, if_pos hi.1, List.getElem?_set_self (by omega)]
    · rw [if_neg hij]
      by_cases hj : 0 ≤ j + v.mn
      · rw [if_pos hj, if_pos hj, List.getElem?_set_ne (by omega)]
      · rw [if_neg hj, if_neg hj]
  · rw [if_neg hi] at h; cases h

/-- What holds of the vectors at every moment. -/
structure Shape (eq : α → α → Bool) (a b : List α) (v : Vec α) : Prop where
  mn : v.mn = (a.length + b.length : Nat)
  len : v.cells.length = 2 * (a.length + b.length) + 1
  rcd : ∀ c ∈ v.cells, ∃ x y, Rec eq a b x y c.l c.r

theorem Shape.set {v : Vec α} (h : Shape eq a b v) {i : Int} {c : Cell α}
    (hi : -(v.mn) ≤ i ∧ i ≤ v.mn) (hc : ∃ x y, Rec eq a b x y c.l c.r) :
    ∃ v', v.set i c = some v' ∧ Shape eq a b v' := by
  have h1 := h.mn; have h2 := h.len
  refine ⟨{ v with cells := v.cells.set (i + v.mn).toNat c }, ?_, h.mn, by simp [h.len], ?_⟩
  · unfold Vec.set; rw [if_pos (by omega)]
  · intro c' hc'
    rcases List.mem_or_eq_of_mem_set hc' with h' | rfl
    · exact h.rcd c' h'
    · exact hc

/-- The diagonals of a round. -/
def Diag (d k : Int) : Prop := -d ≤ k ∧ k ≤ d ∧ (k - d) % 2 = 0

/-- The state of `k-loop`: the diagonals of the previous round are good, and those below `k` of this one. -/
structure KInv (eq : α → α → Bool) (a b : List α) (d k : Int) (v : Vec α) : Prop where
  shape : Shape eq a b v
  zero : d = 0 → k = 0 → v.get 1 = some ⟨0, 0, []⟩
  prev : ∀ j, Diag (d - 1) j → ∃ c, v.get j = some c ∧ Good eq a b (d - 1) j c ∧ Far eq a b (d - 1) j c
  cur : ∀ j, Diag d j → j < k → ∃ c, v.get j = some c ∧ Good eq a b d j c ∧ Far eq a b d j c ∧
    ¬ ((a.length : Int) ≤ c.x ∧ (b.length : Int) ≤ c.x - j)

/-- The start of the snake dominates both neighbours. -/
theorem choose_spec {d k : Int} {v : Vec α} (h : KInv eq a b d k v) (hd : 0 ≤ d) (hk : Diag d k) :
    ∃ c, choose v d k = some c ∧ Good eq a b d k c ∧
      (∀ (e x y : Nat), (e : Int) = d - 1 → Reach eq a b e x y → (x : Int) - y = k - 1 → (x : Int) + 1 ≤ c.x) ∧
      (∀ (e x y : Nat), (e : Int) = d - 1 → Reach eq a b e x y → (x : Int) - y = k + 1 → (x : Int) ≤ c.x) := by
  obtain ⟨k1, k2, k3⟩ := hk
  unfold choose
  by_cases h1 : k = -d
  · rw [if_pos h1]
    by_cases h0 : d = 0
    · have hk0 : k = 0 := by omega
      subst hk0
      refine ⟨_, h.zero h0 rfl, ⟨by simp, by simp, by simp; omega, ⟨rfl, by simp, by simp⟩⟩, ?_, ?_⟩ <;>
        (intro e x y he; omega)
    · obtain ⟨c, c1, c2, c3⟩ := h.prev (k + 1) ⟨by omega, by omega, by omega⟩
      have := c2.x0; have := c2.y0; have := c2.sum
      refine ⟨c, c1, ⟨c2.x0, by omega, by omega, c2.rcd.mono (le_refl _) (by omega)⟩, ?_, ?_⟩
      · intro e x y he hr hxy
        have := hr.bound; omega
      · intro e x y he hr hxy
        exact c3 e x y he hr hxy
  · rw [if_neg h1]
    by_cases h2 : k = d
    · rw [if_pos h2]
      obtain ⟨c, c1, c2, c3⟩ := h.prev (k - 1) ⟨by omega, by omega, by omega⟩
      have := c2.x0; have := c2.y0; have := c2.sum
      rw [c1]
      refine ⟨_, rfl, ⟨by simp only; omega, by simp only; omega, by simp only; omega,
        c2.rcd.mono (by simp only; omega) (by simp only; omega)⟩, ?_, ?_⟩
      · intro e x y he hr hxy
        have := c3 e x y he hr hxy
        simp only; omega
      · intro e x y he hr hxy
        have := hr.bound; omega
    · rw [if_neg h2]
      obtain ⟨c, c1, c2, c3⟩ := h.prev (k - 1) ⟨by omega, by omega, by omega⟩
      obtain ⟨c', c1', c2', c3'⟩ := h.prev (k + 1) ⟨by omega, by omega, by omega⟩
      have := c2.x0; have := c2.y0; have := c2.sum
      have := c2'.x0; have := c2'.y0; have := c2'.sum
      rw [c1, c1']
      simp only [Option.bind_some]
      by_cases hlt : c.x < c'.x
      · rw [if_pos hlt]
        refine ⟨_, rfl, ⟨c2'.x0, by omega, by omega, c2'.rcd.mono (le_refl _) (by omega)⟩, ?_, ?_⟩
        · intro e x y he hr hxy
          have := c3 e x y he hr hxy
          omega
        · intro e x y he hr hxy
          exact c3' e x y he hr hxy
      · rw [if_neg hlt]
        refine ⟨_, rfl, ⟨by simp only; omega, by simp only; omega, by simp only; omega,
          c2.rcd.mono (by simp only; omega) (by simp only; omega)⟩, ?_, ?_⟩
        · intro e x y he hr hxy
          have := c3 e x y he hr hxy
          simp only; omega
        · intro e x y he hr hxy
          have := c3' e x y he hr hxy
          simp only; omega

/-- The end of the snake is furthest. -/
theorem far_of_stuck {d k : Int} {c : Cell α} {s : Int} (hs : s ≤ c.x) (hx0 : 0 ≤ c.x) (hy0 : 0 ≤ c.x - k)
    (hstuck : ¬ Eqv eq a b c.x.toNat (c.x - k).toNat) (h00 : d = 0 → 0 ≤ s)
    (hR : ∀ (e x y : Nat), (e : Int) = d - 1 → Reach eq a b e x y → (x : Int) - y = k - 1 → (x : Int) + 1 ≤ s)
    (hD : ∀ (e x y : Nat), (e : Int) = d - 1 → Reach eq a b e x y → (x : Int) - y = k + 1 → (x : Int) ≤ s) :
    Far eq a b d k c := by
  intro e x y he hr
  induction hr with
  | start => intro _; have := h00 (by omega); push_cast; omega
  | @diag d x y hr hE ih =>
    intro hk
    have := ih he (by push_cast at hk; omega)
    by_contra hc
    push_cast at hc hk
    have hxe : c.x.toNat = x := by omega
    have hye : (c.x - k).toNat = y := by omega
    rw [hxe, hye] at hstuck
    exact hstuck hE
  | @right d x y hr ih =>
    intro hk
    have := hR d x y (by push_cast at he; omega) hr (by push_cast at hk; omega)
    push_cast; omega
  | @down d x y hr ih =>
    intro hk
    have := hD d x y (by push_cast at he; omega) hr (by push_cast at hk; omega)
    omega

/-- The result of a round: finished with a cell beyond both ends, or all diagonals done. -/
theorem kLoop_spec (fuel : Nat) {d k : Int} {v : Vec α} (hd : 0 ≤ d) (hmn : d ≤ (a.length + b.length : Nat))
    (hmn1 : 0 < a.length + b.length)
    (hk : -d ≤ k ∧ (k - d) % 2 = 0) (hf : d < 2 * (fuel : Int) + k - 2 ∧ 0 < fuel) (h : KInv eq a b d k v) :
    ∃ v' fin, kLoop eq a b fuel d k v = some (v', fin) ∧ Shape eq a b v' ∧
      (fin = true → ∃ c ∈ v'.cells, (a.length : Int) + b.length ≤ 2 * c.l + d) ∧
      (fin = false → KInv eq a b (d + 1) (-(d + 1)) v' ∧
        ∀ j, Diag d j → ∃ c, v'.get j = some c ∧ Far eq a b d j c ∧
          ¬ ((a.length : Int) ≤ c.x ∧ (b.length : Int) ≤ c.x - j)) := by
  induction fuel generalizing k v with
  | zero => omega
  | succ n ih =>
    rw [kLoop]
    by_cases hkd : d < k
    · rw [if_pos hkd]
      refine ⟨v, false, rfl, h.shape, by simp, fun _ => ⟨⟨h.shape, by omega, ?_, ?_⟩, ?_⟩⟩
      · intro j hj
        rw [Int.add_sub_cancel] at hj ⊢
        obtain ⟨c, c1, c2, c3, _⟩ := h.cur j hj (by have := hj.2.1; omega)
        exact ⟨c, c1, c2, c3⟩
      · intro j hj hlt; have := hj.1; omega
      · intro j hj
        obtain ⟨c, c1, c2, c3, c4⟩ := h.cur j hj (by have := hj.2.1; omega)
        exact ⟨c, c1, c3, c4⟩
    · rw [if_neg hkd]
      have hdk : Diag d k := ⟨hk.1, by omega, hk.2⟩
      obtain ⟨c, c1, c2, c3, c4⟩ := choose_spec h hd hdk
      obtain ⟨x', y', l', r', e1, e2, e3, e4, e5, e6⟩ := xyLoop_spec (eq := eq) (a := a) (b := b) (a.length + 1) c.x (c.x - k) c.l c.r c2.x0 c2.y0
        (by have := c2.x0; omega) c2.rcd
      have hx0 := c2.x0; have hy0 := c2.y0; have hsum := c2.sum
      have hy' : y' = x' - k := by omega
      have hmv := h.shape.mn
      obtain ⟨v', w1, w2⟩ := h.shape.set (i := k) (c := ⟨x', l', r'⟩) (by omega) ⟨x', y', e5⟩
      rw [c1]
      simp only [Option.bind_some]
      rw [e1]
      simp only [Option.bind_some]
      rw [w1]
      simp only [Option.bind_some]
      have hget := Vec.get_set w1
      by_cases hfin : (a.length : Int) ≤ x' ∧ (b.length : Int) ≤ y'
      · rw [if_pos hfin]
        refine ⟨v', true, rfl, w2, fun _ => ⟨⟨x', l', r'⟩, ?_, by simp only; omega⟩, by simp⟩
        have hk' := hget k
        rw [if_pos rfl] at hk'
        unfold Vec.get at hk'
        by_cases h0 : 0 ≤ k + v'.mn
        · rw [if_pos h0] at hk'
          exact List.mem_of_getElem? hk'
        · rw [if_neg h0] at hk'; cases hk'
      · rw [if_neg hfin]
        refine ih ⟨by omega, by omega⟩ (by omega) ⟨w2, by omega, ?_, ?_⟩
        · intro j hj
          obtain ⟨j1, j2, j3⟩ := hj
          rw [hget j, if_neg (by omega)]
          exact h.prev j ⟨j1, j2, j3⟩
        · intro j hj hlt
          rw [hget j]
          by_cases hkj : k = j
          · subst hkj
            rw [if_pos rfl]
            refine ⟨_, rfl, ⟨by simp only; omega, by simp only; omega, by simp only; omega, by simp only; rw [← hy']; exact e5⟩, ?_, ?_⟩
            · exact far_of_stuck (c := ⟨x', l', r'⟩) e2 (by simp only; omega) (by simp only; omega)
                (by simp only; rw [← hy']; exact e6) (fun _ => hx0) c3 c4
            · simp only; rw [← hy']; exact hfin
          · rw [if_neg hkj]
            obtain ⟨j1, j2, j3⟩ := hj
            exact h.cur j ⟨j1, j2, j3⟩ (by omega)

theorem dLoop_spec (fuel : Nat) {d : Nat} {v : Vec α} (hmn1 : 0 < a.length + b.length)
    (hf : a.length + b.length < fuel + d) (h : KInv eq a b d (-d) v)
    (hno : ∀ e, e < d → ¬ Reach eq a b e a.length b.length) :
    ∃ v', dLoop eq a b fuel d v = some v' ∧ Shape eq a b v' ∧
      ∃ c ∈ v'.cells, ∀ e, Reach eq a b e a.length b.length → (a.length : Int) + b.length ≤ 2 * c.l + e := by
  induction fuel generalizing d v with
  | zero =>
    exfalso
    obtain ⟨e, h1, h2⟩ := reach_of_matching (eq := eq) (a := a) (b := b) [] .start ⟨by simp, by simp⟩ (by simp) (by omega) (by omega)
    exact hno e (by simp at h2; omega) h1
  | succ n ih =>
    rw [dLoop]
    have hdm : ¬ (v.mn < (d : Int)) := by
      rw [h.shape.mn]
      intro hc
      obtain ⟨e, h1, h2⟩ := reach_of_matching (eq := eq) (a := a) (b := b) [] .start ⟨by simp, by simp⟩ (by simp) (by omega) (by omega)
      exact hno e (by simp at h2; omega) h1
    rw [if_neg hdm]
    have hmn := h.shape.mn
    obtain ⟨v', fin, k1, k2, k3, k4⟩ := kLoop_spec ((d : Int).toNat + 2) (by omega) (by omega) hmn1
      ⟨by omega, by omega⟩ (by omega) h
    rw [k1]
    simp only [Option.bind_some]
    cases fin with
    | true =>
      rw [if_pos rfl]
      obtain ⟨c, hc, hl⟩ := k3 rfl
      refine ⟨v', rfl, k2, c, hc, fun e he => ?_⟩
      have : ¬ e < d := fun hlt => hno e hlt he
      omega
    | false =>
      rw [if_neg (by simp)]
      obtain ⟨k5, k6⟩ := k4 rfl
      have := ih (d := d + 1) (v := v') (by omega) (by push_cast; exact k5) (by
        intro e he hr
        by_cases hed : e < d
        · exact hno e hed hr
        · have hed : e = d := by omega
          subst hed
          obtain ⟨b1, b2, b3⟩ := hr.bound
          obtain ⟨c, c1, c2, c3⟩ := k6 ((a.length : Int) - b.length) ⟨by omega, by omega, by omega⟩
          have := c2 e _ _ rfl hr rfl
          exact c3 ⟨this, by omega⟩)
      rw [Int.natCast_add, Int.natCast_one] at this
      exact this

theorem finish_spec (cells : List (Cell α)) (maxl : Int) (r : List (α × Int × Int))
    (hr : ∃ x y, Rec eq a b x y maxl r) (hc : ∀ c ∈ cells, ∃ x y, Rec eq a b x y c.l c.r) :
    ∃ l r', finish cells maxl r = (l, r'.reverse) ∧ (∃ x y, Rec eq a b x y l r') ∧ maxl ≤ l ∧ ∀ c ∈ cells, c.l ≤ l := by
  induction cells generalizing maxl r with
  | nil => exact ⟨maxl, r, rfl, hr, le_refl _, by simp⟩
  | cons c rest ih =>
    rw [finish]
    by_cases h : maxl < c.l
    · rw [if_pos h]
      obtain ⟨l, r', e1, e2, e3, e4⟩ := ih c.l c.r (hc c (by simp)) (fun c' h' => hc c' (by simp [h']))
      refine ⟨l, r', e1, e2, by omega, fun c' h' => ?_⟩
      rcases List.mem_cons.1 h' with rfl | h'
      · exact e3
      · exact e4 c' h'
    · rw [if_neg h]
      obtain ⟨l, r', e1, e2, e3, e4⟩ := ih maxl r hr (fun c' h' => hc c' (by simp [h']))
      refine ⟨l, r', e1, e2, e3, fun c' h' => ?_⟩
      rcases List.mem_cons.1 h' with rfl | h'
      · omega
      · exact e4 c' h'

theorem init_inv (hmn : 0 < a.length + b.length) : KInv eq a b 0 (-0) (Vec.make (a.length + b.length)) := by
  refine ⟨⟨rfl, by simp [Vec.make], ?_⟩, ?_, ?_, ?_⟩
  · intro c hc
    simp only [Vec.make, List.mem_replicate] at hc
    rw [hc.2]
    exact ⟨0, 0, rfl, by simp, by simp⟩
  · intro _ _
    unfold Vec.get Vec.make
    dsimp only
    rw [if_pos (by omega), List.getElem?_replicate, if_pos (by omega)]
  · intro j hj; have := hj.1; have := hj.2.1; omega
  · intro j hj hlt; have := hj.1; omega

/-- The positions of recorded matches as pairs of indices. -/
def pairs (r : List (α × Int × Int)) : List (Nat × Nat) := r.map fun p => (p.2.1.toNat, p.2.2.toNat)

theorem lcsWithPositions_spec (eq : α → α → Bool) (a b : List α) : ∃ l r, lcsWithPositions eq a b = some (l, r) ∧
    (r.length : Int) = l ∧ r.Pairwise (fun p q => p.2.1 < q.2.1 ∧ p.2.2 < q.2.2) ∧
    (∀ p ∈ r, 0 ≤ p.2.1 ∧ 0 ≤ p.2.2 ∧ a[p.2.1.toNat]? = some p.1 ∧ Eqv eq a b p.2.1.toNat p.2.2.toNat) ∧
    ∀ ps, IsMatching eq a b ps → (ps.length : Int) ≤ l := by
  unfold lcsWithPositions
  dsimp only
  by_cases h0 : a.length + b.length = 0
  · rw [if_pos h0]
    refine ⟨0, [], rfl, rfl, by simp, by simp, fun ps hps => ?_⟩
    cases ps with
    | nil => simp
    | cons p ps =>
      obtain ⟨x, y, hx, _⟩ := hps.2 p (by simp)
      have := (List.getElem?_eq_some_iff.1 hx).1
      omega
  · rw [if_neg h0]
    obtain ⟨v, h1, h2, c, hc, hl⟩ := dLoop_spec (eq := eq) (a := a) (b := b) (a.length + b.length + 1) (d := 0) (by omega) (by omega)
      (init_inv (by omega)) (by simp)
    rw [Int.natCast_zero] at h1
    rw [h1]
    obtain ⟨l, r, e1, ⟨x, y, e2⟩, e3, e4⟩ := finish_spec (eq := eq) (a := a) (b := b) v.cells 0 [] ⟨0, 0, rfl, by simp, by simp⟩ h2.rcd
    refine ⟨l, r.reverse, by rw [Option.map_some, e1], by rw [List.length_reverse]; exact e2.len, ?_, ?_, ?_⟩
    · exact List.pairwise_reverse.2 e2.ord
    · intro p hp
      obtain ⟨q1, q2, q3, q4, q5, q6⟩ := e2.ok p (List.mem_reverse.1 hp)
      exact ⟨q1, q3, q5, q6⟩
    · intro ps hps
      obtain ⟨e, r1, r2⟩ := reach_of_matching ps .start hps (by simp) (by omega) (by omega)
      have := hl e r1
      have := e4 c hc
      omega

end Gauche.Lcs

import Verif.Proof.Rationalize
/-
C52: continued fractions and `rationalize`.  Specification: `Verif/Spec/Simplest.lean`.
-/
namespace Gauche.Rationalize
open Gauche.Spec

/-- The continued fraction of every exact rational (of either sign) has that rational as its value. -/
theorem C52_continued_fraction (q : ℚ) : realize (continuedFraction q).reverse = some q := by
  have := (cfLoop_realize q.num q.den (by exact_mod_cast q.den_nz)).2
  unfold continuedFraction; rw [this]
  congr 1; push_cast; exact Rat.num_div_den q

/-- For a non-negative rational the terms after the first are positive: it is a regular continued fraction. -/
theorem C52_continued_fraction_terms (q : ℚ) (hq : 0 ≤ q) : ∃ a as, continuedFraction q = a :: as ∧ a = ⌊q⌋ ∧ ∀ b ∈ as, 1 ≤ b := by
  have gen : ∀ n (q : ℚ), q.den ≤ n → 0 ≤ q → ∃ a as, continuedFraction q = a :: as ∧ a = ⌊q⌋ ∧ ∀ b ∈ as, 1 ≤ b := by
    intro n
    induction n with
    | zero => intro q h; have := q.den_pos; omega
    | succ n ih =>
      intro q hn hq
      obtain ⟨c, t⟩ := cf_unfold q hq
      refine ⟨_, _, c, rfl, ?_⟩
      by_cases d : q.den = 1
      · simp [d]
      · rw [if_neg d]
        obtain ⟨h1, h2⟩ := t d
        have hp : 0 < q - ⌊q⌋ := by linarith
        obtain ⟨a, as, e, ha, has⟩ := ih (1 / (q - ⌊q⌋)) (by omega) (by positivity)
        rw [e]
        intro b hb
        rcases List.mem_cons.mp hb with rfl | hb
        · rw [ha, Int.le_floor]
          push_cast
          rw [le_one_div (by norm_num) hp]
          have := Int.lt_floor_add_one q
          linarith
        · exact has b hb
  exact gen q.den q le_rfl hq

theorem simplest_zero (lo hi : ℚ) (h1 : lo ≤ 0) (h2 : 0 ≤ hi) : SimplestIn lo hi 0 :=
  ⟨⟨h1, h2⟩, fun p _ _ => ⟨by simp, by simpa using Nat.succ_le_of_lt p.den_pos⟩⟩

theorem simplest_neg (lo hi q : ℚ) (h : SimplestIn lo hi q) : SimplestIn (-hi) (-lo) (-q) := by
  obtain ⟨⟨h1, h2⟩, h3⟩ := h
  refine ⟨⟨by linarith, by linarith⟩, fun p p1 p2 => ?_⟩
  obtain ⟨a, b⟩ := h3 (-p) (by linarith) (by linarith)
  simp only [Rat.num_neg_eq_neg_num, abs_neg, Rat.den_neg_eq_den] at a b
  exact ⟨by simpa using a, by simpa using b⟩

theorem simplest_self (q : ℚ) : SimplestIn q q q :=
  ⟨⟨le_rfl, le_rfl⟩, fun p h1 h2 => by rw [le_antisymm h2 h1]; exact ⟨le_rfl, le_rfl⟩⟩

theorem findRational1_closed (x dxp dxm : ℚ) (hx : 0 ≤ x) (hp : 0 ≤ dxp) (hm : 0 ≤ dxm) :
    ∃ q, findRational1 x dxp dxm false = some q ∧ SimplestIn (x - dxm) (x + dxp) q := by
  unfold findRational1; dsimp only
  by_cases h0 : x - dxm < 0
  · rw [if_pos h0]; exact ⟨0, rfl, simplest_zero _ _ h0.le (by linarith)⟩
  · rw [if_neg h0]
    by_cases h1 : x + dxp = x - dxm
    · rw [if_pos h1]; refine ⟨_, rfl, ?_⟩
      rw [← h1]; exact simplest_self _
    · rw [if_neg h1]
      obtain ⟨l, Z, e1, e2, e3, e4⟩ := refineC_spec (x + dxp).den (x + dxp) (x - dxm) [] le_rfl (by linarith) (by linarith) h1
      simp only [Bool.false_eq_true, if_false]
      rw [e1, List.append_nil]; dsimp only
      rw [min_eq_right (by linarith), max_eq_left (by linarith)] at e4
      exact ⟨Z, e3, e4⟩

/-- `(real->rational x dx+ dx-)` for exact arguments and a closed interval: the answer is in `[x - dx-, x + dx+]`, and no rational there has a
smaller numerator or a smaller denominator. -/
theorem C52_real_to_rational_closed (x dxp dxm : ℚ) (hp : 0 ≤ dxp) (hm : 0 ≤ dxm) :
    ∃ q, realToRational x dxp dxm false = some q ∧ SimplestIn (x - dxm) (x + dxp) q := by
  unfold realToRational
  by_cases hx : x < 0
  · rw [if_pos hx]
    obtain ⟨q, h1, h2⟩ := findRational1_closed (-x) dxm dxp (by linarith) hm hp
    rw [h1]; refine ⟨-q, rfl, ?_⟩
    have := simplest_neg _ _ _ h2
    convert this using 1 <;> ring
  · rw [if_neg hx]; exact findRational1_closed x dxp dxm (by linarith) hp hm

/-- `(rationalize x e)` for exact `x` and `e ≥ 0` is the simplest rational that differs from `x` by no more than `e`. -/
theorem C52_rationalize (x e : ℚ) (he : 0 ≤ e) : ∃ q, rationalize x e = some q ∧ SimplestIn (x - e) (x + e) q := by
  unfold rationalize; rw [if_neg (by linarith)]; exact C52_real_to_rational_closed x e e he he

/-- The simplest rational is unique, so the answer is determined. -/
theorem C52_unique (lo hi p q : ℚ) (hp : SimplestIn lo hi p) (hq : SimplestIn lo hi q) (h0 : 0 ≤ lo) : p = q := by
  obtain ⟨⟨p1, p2⟩, p3⟩ := hp
  obtain ⟨⟨q1, q2⟩, q3⟩ := hq
  obtain ⟨a1, a2⟩ := p3 q q1 q2
  obtain ⟨b1, b2⟩ := q3 p p1 p2
  have hpn := abs_of_nonneg (Rat.num_nonneg.mpr (show 0 ≤ p by linarith))
  have hqn := abs_of_nonneg (Rat.num_nonneg.mpr (show 0 ≤ q by linarith))
  rw [hpn, hqn] at a1 b1
  exact Rat.ext (by omega) (by omega)

/-- With an open interval the answer can lie outside of it: for the interval `(2, 23/10)` it is `3/2`, for `(17/10, 2)` it is `3/2`. -/
theorem C52_bug_open_interval :
    realToRational (43 / 20) (3 / 20) (3 / 20) true = some (3 / 2) ∧ realToRational (37 / 20) (3 / 20) (3 / 20) true = some (3 / 2) := by
  decide +kernel

/- Non-vacuity. -/
example : continuedFraction (355 / 113) = [3, 7, 16] ∧ continuedFraction (-7 / 3) = [-2, -3] := by decide +kernel
example : rationalize (3 / 10) (1 / 10) = some (1 / 3) ∧ rationalize (314159 / 100000) (1 / 1000) = some (201 / 64) ∧
    rationalize (-3 / 10) (1 / 10) = some (-1 / 3) ∧ rationalize 1 (-1) = none := by decide +kernel

end Gauche.Rationalize

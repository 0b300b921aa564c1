import Verif.Proof.NumUtil
/-
C35: the integer division families and `exact-integer-sqrt`; C51: `expt-mod` and `inverse-mod`.
Each theorem states the defining equations of the operation over the integers or rationals; quotient and remainder are determined
uniquely by them.
-/
namespace Gauche.NumUtil
open Gauche.Spec

/-- `floor/`: `n = q d + r` and the remainder has the sign of the divisor and is smaller than it. -/
theorem C35_floor_div (n d : Int) (hd : d ≠ 0) :
    ∃ q r, floorDiv n d = some (q, r) ∧ n = q * d + r ∧ (0 < d → 0 ≤ r ∧ r < d) ∧ (d < 0 → d < r ∧ r ≤ 0) := floorDiv_spec n d hd

/-- `floor/` answers the floor of the quotient, and the remainder of `modulo`. -/
theorem C35_floor_quotient (n d : Int) (hd : d ≠ 0) : floorDiv n d = some (⌊(n : ℚ) / d⌋, Int.fmod n d) := by
  obtain ⟨q, r, h, he, h1, h2⟩ := floorDiv_spec n d hd
  rw [h]
  have hq : ⌊(n : ℚ) / d⌋ = q := by
    rw [Int.floor_eq_iff]
    have hdq : (d : ℚ) ≠ 0 := by exact_mod_cast hd
    have e : (n : ℚ) / d = q + r / d := by rw [he]; push_cast; field_simp
    rw [e]
    rcases lt_or_gt_of_ne hd with hn | hp
    · have hn' : (d : ℚ) < 0 := by exact_mod_cast hn
      have a1 : (d : ℚ) < r := by exact_mod_cast (h2 hn).1
      have a2 : (r : ℚ) ≤ 0 := by exact_mod_cast (h2 hn).2
      have b1 : (0 : ℚ) ≤ r / d := div_nonneg_of_nonpos a2 hn'.le
      have b2 : (r : ℚ) / d < 1 := by rw [div_lt_one_of_neg hn']; exact a1
      constructor <;> linarith
    · have hp' : (0 : ℚ) < d := by exact_mod_cast hp
      have a1 : (0 : ℚ) ≤ r := by exact_mod_cast (h1 hp).1
      have a2 : (r : ℚ) < d := by exact_mod_cast (h1 hp).2
      have b1 : (0 : ℚ) ≤ r / d := div_nonneg a1 hp'.le
      have b2 : (r : ℚ) / d < 1 := by rw [div_lt_one hp']; exact a2
      constructor <;> linarith
  have hr : Int.fmod n d = r := by
    have : n ≡ r [ZMOD d] := by rw [he, Int.modEq_iff_dvd]; exact ⟨-q, by ring⟩
    rw [fmod_congr this, Int.fmod_eq_emod]
    rcases lt_or_gt_of_ne hd with hn | hp
    · obtain ⟨a1, a2⟩ := h2 hn
      by_cases h0 : r = 0
      · simp [h0]
      · have e : r % d = r - d := by
          have h1 := Int.emod_nonneg r hd
          have h2 := Int.emod_lt_abs r hd
          rw [abs_of_neg hn] at h2
          have h3 := Int.emod_add_mul_ediv r d
          have h4 : r / d = 1 := by
            have : d * (r / d) < 0 := by omega
            have p : 0 < r / d := by nlinarith
            have : r / d < 2 := by nlinarith
            omega
          rw [h4] at h3; omega
        rw [e, if_neg]; · omega
        rintro (h | h)
        · omega
        · have := Int.emod_eq_zero_of_dvd h; omega
    · obtain ⟨a1, a2⟩ := h1 hp
      rw [Int.emod_eq_of_lt a1 a2]; simp [hp.le]
  rw [hq, hr]

/-- `ceiling/`: the remainder has the sign opposite to the divisor and is smaller than it. -/
theorem C35_ceiling_div (n d : Int) (hd : d ≠ 0) :
    ∃ q r, ceilingDiv n d = some (q, r) ∧ n = q * d + r ∧ (0 < d → -d < r ∧ r ≤ 0) ∧ (d < 0 → 0 ≤ r ∧ r < -d) := ceilingDiv_spec n d hd

/-- `truncate/` (and `quotient&remainder`): the remainder has the sign of the dividend. -/
theorem C35_truncate_div (n d : Int) (hd : d ≠ 0) :
    ∃ q r, quoRem n d = some (q, r) ∧ n = q * d + r ∧ |r| < |d| ∧ (0 ≤ n → 0 ≤ r) ∧ (n < 0 → r ≤ 0) := quoRem_spec n d hd

/-- `div-and-mod` (`euclidean/`), for all exact rational arguments: the remainder is non-negative and smaller than the divisor. -/
theorem C35_euclidean_div (x y : ℚ) (hy : y ≠ 0) :
    ∃ (q : Int) (r : ℚ), divAndMod x y = some (q, r) ∧ x = q * y + r ∧ 0 ≤ r ∧ r < |y| := divAndMod_spec x y hy

/-- `div0-and-mod0` (`balanced/`), for all exact rational arguments: the remainder is in the half-open interval around zero. -/
theorem C35_balanced_div (x y : ℚ) (hy : y ≠ 0) :
    ∃ (q : Int) (r : ℚ), div0AndMod0 x y = some (q, r) ∧ x = q * y + r ∧ -(|y| / 2) ≤ r ∧ r < |y| / 2 := div0AndMod0_spec x y hy

/-- `round/`: the remainder is at most half the divisor, and a tie goes to the even quotient. -/
theorem C35_round_div (n d : Int) (hd : d ≠ 0) :
    ∃ (q r : Int), roundDiv n d = some (q, (r : ℚ)) ∧ n = q * d + r ∧ 2 * |r| ≤ |d| ∧ (2 * |r| = |d| → q % 2 = 0) := roundDiv_spec n d hd

/-- All of them signal an error on a zero divisor. -/
theorem C35_zero_divisor (n : Int) (x : ℚ) :
    floorDiv n 0 = none ∧ ceilingDiv n 0 = none ∧ quoRem n 0 = none ∧ divAndMod x 0 = none ∧ div0AndMod0 x 0 = none ∧
    roundDiv n 0 = none := by
  simp [floorDiv, ceilingDiv, quoRem, divAndMod, div0AndMod0, divMod1, roundDiv]

/-- `exact-integer-sqrt` of every `k ≥ 0`, whatever its size, terminates and answers `s`, `r` with `s² + r = k` and `k < (s+1)²`, provided that the
double precision square root is correctly rounded (IEEE 754), which for `k ≥ 2^52` is only used to know that the first estimate is
positive. -/
theorem C35_exact_integer_sqrt (realSqrt : Int → Option ℚ) (il : Int → Nat)
    (hsq : ∀ k d, 0 ≤ k → realSqrt k = some d → NearestDouble d (Real.sqrt k))
    (hfin : ∀ k, 0 ≤ k → k < 2 ^ 52 → realSqrt k ≠ none) (k : Int) (hk : 0 ≤ k) :
    ∃ s r : Int, 0 ≤ s ∧ s * s + r = k ∧ 0 ≤ r ∧ k < (s + 1) * (s + 1) ∧
      ∃ N, ∀ fuel, N ≤ fuel → exactIntegerSqrt realSqrt il fuel k = some (s, r) := by
  obtain ⟨t, ht, h1, h2⟩ := exists_isqrt k hk
  refine ⟨t, k - t * t, ht, by ring, by linarith, h2, ?_⟩
  unfold exactIntegerSqrt
  by_cases hs : k < 4503599627370496
  · refine ⟨0, fun fuel _ => ?_⟩
    rw [if_pos hs]
    cases hr : realSqrt k with
    | none => exact absurd hr (hfin k hk (by norm_num; exact hs))
    | some d =>
      dsimp only
      rw [floor_small k t d ht h1 h2 (by norm_num; exact hs) (hsq k d hk hr)]
  · simp only [if_neg hs]
    apply sqrtLoop_spec k t _ ht h1 h2
    cases hr : realSqrt k with
    | none => positivity
    | some d => exact floor_pos k d (by omega) (hsq k d hk hr)

/-- From whatever positive estimate, the Newton loop finds the integer square root. -/
theorem C35_sqrt_any_estimate (k s0 : Int) (hk : 0 ≤ k) (hs : 0 < s0) :
    ∃ s r : Int, 0 ≤ s ∧ s * s + r = k ∧ 0 ≤ r ∧ k < (s + 1) * (s + 1) ∧ ∃ N, ∀ fuel, N ≤ fuel → sqrtLoop k fuel s0 = some (s, r) := by
  obtain ⟨t, ht, h1, h2⟩ := exists_isqrt k hk
  exact ⟨t, k - t * t, ht, by ring, by linarith, h2, sqrtLoop_spec k t s0 ht h1 h2 hs⟩

/- Non-vacuity. -/
example : floorDiv (-7) 2 = some (-4, 1) ∧ floorDiv 7 (-2) = some (-4, -1) ∧ ceilingDiv 7 2 = some (4, -1) ∧ quoRem (-7) 2 = some (-3, -1) := by
  decide +kernel
example : divAndMod (-7 / 2) (2 / 3) = some (-6, 1 / 2) ∧ div0AndMod0 (-7 / 2) (2 / 3) = some (-5, -1 / 6) := by decide +kernel
example : roundDiv 5 2 = some (2, 1) ∧ roundDiv 7 2 = some (4, -1) ∧ roundDiv (-5) 2 = some (-2, -1) ∧ roundDiv 7 (-2) = some (-4, -1) := by
  decide +kernel
example : sqrtLoop (10 ^ 40 + 12345) 100 (10 ^ 15) = some (10 ^ 20, 12345) := by decide +kernel

/- ### C51 -/

/-- `(expt-mod n e m)` is `(modulo (expt n e) m)` for every integer `n`, exponent `e ≥ 0` and modulus `m ≠ 0`. -/
theorem C51_expt_mod (n : Int) (e : Nat) (m : Int) (hm : m ≠ 0) : exptMod n e m = some (Int.fmod (n ^ e) m) := exptMod_spec n e m hm

/-- `inverse-mod` never answers a wrong inverse: the answer is an inverse modulo `m`, reduced into the range of `modulo`. -/
theorem C51_inverse_mod_sound (q m x : Int) (hm : m ≠ 0) (h : inverseMod q m = some x) :
    m ∣ q * x - 1 ∧ (0 < m → 0 ≤ x ∧ x < m) ∧ (m < 0 → m < x ∧ x ≤ 0) := by
  unfold inverseMod at h; dsimp only at h
  by_cases hg : (xgcd q m 1 0).1 = 1
  · rw [if_pos hg] at h
    have hs := xgcd_sound q m q m 1 0 (by simp) (by rw [mul_zero, Int.modEq_iff_dvd]; simp)
    rw [hg] at hs
    injection h with h
    refine ⟨?_, ?_, ?_⟩
    · rw [← h]
      have := (((fmod_modEq (xgcd q m 1 0).2 m).mul_left q).trans hs).symm
      rwa [Int.modEq_iff_dvd] at this
    · intro hp; rw [← h]; exact ⟨Int.fmod_nonneg_of_pos _ hp, Int.fmod_lt_of_pos _ hp⟩
    · intro hn
      obtain ⟨q', r', h', he, -, hr⟩ := floorDiv_spec (xgcd q m 1 0).2 m hm
      have e2 := C35_floor_quotient (xgcd q m 1 0).2 m hm
      rw [h'] at e2
      have : r' = Int.fmod (xgcd q m 1 0).2 m := by simpa using (Prod.mk.injEq _ _ _ _ ▸ Option.some.inj e2 : _ ∧ _).2
      rw [← h, ← this]; exact hr hn
  · rw [if_neg hg] at h; cases h

/-- For `q ≥ 0` and `m > 0` it answers `#f` exactly when there is no inverse. -/
theorem C51_inverse_mod_complete_partial (q m : Int) (hq : 0 ≤ q) (hm : 0 < m) :
    inverseMod q m = none ↔ ¬ ∃ x : Int, m ∣ q * x - 1 := by
  have hg := xgcd_gcd q m 1 0 hq hm.le
  constructor
  · intro h hx
    obtain ⟨x, hx⟩ := hx
    unfold inverseMod at h; dsimp only at h
    have hgcd : Int.gcd q m = 1 := by
      have h1 : ((Int.gcd q m : Nat) : Int) ∣ 1 := by
        have a := (Int.gcd_dvd_left q m).mul_right x
        have b := (Int.gcd_dvd_right q m).trans hx
        have := Int.dvd_sub a b
        simpa using this
      exact_mod_cast Int.eq_one_of_dvd_one (by omega) h1
    rw [if_pos (by rw [hg, hgcd]; rfl)] at h; cases h
  · intro h
    cases hi : inverseMod q m with
    | none => rfl
    | some x => exact absurd ⟨x, (C51_inverse_mod_sound q m x (by omega) hi).1⟩ h

/-- The sign is not handled: `(inverse-mod -1 7)` answers `#f` although 6 is an inverse. -/
theorem C51_bug_inverse_mod_negative : inverseMod (-1) 7 = none ∧ (7 : Int) ∣ -1 * 6 - 1 := by decide +kernel

/- Non-vacuity. -/
example : exptMod 7 1000 13 = some 9 ∧ exptMod (-3) 101 (-7) = some (-5) ∧ exptMod 5 0 1 = some 0 := by
  refine ⟨?_, ?_, ?_⟩ <;> rw [C51_expt_mod _ _ _ (by decide)] <;> decide +kernel
example : exptModLoop 7 1000 13 512 1 = 9 := by decide +kernel
example : inverseMod 3 7 = some 5 ∧ inverseMod 6 9 = none ∧ inverseMod 10 7 = some 5 := by decide +kernel

end Gauche.NumUtil

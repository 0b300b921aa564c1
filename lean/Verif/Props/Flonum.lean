import Verif.Proof.FloRoundTrip
import Verif.Proof.FlonumRange
import Mathlib.Analysis.SpecialFunctions.Log.Base
/-!
# C63, C64, C65: the text of flonums, and exact numbers as flonums

`Rounds x d` (Spec/Flonum.lean) says that the double `d` is nearest to `x`, ties to even.  `DecimalText strict s neg f d e` (Spec/FloText.lean) says
that `s` is a decimal number with the value `f * 10^(e - d)`.  `printDouble` and `readNumber` are the models of `number->string` and `string->number`
for flonums in the default format.  `fuel` bounds the number of iterations of their loops.
-/
namespace Gauche.FloText
open Gauche.Spec Gauche.Flonum Gauche.FloText.Spec

/-- What the printer gets from the C library: `ceil(log10(v) - 0.1)`, where the argument of `ceil` may be wrong by 0.05. -/
def EstimateOf (est : Int) (m : Nat) (k : Int) : Prop :=
  ∃ L : ℝ, |L - (Real.logb 10 ((m : ℝ) * 2 ^ k) - 1 / 10)| ≤ 1 / 20 ∧ est = ⌈L⌉

theorem goodEst_of {est : Int} {m : Nat} {k : Int} (hm : 0 < m) (h : EstimateOf est m k) : GoodEst est m k := by
  obtain ⟨L, hL, rfl⟩ := h
  rw [abs_le] at hL
  have hv : (0 : ℝ) < (m : ℝ) * 2 ^ k := by
    have : (0 : ℝ) < m := by exact_mod_cast hm
    positivity
  have hcast : ((dval m k : ℚ) : ℝ) = (m : ℝ) * 2 ^ k := by unfold dval; push_cast; rfl
  have hexp : (10 : ℝ) ^ Real.logb 10 ((m : ℝ) * 2 ^ k) = (m : ℝ) * 2 ^ k := Real.rpow_logb (by norm_num) (by norm_num) hv
  generalize hl : Real.logb 10 ((m : ℝ) * 2 ^ k) = l at hL hexp
  have h1 : (⌈L⌉ : ℝ) < L + 1 := Int.ceil_lt_add_one L
  have h2 : L ≤ ⌈L⌉ := Int.le_ceil L
  constructor
  · have : (((10 : ℚ) ^ (⌈L⌉ - 1) : ℚ) : ℝ) ≤ ((dval m k : ℚ) : ℝ) := by
      rw [hcast, ← hexp]
      push_cast
      rw [← Real.rpow_intCast]
      refine Real.rpow_le_rpow_of_exponent_le (by norm_num) ?_
      push_cast
      linarith
    exact_mod_cast this
  · have : ((dval m k : ℚ) : ℝ) ≤ ((2 * (10 : ℚ) ^ (⌈L⌉ : Int) : ℚ) : ℝ) := by
      rw [hcast, ← hexp]
      push_cast
      have h15 : (10 : ℝ) ^ (3 / 20 : ℝ) ≤ 2 := by
        have h3 : ((10 : ℝ) ^ (3 / 20 : ℝ)) ^ (20 : ℕ) ≤ 2 ^ (20 : ℕ) := by
          rw [← Real.rpow_natCast, ← Real.rpow_mul (by norm_num)]
          norm_num
        exact le_of_pow_le_pow_left₀ (by norm_num) (by norm_num) h3
      have h4 : (10 : ℝ) ^ l ≤ 10 ^ ((3 / 20 : ℝ) + (⌈L⌉ : ℝ)) := Real.rpow_le_rpow_of_exponent_le (by norm_num) (by linarith)
      rw [Real.rpow_add (by norm_num), Real.rpow_intCast] at h4
      refine le_trans h4 ?_
      exact mul_le_mul_of_nonneg_right h15 (by positivity)
    exact_mod_cast this

/-! ## C63: what is written is read back -/

/-- Every flonum, negative zero, the infinities and NaN included, is written as a text that is read back as the same flonum. -/
theorem C63_round_trip {lo hi : Int} (hlo : -20 ≤ lo) (hhi : hi ≤ 17) (x : Flo) (hx : x.Ok) (est : Int)
    (he : ∀ neg m k, x = .num neg (.fin m k) → 0 < m → EstimateOf est m k) (plus strict : Bool) :
    ∃ txt N, ∀ fuel, N ≤ fuel → printDouble fuel lo hi plus est x = some txt ∧ readNumber fuel strict txt = .flo x [] := by
  cases x with
  | nan => exact ⟨"+nan.0".toList, 0, fun fuel _ => ⟨rfl, by cases strict <;> rfl⟩⟩
  | num neg d =>
    cases d with
    | inf =>
      refine ⟨if neg then "-inf.0".toList else "+inf.0".toList, 0, fun fuel _ => ⟨rfl, ?_⟩⟩
      cases neg <;> cases strict <;> rfl
    | fin m k =>
      have hc : FinDbl m k := hx
      by_cases hm : m = 0
      · subst hm
        have hk : k = -1074 := by
          rcases hc.2.2.2 with h | h
          · omega
          · exact h
        subst hk
        refine ⟨(if neg then ['-'] else if plus then ['+'] else []) ++ "0.0".toList, 0, fun fuel _ => ⟨rfl, ?_⟩⟩
        have hD : DecimalText strict ((if neg then ['-'] else if plus then ['+'] else []) ++ "0.0".toList) neg 0 1 0 := by
          refine ⟨_, _, rfl, ?_, ['0', '.', '0'], [], rfl, Or.inl ⟨rfl, rfl⟩, Or.inr ⟨['0'], ['0'], [0], [0], rfl, ?_, ?_, by decide, by decide, rfl⟩⟩
          · cases neg <;> cases plus <;> simp
          · exact ⟨by decide, by decide, by decide, by decide, fun _ => by decide⟩
          · exact ⟨by decide, by decide, by decide, by decide, fun _ => by decide⟩
        rw [readNumber_spec hD]
        unfold result
        rw [if_neg (by decide), toFlonum_zero]
      · obtain ⟨txt, f, d, e, h1, h2, _, N, h3⟩ := round_trip hlo hhi hc (by omega) (goodEst_of (by omega) (he neg m k rfl (by omega)))
        refine ⟨(if neg then ['-'] else if plus then ['+'] else []) ++ txt, max N 17, fun fuel hf => ⟨?_, ?_⟩⟩
        · unfold printDouble
          simp only [hm, if_false]
          rw [h1 fuel (by omega)]
          rfl
        · have hD : DecimalText strict ((if neg then ['-'] else if plus then ['+'] else []) ++ txt) neg f d e := by
            refine ⟨_, _, rfl, ?_, h2 strict⟩
            cases neg <;> cases plus <;> simp
          rw [readNumber_spec hD]
          exact h3 fuel (by omega) neg

/-- The text of a finite flonum other than zero is a decimal number, strict mode or not, that rounds to the flonum: any reader that rounds correctly
gets the flonum back. -/
theorem C63_text {lo hi : Int} (hlo : -20 ≤ lo) (hhi : hi ≤ 17) (neg plus : Bool) {m : Nat} {k : Int} (hc : FinDbl m k) (hm : 0 < m) {est : Int}
    (he : EstimateOf est m k) :
    ∃ txt f d, ∃ e : Int, (∀ fuel, 17 ≤ fuel → printDouble fuel lo hi plus est (.num neg (.fin m k)) = some txt) ∧
      (∀ strict, DecimalText strict txt neg f d e) ∧ Rounds ((f : ℚ) * 10 ^ (e - (d : Int))) (.fin m k) := by
  obtain ⟨txt, f, d, e, h1, h2, h3, _⟩ := round_trip hlo hhi hc hm (goodEst_of hm he)
  refine ⟨(if neg then ['-'] else if plus then ['+'] else []) ++ txt, f, d, e, fun fuel hf => ?_, fun strict => ?_, h3⟩
  · unfold printDouble
    simp only [Nat.pos_iff_ne_zero.1 hm, if_false]
    rw [h1 fuel hf]
    rfl
  · refine ⟨_, _, rfl, ?_, h2 strict⟩
    cases neg <;> cases plus <;> simp

/-! ## C64: reading decimal numbers -/

/-- A decimal number, with any number of digits, is read as the nearest flonum: if it is zero, or a normal number up to `1.797e308`, or
so big that it rounds to the infinity.  The exponent that is written must be less than 325. -/
theorem C64_read_decimal_partial {strict : Bool} {s : List Char} {neg : Bool} {f d : Nat} {e : Int} (h : DecimalText strict s neg f d e)
    (he : e.natAbs < 325)
    (hx : f = 0 ∨ ((2 : ℚ) ^ (-1022 : Int) ≤ (f : ℚ) * 10 ^ (e - (d : Int)) ∧ (f : ℚ) * 10 ^ (e - (d : Int)) ≤ 1797 * 10 ^ 305) ∨
      (2 ^ 54 - 1) * 2 ^ 970 ≤ (f : ℚ) * 10 ^ (e - (d : Int))) :
    ∃ x N, Rounds ((f : ℚ) * 10 ^ (e - (d : Int))) x ∧ ∀ fuel, N ≤ fuel → readNumber fuel strict s = .flo (.num neg x) [] := by
  have hres : ∀ {x N}, (∀ fuel, N ≤ fuel → toFlonum fuel f (e - d) = some x) → ∀ fuel, N ≤ fuel → readNumber fuel strict s = .flo (.num neg x) [] := by
    intro x N hN fuel hf
    rw [readNumber_spec h]
    unfold result
    rw [if_neg (by omega), hN fuel hf]
  rcases hx with hx | hx
  · subst hx
    refine ⟨.fin 0 (-1074), 0, ?_, hres fun fuel _ => toFlonum_zero fuel _⟩
    simp only [Nat.cast_zero, zero_mul]
    exact rounds_of zero_RU (by norm_num)
  · have hbig : (2 : ℚ) ^ (-1022 : Int) ≤ (2 ^ 54 - 1) * 2 ^ 970 := by
      have h1 : (2 : ℚ) ^ (-1022 : Int) ≤ 1 := zpow_le_one_of_nonpos₀ (by norm_num) (by norm_num)
      have h2 : (1 : ℚ) ≤ 2 ^ 970 := one_le_pow₀ (by norm_num)
      generalize (2 : ℚ) ^ 970 = P at h2 ⊢
      linarith
    obtain ⟨N, x, h1, h2⟩ := toFlonum_range (f := f) (rf := e - d)
      (by rcases hx with ⟨g, _⟩ | g
          · exact g
          · exact le_trans hbig g)
      (by rcases hx with ⟨_, g⟩ | g
          · exact Or.inl g
          · exact Or.inr g)
    exact ⟨x, N, h1, hres h2⟩

/-! ## C65: exact numbers to flonums -/

/-- An exact integer is converted to the nearest flonum, for every size. -/
theorem C65_integer (n : Nat) : Rounds (n : ℚ) (intToDouble n) := intToDouble_spec n

/-- A ratio of integers of every size is converted to the nearest flonum, unless it is subnormal. -/
theorem C65_ratio_partial {n d : Nat} (hn : 0 < n) (hd : 0 < d) (hx : (2 : ℚ) ^ (-1022 : Int) ≤ (n : ℚ) / d) : Rounds ((n : ℚ) / d) (ratToDouble n d) :=
  ratToDouble_spec hn hd hx

/-- A ratio of two integers below `2^1023` with 53 significant bits each (trailing zeros do not count) is converted to the nearest flonum, subnormal
or not. -/
theorem C65_short_ratio {n d i j : Nat} (hn : 0 < n) (hd : 0 < d) (hn' : n < 2 ^ 53) (hd' : d < 2 ^ 53) (hi : n * 2 ^ i < 2 ^ 1023) (hj : d * 2 ^ j < 2 ^ 1023) :
    Rounds (((n * 2 ^ i : Nat) : ℚ) / ((d * 2 ^ j : Nat) : ℚ)) (ratToDouble (n * 2 ^ i) (d * 2 ^ j)) :=
  ratToDouble_short (by positivity) (by positivity) (doublePrecision_of hn hn') (doublePrecision_of hd hd') (finite_of_lt hi) (finite_of_lt hj)

/-! ## where the code is wrong -/

theorem not_nearest {x : ℚ} {m m' : Nat} {k k' : Int} (hc : FinDbl m' k') (h : |x - dval m' k'| < |x - dval m k|) : ¬ Rounds x (.fin m k) := by
  intro hr
  have hne : (m', k') ≠ (m, k) := by
    intro he
    injection he with h1 h2
    rw [h1, h2] at h
    exact lt_irrefl _ h
  rcases hr.2.2 m' k' hc hne with g | ⟨g, _⟩
  · exact lt_asymm g h
  · exact absurd h (not_lt.2 g.le)

theorem toFlonum_start0 {f : Nat} {rf : Int} (h0 : intToDouble f ≠ .inf) (h : raisePow10 (intToDouble f) rf = .fin 0 (-1074)) (fuel : Nat) :
    toFlonum fuel f rf = some (.fin 0 (-1074)) := by
  unfold toFlonum
  simp only [h0, false_and, if_false]
  rw [h]
  simp

/-- `2.4703283e-324` is read as 0.0, although it is nearer to the least positive flonum. -/
theorem C64_bug_underflow : (∀ strict, DecimalText strict "2.4703283e-324".toList false 24703283 7 (-324)) ∧
    (∀ fuel strict, readNumber fuel strict "2.4703283e-324".toList = .flo (.num false (.fin 0 (-1074))) []) ∧
    ¬ Rounds ((24703283 : ℚ) * 10 ^ (-324 - 7 : Int)) (.fin 0 (-1074)) := by
  have hD : ∀ strict, DecimalText strict "2.4703283e-324".toList false 24703283 7 (-324) := by
    intro strict
    refine ⟨[], _, rfl, Or.inr ⟨Or.inl rfl, rfl⟩, "2.4703283".toList, "e-324".toList, rfl, Or.inr ⟨'e', ['-'], "324".toList, -1, [3, 2, 4], rfl, by decide,
      Or.inr (Or.inr ⟨rfl, rfl⟩), ⟨by decide, by decide, by decide, by decide, fun _ => by decide⟩, by decide, by decide⟩,
      Or.inr ⟨['2'], "4703283".toList, [2], [4, 7, 0, 3, 2, 8, 3], rfl, ⟨by decide, by decide, by decide, by decide, fun _ => by decide⟩, ⟨by decide, by decide, by decide, by decide, fun _ => by decide⟩, by decide, by decide, rfl⟩⟩
  refine ⟨hD, fun fuel strict => ?_, ?_⟩
  · rw [readNumber_spec (hD strict)]
    unfold result
    rw [if_neg (by decide), toFlonum_start0 (by decide +kernel) (by decide +kernel)]
  · exact not_nearest (m' := 1) (k' := -1074) ⟨by norm_num, by norm_num, by norm_num, Or.inr rfl⟩ (by decide +kernel)

/-- `1.797693134862315700e308`, which is less than the greatest flonum, is read as the infinity.  Without the two zeros it is read as the greatest flonum. -/
theorem C64_bug_overflow : (∀ strict, DecimalText strict "1.797693134862315700e308".toList false 1797693134862315700 18 308) ∧
    (∀ fuel strict, readNumber fuel strict "1.797693134862315700e308".toList = .flo (.num false .inf) []) ∧
    ¬ Rounds ((1797693134862315700 : ℚ) * 10 ^ (308 - 18 : Int)) .inf ∧
    (∀ strict, readNumber 100 strict "1.7976931348623157e308".toList = .flo (.num false (.fin (2 ^ 53 - 1) 971)) []) := by
  have hD : ∀ strict, DecimalText strict "1.797693134862315700e308".toList false 1797693134862315700 18 308 := by
    intro strict
    refine ⟨[], _, rfl, Or.inr ⟨Or.inl rfl, rfl⟩, "1.797693134862315700".toList, "e308".toList, rfl, Or.inr ⟨'e', [], "308".toList, 1, [3, 0, 8], rfl, by decide,
      Or.inl ⟨rfl, rfl⟩, ⟨by decide, by decide, by decide, by decide, fun _ => by decide⟩, by decide, by decide⟩,
      Or.inr ⟨['1'], "797693134862315700".toList, [1], [7, 9, 7, 6, 9, 3, 1, 3, 4, 8, 6, 2, 3, 1, 5, 7, 0, 0], rfl, ⟨by decide, by decide, by decide, by decide, fun _ => by decide⟩, ⟨by decide, by decide, by decide, by decide, fun _ => by decide⟩, by decide, by decide, rfl⟩⟩
  refine ⟨hD, fun fuel strict => ?_, ?_, by decide +kernel⟩
  · rw [readNumber_spec (hD strict)]
    unfold result
    rw [if_neg (by decide), toFlonum_inf (by decide +kernel)]
  · exact not_le.2 (by decide +kernel)

/-- A `1`, a hundred zeros and the exponent -325, `1e-225`, is read as 0.0: an exponent of three digits from 325 on is taken for too big, whatever
the digits before it. -/
theorem C64_bug_exponent : let s := '1' :: List.replicate 100 '0' ++ "e-325".toList
    (∀ strict, DecimalText strict s false (10 ^ 100) 0 (-325)) ∧
    (∀ fuel strict, readNumber fuel strict s = .flo (.num false (.fin 0 (-1074))) []) ∧
    ¬ Rounds ((10 : ℚ) ^ 100 * 10 ^ (-325 - 0 : Int)) (.fin 0 (-1074)) := by
  intro s
  have hD : ∀ strict, DecimalText strict s false (10 ^ 100) 0 (-325) := by
    intro strict
    refine ⟨[], _, rfl, Or.inr ⟨Or.inl rfl, rfl⟩, '1' :: List.replicate 100 '0', "e-325".toList, rfl,
      Or.inr ⟨'e', ['-'], "325".toList, -1, [3, 2, 5], rfl, by decide, Or.inr (Or.inr ⟨rfl, rfl⟩), ⟨by decide, by decide, by decide, by decide, fun _ => by decide⟩, by decide, by decide⟩,
      Or.inl ⟨1 :: List.replicate 100 0, ⟨by decide +kernel, by decide +kernel, by decide +kernel, by decide +kernel, fun _ => by decide +kernel⟩,
        by decide +kernel, by decide +kernel, by decide +kernel, rfl⟩⟩
  refine ⟨hD, fun fuel strict => ?_, ?_⟩
  · rw [readNumber_spec (hD strict)]
    unfold result
    rw [if_pos (by decide), if_pos (Or.inl (by decide))]
  · exact not_nearest (m' := 2 ^ 52) (k' := -802) ⟨by norm_num, by norm_num, by norm_num, Or.inl le_rfl⟩ (by decide +kernel)

/-- The text of `(2^53 - 1) * 2^-1075`, the middle between the least normal and the greatest subnormal flonum. -/
def middleText : List Char := '.' :: (List.range 1075).map fun i => dig ((2 ^ 53 - 1) * 5 ^ 1075 / 10 ^ (1074 - i) % 10)

/-- Reading the middle between the least normal and the greatest subnormal flonum never ends: the two approximations alternate. -/
theorem C64_bug_loop : (∀ strict, DecimalText strict middleText false ((2 ^ 53 - 1) * 5 ^ 1075) 1075 0) ∧
    ∀ fuel strict, readNumber fuel strict middleText = .hang := by
  have hD : ∀ strict, DecimalText strict middleText false ((2 ^ 53 - 1) * 5 ^ 1075) 1075 0 := by
    intro strict
    refine ⟨[], _, rfl, Or.inr ⟨Or.inl rfl, rfl⟩, middleText, [], (List.append_nil _).symm, Or.inl ⟨rfl, rfl⟩,
      Or.inr ⟨[], middleText.tail, [], (List.range 1075).map fun i => (2 ^ 53 - 1) * 5 ^ 1075 / 10 ^ (1074 - i) % 10, by decide +kernel, ⟨by decide, by decide, by decide, by decide, fun _ => by decide⟩,
        ⟨by decide +kernel, by decide +kernel, by decide +kernel, by decide +kernel, fun _ => by decide +kernel⟩,
        by decide +kernel, by decide +kernel, by decide +kernel⟩⟩
  refine ⟨hD, fun fuel strict => ?_⟩
  rw [readNumber_spec (hD strict)]
  unfold result
  rw [if_neg (by decide)]
  have h0 : intToDouble ((2 ^ 53 - 1) * 5 ^ 1075) = .inf := by decide +kernel
  have h1 : divToDouble ((2 ^ 53 - 1) * 5 ^ 1075) (10 ^ 1075) = .fin (2 ^ 52) (-1074) := by decide +kernel
  have h2 : toFlonum fuel ((2 ^ 53 - 1) * 5 ^ 1075) (0 - (1075 : Nat)) = none := by
    have htr : Trap (target ((2 ^ 53 - 1) * 5 ^ 1075) (-1075)) := by
      unfold Trap target dval
      decide +kernel
    have h3 := algorithmR_trap ((2 ^ 53 - 1) * 5 ^ 1075) (-1075) (m := 2 ^ 52) (k := -1074)
      ⟨by norm_num, by norm_num, by norm_num, Or.inl le_rfl⟩ (by norm_num) htr fuel
    generalize hF : (2 ^ 53 - 1) * 5 ^ 1075 = F at *
    unfold toFlonum
    rw [show (0 - ((1075 : Nat) : Int)) = -1075 by norm_num]
    simp only [h0, true_and]
    rw [if_neg (by norm_num), if_pos trivial, show (- (-1075 : Int)).toNat = 1075 from rfl, h1]
    simp only []
    rw [if_pos ⟨by norm_num, Or.inr (Or.inr (by norm_num))⟩]
    exact h3
  rw [h2]

/-- A NUL character is taken for an exponent marker. -/
theorem C64_bug_nul : ∀ strict, readNumber 100 strict ['1', Char.ofNat 0, '5'] = readNumber 100 strict "1e5".toList := by decide +kernel

/-- A ratio in the subnormal range that is just above the middle between 0.0 and the least positive flonum is converted to 0.0. -/
theorem C65_bug_subnormal : ratToDouble (2 ^ 60 + 1) (2 ^ 1135) = .fin 0 (-1074) ∧ ¬ Rounds (((2 ^ 60 + 1 : Nat) : ℚ) / ((2 ^ 1135 : Nat) : ℚ)) (.fin 0 (-1074)) :=
  ⟨by decide +kernel, not_nearest (m' := 1) (k' := -1074) ⟨by norm_num, by norm_num, by norm_num, Or.inr rfl⟩ (by decide +kernel)⟩

/-! ## examples -/

/-- The hypotheses of C63 are met by 1024.0 with the estimate 3. -/
example : FinDbl (2 ^ 52) (-42) ∧ EstimateOf 3 (2 ^ 52) (-42) := by
  refine ⟨⟨by norm_num, by norm_num, by norm_num, Or.inl le_rfl⟩, Real.logb 10 (((2 ^ 52 : Nat) : ℝ) * 2 ^ (-42 : Int)) - 1 / 10, by norm_num, ?_⟩
  symm
  rw [Int.ceil_eq_iff]
  have hv : ((2 ^ 52 : Nat) : ℝ) * 2 ^ (-42 : Int) = 1024 := by norm_num
  rw [hv]
  have h1 : (3 : ℝ) < Real.logb 10 1024 := by
    rw [Real.lt_logb_iff_rpow_lt (by norm_num) (by norm_num)]
    norm_num
  have h2 : Real.logb 10 1024 < 3 + 1 / 10 := by
    rw [Real.logb_lt_iff_lt_rpow (by norm_num) (by norm_num), show (3 + 1 / 10 : ℝ) = 31 / 10 by norm_num]
    refine lt_of_pow_lt_pow_left₀ 10 (by positivity) ?_
    rw [← Real.rpow_natCast ((10 : ℝ) ^ (31 / 10 : ℝ)), ← Real.rpow_mul (by norm_num)]
    norm_num
  norm_num at h1 h2 ⊢
  constructor <;> linarith

/-- The texts of some flonums, and the flonums that are read from some texts. -/
example : printDouble 17 (-3) 10 false 3 (.num true (.fin (2 ^ 52) (-42))) = some "-1024.0".toList ∧
    printDouble 17 (-3) 10 false (-323) (.num false (.fin 1 (-1074))) = some "5.0e-324".toList ∧
    readNumber 100 true "5.0e-324".toList = .flo (.num false (.fin 1 (-1074))) [] ∧
    readNumber 100 false "-1_024.".toList = .flo (.num true (.fin (2 ^ 52) (-42))) [] := by decide +kernel

/-- A number that is halfway between two flonums needs all its digits: the hypotheses of C64 are met. -/
example : DecimalText true "9007199254740993.0".toList false 90071992547409930 1 0 ∧ (2 : ℚ) ^ (-1022 : Int) ≤ (90071992547409930 : ℚ) * 10 ^ (0 - 1 : Int) ∧
    (90071992547409930 : ℚ) * 10 ^ (0 - 1 : Int) ≤ 1797 * 10 ^ 305 ∧
    readNumber 100 true "9007199254740993.0".toList = .flo (.num false (.fin (2 ^ 52) 1)) [] := by
  refine ⟨⟨[], _, rfl, Or.inr ⟨Or.inl rfl, rfl⟩, _, [], (List.append_nil _).symm, Or.inl ⟨rfl, rfl⟩,
    Or.inr ⟨"9007199254740993".toList, ['0'], [9, 0, 0, 7, 1, 9, 9, 2, 5, 4, 7, 4, 0, 9, 9, 3], [0], rfl, ⟨by decide, by decide, by decide, by decide, fun _ => by decide⟩, ⟨by decide, by decide, by decide, by decide, fun _ => by decide⟩, by decide, by decide, rfl⟩⟩,
    by decide +kernel, by decide +kernel, by decide +kernel⟩

/-- One third, and a ratio of long integers. -/
example : ratToDouble 1 3 = .fin 6004799503160661 (-54) ∧ ratToDouble (2 ^ 200 + 1) (3 ^ 50) = .fin 7583971489096856 68 := by decide +kernel

end Gauche.FloText

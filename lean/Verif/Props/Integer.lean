import Verif.Proof.IntCanon
/-!
# C14 - C18, C45 - C47 : exact integers

`Num` is an exact integer object (fixnum or bignum), `Num.toInt` the integer it denotes and `Num.IsInt r z` says that `r` is the
canonical object for `z` (`Verif.Spec.Bignum`).  `bitOf` (`Verif.Spec.Bits`) is a bit of an integer.
-/
namespace Gauche.Integer
open Gauche.Bignum

/-! ## C14 : addition and subtraction -/

/-- `(+ x y)` and `(- x y)` of any two exact integers give the canonical object for the sum and the difference. -/
theorem C14_add_sub {x y : Num} (hx : x.Canonical) (hy : y.Canonical) :
    (scmAdd x y).IsInt (x.toInt + y.toInt) ∧ (scmSub x y).IsInt (x.toInt - y.toInt) :=
  ⟨scmAdd_isInt hx hy, scmSub_isInt hx hy⟩

/-- `(- x)` and `(abs x)`. -/
theorem C14_negate_abs {x : Num} (hx : x.Canonical) :
    (scmNegate x).IsInt (-x.toInt) ∧ (scmAbs x).IsInt |x.toInt| := by
  refine ⟨scmNegate_isInt hx, ?_⟩
  rw [← Int.natCast_natAbs]; exact scmAbs_isInt hx

/-- 2^64, a two word bignum. -/
def two64 : Num := .big ⟨1, [0, 1]⟩
/-- -(2^128 - 1). -/
def negMax2 : Num := .big ⟨-1, [18446744073709551615, 18446744073709551615]⟩

theorem two64_canonical : two64.Canonical := by
  refine ⟨Or.inl rfl, ?_, ⟨by decide, by decide⟩, by decide +kernel⟩
  intro w hw; simp at hw; omega
theorem negMax2_canonical : negMax2.Canonical := by
  refine ⟨Or.inr rfl, ?_, ⟨by decide, by decide⟩, by decide +kernel⟩
  intro w hw; simp at hw; omega

/-- The two word operand satisfies the hypothesis, and the carry runs through both words: the sum is a single word. -/
example : (scmAdd two64 (.fix (-1))).IsInt 18446744073709551615 ∧ scmAdd two64 (.fix (-1)) = .big ⟨1, [18446744073709551615]⟩ :=
  ⟨(C14_add_sub two64_canonical (y := .fix (-1)) ⟨by decide, by decide⟩).1, by decide +kernel⟩
example : scmSub negMax2 (.fix 1) = .big ⟨-1, [0, 0, 1]⟩ := by decide +kernel

/-! ## C15 : multiplication -/

/-- `(* x y)` of any two exact integers. -/
theorem C15_mul {x y : Num} (hx : x.Canonical) (hy : y.Canonical) : (scmMul x y).IsInt (x.toInt * y.toInt) := scmMul_isInt hx hy

example : (scmMul negMax2 negMax2).IsInt ((2 ^ 128 - 1) * (2 ^ 128 - 1)) := C15_mul negMax2_canonical negMax2_canonical
example : scmMul negMax2 negMax2 = .big ⟨1, [1, 0, 18446744073709551614, 18446744073709551615]⟩ := by decide +kernel

/-! ## C16 : division -/

/-- `(quotient x y)` and `(remainder x y)` of exact integers, `y` not zero.  What is missing from the full property: the dividend
`-2^61` with divisor `-1` or `2^61` (see `C16_bug_*`), and the error for a zero divisor when the dividend is a bignum. -/
theorem C16_quotient_remainder_partial {x y : Num} (hx : x.Canonical) (hy : y.Canonical) (h0 : y.toInt ≠ 0)
    (hc : ¬ (x.toInt = -2 ^ 61 ∧ (y.toInt = -1 ∨ y.toInt = 2 ^ 61))) :
    ∃ q r, scmQuotient x y = .ok (q, r) ∧ scmModulo x y true = .ok r ∧ q.Canonical ∧ r.Canonical ∧
      x.toInt = q.toInt * y.toInt + r.toInt ∧ |r.toInt| < |y.toInt| ∧ (0 ≤ x.toInt → 0 ≤ r.toInt) ∧ (x.toInt ≤ 0 → r.toInt ≤ 0) := by
  norm_num at hc
  obtain ⟨q, r, q1, q2, q3⟩ := quotient_isInt hx hy h0 (by omega)
  obtain ⟨r', r1, r2⟩ := remainder_isInt hx hy h0 (by omega)
  have e : r' = r := canon_unique r2.1 q3.1 (by rw [r2.2, q3.2])
  subst e
  obtain ⟨t1, t2, t3, t4⟩ := tmod_bounds x.toInt y.toInt h0
  refine ⟨q, r', q1, r1, q2.1, q3.1, ?_, ?_, ?_, ?_⟩
  · rw [q2.2, q3.2]; omega
  · rw [q3.2, ← Int.natCast_natAbs, ← Int.natCast_natAbs]; omega
  · rw [q3.2]; exact t3
  · rw [q3.2]; exact t4

/-- `(modulo x y)` of any exact integers, `y` not zero: the remainder of the floor division. -/
theorem C16_modulo {x y : Num} (hx : x.Canonical) (hy : y.Canonical) (h0 : y.toInt ≠ 0) :
    ∃ m, scmModulo x y false = .ok m ∧ m.Canonical ∧ (∃ k : Int, x.toInt = k * y.toInt + m.toInt) ∧
      (0 < y.toInt → 0 ≤ m.toInt ∧ m.toInt < y.toInt) ∧ (y.toInt < 0 → y.toInt < m.toInt ∧ m.toInt ≤ 0) := by
  obtain ⟨m, m1, m2⟩ := modulo_isInt hx hy h0
  refine ⟨m, m1, m2.1, ⟨Int.fdiv x.toInt y.toInt, ?_⟩, ?_, ?_⟩
  · rw [m2.2]; have := Int.mul_fdiv_add_fmod x.toInt y.toInt; rw [Int.mul_comm] at this; omega
  · intro h; rw [m2.2]; exact ⟨Int.fmod_nonneg_of_pos _ h, Int.fmod_lt_of_pos _ h⟩
  · intro h; rw [m2.2]
    have h1 := Int.fmod_nonneg_of_pos (-x.toInt) (b := -y.toInt) (by omega)
    have h2 := Int.fmod_lt_of_pos (-x.toInt) (b := -y.toInt) (by omega)
    rw [Int.neg_fmod_neg] at h1 h2
    omega

/-- A zero divisor: with a fixnum dividend an error is raised. -/
theorem C16_zero_divisor_fix (a : Int) (remp : Bool) :
    scmQuotient (.fix a) (.fix 0) = .err ∧ scmModulo (.fix a) (.fix 0) remp = .err := ⟨rfl, rfl⟩

/-- With a bignum dividend there is no check: the machine division by zero is reached. -/
theorem C16_bug_zero_divisor_big (b : Big) (remp : Bool) :
    scmQuotient (.big b) (.fix 0) = .ub ∧ scmModulo (.big b) (.fix 0) remp = .ub := ⟨rfl, rfl⟩

/-- `(quotient (- (expt 2 61)) -1)` gives `-2^61`. -/
theorem C16_bug_wrap : scmQuotient (.fix (-2 ^ 61)) (.fix (-1)) = .ok (.fix (-2 ^ 61), .fix 0) := by decide +kernel

/-- `(quotient (- (expt 2 61)) (expt 2 61))` gives 0 and the remainder is `-2^61`: not smaller than the divisor. -/
theorem C16_bug_fixmin : scmQuotient (.fix (-2 ^ 61)) (.big ⟨1, [2 ^ 61]⟩) = .ok (.fix 0, .fix (-2 ^ 61)) ∧
    scmModulo (.fix (-2 ^ 61)) (.big ⟨1, [2 ^ 61]⟩) true = .ok (.fix (-2 ^ 61)) := by decide +kernel

example : ∃ q r, scmQuotient negMax2 two64 = .ok (q, r) ∧ negMax2.toInt = q.toInt * two64.toInt + r.toInt ∧ |r.toInt| < |two64.toInt| := by
  obtain ⟨q, r, h1, -, -, -, h2, h3, -⟩ := C16_quotient_remainder_partial negMax2_canonical two64_canonical (by decide +kernel) (by decide +kernel)
  exact ⟨q, r, h1, h2, h3⟩
example : ∃ m, scmModulo negMax2 two64 false = .ok m ∧ 0 ≤ m.toInt ∧ m.toInt < 2 ^ 64 := by
  obtain ⟨m, h1, -, -, h2, -⟩ := C16_modulo negMax2_canonical two64_canonical (by decide +kernel)
  exact ⟨m, h1, h2 (by decide +kernel)⟩

/-! ## C45 : comparison -/

/-- `=`, `<` and `>` on exact integers (through `Scm_NumCmp`) decide equality and order of the integers; `zero?` and the sign. -/
theorem C45_compare {x y : Num} (hx : x.Canonical) (hy : y.Canonical) :
    (scmNumCmp x y = 0 ↔ x.toInt = y.toInt) ∧ (scmNumCmp x y < 0 ↔ x.toInt < y.toInt) ∧ (0 < scmNumCmp x y ↔ y.toInt < x.toInt) ∧
    scmSign x = x.toInt.sign ∧ (scmOddP x = true ↔ x.toInt % 2 = 1) := by
  refine ⟨?_, ?_, ?_, scmSign_eq hx, by rw [scmOddP_spec hx]; simp⟩ <;> rcases scmNumCmp_spec hx hy with h | h | h <;> omega

example : scmNumCmp negMax2 two64 = -1 ∧ negMax2.toInt < two64.toInt := by decide +kernel

/-! ## C46 : gcd and lcm -/

/-- `(gcd x y)` and `(lcm x y)` of exact integers of any sign, `fuel` bounding the number of rounds of the Euclidean loop: with any
bound above the operands (so with the unbounded loop of the program) the results are the greatest common divisor and the least
common multiple. -/
theorem C46_gcd_lcm {x y : Num} (hx : x.Canonical) (hy : y.Canonical) {fuel : Nat} (hf : x.toInt.natAbs < fuel ∧ y.toInt.natAbs < fuel) :
    ∃ g l, schemeGcd x y fuel = .ok g ∧ schemeLcm x y fuel = .ok l ∧ g.Canonical ∧ l.Canonical ∧ 0 ≤ g.toInt ∧ 0 ≤ l.toInt ∧
      (g.toInt ∣ x.toInt ∧ g.toInt ∣ y.toInt ∧ ∀ d : Int, d ∣ x.toInt → d ∣ y.toInt → d ∣ g.toInt) ∧
      (x.toInt ∣ l.toInt ∧ y.toInt ∣ l.toInt ∧ ∀ m : Int, x.toInt ∣ m → y.toInt ∣ m → l.toInt ∣ m) := by
  obtain ⟨g, g1, g2⟩ := schemeGcd_spec hx hy hf
  obtain ⟨l, l1, l2⟩ := schemeLcm_spec hx hy hf
  refine ⟨g, l, g1, l1, g2.1, l2.1, by rw [g2.2]; omega, by rw [l2.2]; omega, ?_, ?_⟩
  · rw [g2.2]; exact ⟨Int.gcd_dvd_left _ _, Int.gcd_dvd_right _ _, fun d h1 h2 => Int.dvd_coe_gcd h1 h2⟩
  · rw [l2.2]; exact ⟨Int.dvd_lcm_left _ _, Int.dvd_lcm_right _ _, fun m h1 h2 => Int.coe_lcm_dvd h1 h2⟩

example : ∃ g l, schemeGcd negMax2 two64 (2 ^ 129) = .ok g ∧ schemeLcm negMax2 two64 (2 ^ 129) = .ok l ∧ g.toInt ∣ negMax2.toInt ∧ two64.toInt ∣ l.toInt := by
  obtain ⟨g, l, h1, h2, -, -, -, -, h3, h4⟩ := C46_gcd_lcm negMax2_canonical two64_canonical (fuel := 2 ^ 129) (by decide +kernel)
  exact ⟨g, l, h1, h2, h3.1, h4.2.1⟩

/-! ## C47 : integer powers -/

/-- `(expt x y)` for exact integers with `y ≥ 0`.  Missing: an exponent outside the fixnum range raises an error except for bases
`1` and `-1` (so `(expt 0 big)` is an error), and `(expt 2 y)` raises for `y ≥ 2^28`. -/
theorem C47_expt_partial {x y : Num} (hx : x.Canonical) (hy : y.Canonical) (hy0 : 0 ≤ y.toInt)
    (hc : y.toInt < 2 ^ 61 ∨ x.toInt = 1 ∨ x.toInt = -1) (h2 : x.toInt = 2 → y.toInt < 2 ^ 28) :
    ∃ r, exactExpt x y = .ok r ∧ r.IsInt (x.toInt ^ y.toInt.toNat) := by
  norm_num at hc h2
  exact exactExpt_spec hx hy hy0 (by omega) h2

/-- `(expt 0 (expt 2 64))` is an error. -/
theorem C47_bug_expt_zero_big : exactExpt (.fix 0) two64 = .err := by decide +kernel

example : ∃ r, exactExpt negMax2 (.fix 3) = .ok r ∧ r.IsInt ((-(2 ^ 128 - 1)) ^ 3) := by
  obtain ⟨r, h1, h2⟩ := C47_expt_partial negMax2_canonical (y := .fix 3) ⟨by decide, by decide⟩ (by decide) (by decide) (by decide +kernel)
  exact ⟨r, h1, h2⟩

/-! ## C18 : bitwise operations -/

/-- An integer is determined by its bits, so the theorems below fix the results. -/
theorem C18_bits_determine {x y : Int} (h : ∀ i, bitOf x i = bitOf y i) : x = y := bitOf_ext h

/-- `(lognot x)`. -/
theorem C18_lognot {x : Num} (hx : x.Canonical) :
    (scmLogNot x).Canonical ∧ ∀ i, bitOf (scmLogNot x).toInt i = !bitOf x.toInt i := scmLogNot_spec hx

/-- `(logior x y)`. -/
theorem C18_logior {x y : Num} (hx : x.Canonical) (hy : y.Canonical) :
    (scmLogIor x y).Canonical ∧ ∀ i, bitOf (scmLogIor x y).toInt i = (bitOf x.toInt i || bitOf y.toInt i) := scmLogIor_spec hx hy

/-- `(logand x y)`, except when both are negative, above `-2^(64k)`, and have no common bit below `64k` (the result should be
`-2^(64k)`; see `C18_bug_logand`). -/
theorem C18_logand_partial {x y : Num} (hx : x.Canonical) (hy : y.Canonical)
    (hc : ¬ ∃ k : Nat, -2 ^ (64 * k) < x.toInt ∧ x.toInt < 0 ∧ -2 ^ (64 * k) < y.toInt ∧ y.toInt < 0 ∧
      ∀ i < 64 * k, (bitOf x.toInt i && bitOf y.toInt i) = false) :
    (scmLogAnd x y).Canonical ∧ ∀ i, bitOf (scmLogAnd x y).toInt i = (bitOf x.toInt i && bitOf y.toInt i) := scmLogAnd_spec hx hy hc

/-- For all the operands excluded from `C18_logand_partial` the answer is 0, although bit `64k` of the true result is set. -/
theorem C18_bug_logand {x y : Num} (hx : x.Canonical) (hy : y.Canonical) {k : Nat}
    (hc : -2 ^ (64 * k) < x.toInt ∧ x.toInt < 0 ∧ -2 ^ (64 * k) < y.toInt ∧ y.toInt < 0 ∧
      ∀ i < 64 * k, (bitOf x.toInt i && bitOf y.toInt i) = false) :
    scmLogAnd x y = .fix 0 ∧ (bitOf x.toInt (64 * k) && bitOf y.toInt (64 * k)) = true := by
  refine ⟨scmLogAnd_hole hx hy ⟨k, hc⟩, ?_⟩
  obtain ⟨a1, a2, a3, a4, -⟩ := hc
  rw [rep_bit (exists_rep _ (64 * k) (by omega)), rep_bit (exists_rep _ (64 * k) (by omega)), if_neg (by omega), if_neg (by omega)]
  simp [a2, a4]

/-- `(logxor x y)`, except where the true result is `-2^(64k)`, or `x` and `y` are in the hole of `logand`. -/
theorem C18_logxor_partial {x y : Num} (hx : x.Canonical) (hy : y.Canonical)
    (hc : ¬ ∃ k : Nat, -2 ^ (64 * k) < x.toInt ∧ x.toInt < 0 ∧ -2 ^ (64 * k) < y.toInt ∧ y.toInt < 0 ∧
      ∀ i < 64 * k, (bitOf x.toInt i && bitOf y.toInt i) = false)
    (hc2 : ¬ ∃ k : Nat, ∀ i, xor (bitOf x.toInt i) (bitOf y.toInt i) = decide (64 * k ≤ i)) :
    (scmLogXor x y).Canonical ∧ ∀ i, bitOf (scmLogXor x y).toInt i = xor (bitOf x.toInt i) (bitOf y.toInt i) :=
  scmLogXor_spec hx hy hc hc2

/-- `(logand (- 1 (expt 2 64)) (- 2 (expt 2 64)))` is 0; it should be `-2^64`. -/
theorem C18_bug_logand_example : scmLogAnd (.big ⟨-1, [2 ^ 64 - 1]⟩) (.big ⟨-1, [2 ^ 64 - 2]⟩) = .fix 0 := by decide +kernel
/-- `(logxor 1 (- 1 (expt 2 64)))` is 0; it should be `-2^64`. -/
theorem C18_bug_logxor_example : scmLogXor (.fix 1) (.big ⟨-1, [2 ^ 64 - 1]⟩) = .fix 0 := by decide +kernel

/-- `(ash x n)` for `n ≥ 0`: the product with `2^n`.  Missing: counts from `2^28` on raise an error, and the count 0 with the
fixnums `2^61-1`, `1-2^61` and `-2^61` gives an object that is not canonical (`C18_bug_ash_zero`). -/
theorem C18_ash_left_partial {x : Num} (hx : x.Canonical) {n : Nat} (hn : n < 2 ^ 28)
    (hc : ¬ (n = 0 ∧ (x.toInt = 2 ^ 61 - 1 ∨ x.toInt = -(2 ^ 61 - 1) ∨ x.toInt = -2 ^ 61))) :
    ∃ r, scmAsh x n = .ok r ∧ r.IsInt (x.toInt * 2 ^ n) ∧ ∀ i, bitOf r.toInt i = (decide (n ≤ i) && bitOf x.toInt (i - n)) := by
  norm_num at hn hc
  obtain ⟨r, r1, r2⟩ := scmAsh_left hx hn (by omega)
  refine ⟨r, r1, r2, fun i => ?_⟩
  rw [r2.2]
  by_cases h : n ≤ i
  · have e := bitOf_shift (x.toInt * 2 ^ n) n (i - n)
    rw [Int.mul_ediv_cancel _ (by positivity), show n + (i - n) = i by omega] at e
    rw [← e]; simp [h]
  · have e : x.toInt * 2 ^ n / 2 ^ i % 2 = 0 := by
      have : (2 : Int) ^ n = 2 ^ i * (2 * 2 ^ (n - i - 1)) := by
        rw [← pow_succ', ← pow_add]; congr 1; omega
      rw [this, show x.toInt * (2 ^ i * (2 * 2 ^ (n - i - 1))) = 2 ^ i * (2 * (x.toInt * 2 ^ (n - i - 1))) by ring,
        Int.mul_ediv_cancel_left _ (by positivity)]
      omega
    unfold bitOf
    rw [e]; simp [h]

/-- `(ash x (- n))` for `n > 0`: the floor of `x / 2^n`.  Missing, for bignums: counts below `-2^31` are truncated to 32 bits; a negative
operand needs `n < 2^28`; and `(ash (- -1 (expt 2 61)) -61)` is wrong (`C18_bug_ash_fixmin`). -/
theorem C18_ash_right_partial {x : Num} (hx : x.Canonical) {n : Nat} (hn : 0 < n)
    (hb : ∀ b, x = .big b → n < 2 ^ 31 ∧ (x.toInt < 0 → n < 2 ^ 28 ∧ ¬ (x.toInt = -2 ^ 61 - 1 ∧ n = 61))) :
    ∃ r, scmAsh x (-(n : Int)) = .ok r ∧ r.IsInt (x.toInt / 2 ^ n) ∧ ∀ i, bitOf r.toInt i = bitOf x.toInt (n + i) := by
  obtain ⟨r, r1, r2⟩ := scmAsh_right hx hn (fun b hxb => by
    have := hb b hxb
    norm_num at this
    exact ⟨this.1, fun h => ⟨(this.2 h).1, by have := (this.2 h).2; omega⟩⟩)
  exact ⟨r, r1, r2, fun i => by rw [r2.2, bitOf_shift]⟩

/-- `(ash (- (expt 2 61) 1) 0)` is a bignum holding a fixnum value. -/
theorem C18_bug_ash_zero : scmAsh (.fix (2 ^ 61 - 1)) 0 = .ok (.big ⟨1, [2 ^ 61 - 1]⟩) := by decide +kernel
/-- `(ash (- -1 (expt 2 61)) -61)` is `-1`; the floor is `-2`. -/
theorem C18_bug_ash_fixmin : scmAsh (.big ⟨-1, [2 ^ 61 + 1]⟩) (-61) = .ok (.fix (-1)) ∧ (-2 ^ 61 - 1 : Int) / 2 ^ 61 = -2 := by decide +kernel
/-- `(ash (expt 2 64) (- (expt 2 32)))` is `2^64`; the floor is 0. -/
theorem C18_bug_ash_truncated : scmAsh two64 (-2 ^ 32) = .ok two64 := by decide +kernel

example : ∃ r, scmAsh negMax2 (-64 : Int) = .ok r ∧ r.IsInt (-2 ^ 64) := by
  obtain ⟨r, h1, h2, -⟩ := C18_ash_right_partial negMax2_canonical (n := 64) (by decide) (by intro b _; decide +kernel)
  exact ⟨r, h1, h2⟩
example : ∃ r, scmAsh two64 (65 : Nat) = .ok r ∧ r.IsInt (2 ^ 64 * 2 ^ 65) := by
  obtain ⟨r, h1, h2, -⟩ := C18_ash_left_partial two64_canonical (n := 65) (by decide) (by decide +kernel)
  exact ⟨r, h1, h2⟩
example : scmLogAnd negMax2 two64 = .fix 0 ∧ scmLogIor negMax2 two64 = .big ⟨-1, [2 ^ 64 - 1, 2 ^ 64 - 2]⟩ := by decide +kernel
example : ¬ ∃ k : Nat, -2 ^ (64 * k) < negMax2.toInt ∧ negMax2.toInt < 0 ∧ -2 ^ (64 * k) < two64.toInt ∧ two64.toInt < 0 ∧
      ∀ i < 64 * k, (bitOf negMax2.toInt i && bitOf two64.toInt i) = false := by
  rintro ⟨k, -, -, -, h, -⟩
  exact absurd h (by decide +kernel)

/-! ## C17 : one representation -/

/-- Two canonical objects denoting the same integer are the same object (as structures), so a structural comparison (`eqv?`) and a
comparison of values (`=`) agree. -/
theorem C17_eqv_iff {x y : Num} (hx : x.Canonical) (hy : y.Canonical) : x = y ↔ x.toInt = y.toInt :=
  ⟨fun h => by rw [h], canon_unique hx hy⟩

/-- The exact integers a program can compute from fixnum literals. -/
inductive Computed : Num → Prop
  | lit {n : Int} (h : -2 ^ 61 ≤ n ∧ n < 2 ^ 61) : Computed (.fix n)
  | add {x y : Num} (hx : Computed x) (hy : Computed y) : Computed (scmAdd x y)
  | sub {x y : Num} (hx : Computed x) (hy : Computed y) : Computed (scmSub x y)
  | mul {x y : Num} (hx : Computed x) (hy : Computed y) : Computed (scmMul x y)
  | neg {x : Num} (hx : Computed x) : Computed (scmNegate x)
  | abs {x : Num} (hx : Computed x) : Computed (scmAbs x)
  | quotient {x y q r : Num} (hx : Computed x) (hy : Computed y) (e : scmQuotient x y = .ok (q, r)) : Computed q
  | remainder {x y q r : Num} (hx : Computed x) (hy : Computed y) (e : scmQuotient x y = .ok (q, r)) : Computed r
  | modulo {x y r : Num} {remp : Bool} (hx : Computed x) (hy : Computed y) (e : scmModulo x y remp = .ok r) : Computed r
  | gcd {x y g : Num} {fuel : Nat} (hx : Computed x) (hy : Computed y) (hf : x.toInt.natAbs < fuel ∧ y.toInt.natAbs < fuel)
      (e : schemeGcd x y fuel = .ok g) : Computed g
  | lcm {x y g : Num} {fuel : Nat} (hx : Computed x) (hy : Computed y) (hf : x.toInt.natAbs < fuel ∧ y.toInt.natAbs < fuel)
      (e : schemeLcm x y fuel = .ok g) : Computed g
  | ash {x r : Num} {n : Int} (hx : Computed x) (e : scmAsh x n = .ok r)
      (hc : ¬ (n = 0 ∧ (x.toInt = 2 ^ 61 - 1 ∨ x.toInt = -(2 ^ 61 - 1) ∨ x.toInt = -2 ^ 61))) : Computed r
  | lognot {x : Num} (hx : Computed x) : Computed (scmLogNot x)
  | logand {x y : Num} (hx : Computed x) (hy : Computed y) : Computed (scmLogAnd x y)
  | logior {x y : Num} (hx : Computed x) (hy : Computed y) : Computed (scmLogIor x y)
  | logxor {x y : Num} (hx : Computed x) (hy : Computed y) : Computed (scmLogXor x y)
  | expt {x y r : Num} (hx : Computed x) (hy : Computed y) (h0 : 0 ≤ y.toInt) (e : exactExpt x y = .ok r) : Computed r

/-- Every computed integer is canonical.  Missing: the calls `(ash x 0)` with `x` one of the three fixnums excluded in the rule for
`ash` (`C18_bug_ash_zero`), negative exponents, and the conversions from other number types. -/
theorem C17_computed_canonical_partial {x : Num} (h : Computed x) : x.Canonical := by
  induction h with
  | lit h => norm_num at h; exact ⟨by omega, by omega⟩
  | add _ _ hx hy => exact (scmAdd_isInt hx hy).1
  | sub _ _ hx hy => exact (scmSub_isInt hx hy).1
  | mul _ _ hx hy => exact (scmMul_isInt hx hy).1
  | neg _ hx => exact (scmNegate_isInt hx).1
  | abs _ hx => exact (scmAbs_isInt hx).1
  | quotient _ _ e hx hy => exact (quotient_canonical hx hy e).1
  | remainder _ _ e hx hy => exact (quotient_canonical hx hy e).2
  | modulo _ _ e hx hy => exact modulo_canonical hx hy e
  | gcd _ _ hf e hx hy =>
    obtain ⟨g, g1, g2⟩ := schemeGcd_spec hx hy hf
    rw [g1] at e; cases e; exact g2.1
  | lcm _ _ hf e hx hy =>
    obtain ⟨g, g1, g2⟩ := schemeLcm_spec hx hy hf
    rw [g1] at e; cases e; exact g2.1
  | ash _ e hc hx => exact ash_canonical hx (by norm_num at hc; omega) e
  | lognot _ hx => exact (scmLogNot_spec hx).1
  | logand _ _ hx hy => exact logAnd_canonical hx hy
  | logior _ _ hx hy => exact (scmLogIor_spec hx hy).1
  | logxor _ _ hx hy => exact logXor_canonical hx hy
  | expt _ _ h0 e hx hy => exact expt_canonical hx hy h0 e

/-- `eqv?` and `=` agree on computed integers. -/
theorem C17_computed_eqv_partial {x y : Num} (hx : Computed x) (hy : Computed y) : x = y ↔ x.toInt = y.toInt :=
  C17_eqv_iff (C17_computed_canonical_partial hx) (C17_computed_canonical_partial hy)

/-- A computed bignum. -/
example : Computed (scmMul (.fix (2 ^ 60)) (.fix 16)) ∧ scmMul (.fix (2 ^ 60)) (.fix 16) = two64 :=
  ⟨.mul (.lit (by norm_num)) (.lit (by norm_num)), by decide +kernel⟩

end Gauche.Integer

import Verif.Proof.Rational2
import Verif.Props.Integer
/-!
# C34, C48 - C50 : exact rationals

`Q` is an exact number object (an exact integer or a ratnum), `Q.val` the rational it denotes and `Q.IsRat r v` says that `r` is the
canonical object for `v`: an exact integer object, or a ratnum in lowest terms with denominator above 1 (`Verif.Spec.Rational`).
-/
namespace Gauche.Rational
open Gauche.Bignum Gauche.Integer

/-! ## C34 : arithmetic -/

/-- Canonical objects are determined by their value, so `IsRat` fixes the result object. -/
theorem C34_canonical_unique {x y : Q} (hx : x.Canonical) (hy : y.Canonical) : x = y ↔ x.val = y.val :=
  ⟨fun h => by rw [h], canonQ_unique hx hy⟩

/-- `(numerator x)` and `(denominator x)`. -/
theorem C34_numerator_denominator {x : Q} (hx : x.Canonical) :
    (numerator x).IsInt x.val.num ∧ (denominator x).IsInt x.val.den := ⟨(num_den hx).1, (num_den hx).2.1⟩

/-- `(+ x y)`.  Missing: sums whose numerator over the least common denominator is `-2^61` while that denominator is a multiple of
`2^61` (`C34_bug_add`). -/
theorem C34_add_partial {x y : Q} (hx : x.Canonical) (hy : y.Canonical)
    (hc : ¬ ((x.val + y.val) * (Nat.lcm x.val.den y.val.den : Int) = ((-2 ^ 61 : Int) : ℚ) ∧ 2 ^ 61 ∣ (Nat.lcm x.val.den y.val.den : Int))) :
    ∃ r, qAdd x y = .ok r ∧ r.IsRat (x.val + y.val) := qAdd_spec hx hy hc

/-- `(- x y)`, with the same exception. -/
theorem C34_sub_partial {x y : Q} (hx : x.Canonical) (hy : y.Canonical)
    (hc : ¬ ((x.val - y.val) * (Nat.lcm x.val.den y.val.den : Int) = ((-2 ^ 61 : Int) : ℚ) ∧ 2 ^ 61 ∣ (Nat.lcm x.val.den y.val.den : Int))) :
    ∃ r, qSub x y = .ok r ∧ r.IsRat (x.val - y.val) := qSub_spec hx hy hc

/-- `(* x y)`.  Missing: products of numerators equal to `-2^61` over a product of denominators that is a multiple of `2^61`. -/
theorem C34_mul_partial {x y : Q} (hx : x.Canonical) (hy : y.Canonical)
    (hc : ¬ (x.val.num * y.val.num = -2 ^ 61 ∧ 2 ^ 61 ∣ (x.val.den * y.val.den : Int))) :
    ∃ r, qMul x y = .ok r ∧ r.IsRat (x.val * y.val) := qMul_spec hx hy hc

/-- `(/ x y)` for a nonzero divisor.  Missing: the same coincidence, for the cross products (`C34_bug_div`). -/
theorem C34_div_partial {x y : Q} (hx : x.Canonical) (hy : y.Canonical) (h0 : y.val ≠ 0)
    (hc : ¬ (x.val.num * y.val.den * y.val.num.sign = -2 ^ 61 ∧ 2 ^ 61 ∣ (x.val.den * y.val.num))) :
    ∃ r, qDiv x y = .ok r ∧ r.IsRat (x.val / y.val) := qDiv_spec hx hy h0 hc

/-- `(/ x 0)` is an error. -/
theorem C34_div_zero {x y : Q} (hx : x.Canonical) (hy : y.Canonical) (h0 : y.val = 0) : qDiv x y = .err := by
  have : y = .int (.fix 0) := (eq_int_fix hy (by omega)).2 (by rw [h0]; simp)
  rw [this]; exact qDiv_zero hx

/-- `(- x)`, `(abs x)` and `(/ x)`. -/
theorem C34_unary {x : Q} (hx : x.Canonical) :
    (∃ r, qNegate x = .ok r ∧ r.IsRat (-x.val)) ∧ (∃ r, qAbs x = .ok r ∧ r.IsRat |x.val|) ∧
    (x.val ≠ 0 → ∃ r, reciprocal x = .ok r ∧ r.IsRat (x.val)⁻¹) := ⟨qNegate_spec hx, qAbs_spec hx, reciprocal_spec hx⟩

/-- `(/ (- (expt 2 61)) (expt 2 61))` is 0 and `(/ (- (expt 2 61)) (expt 2 62))` a ratnum `0/2`. -/
theorem C34_bug_div :
    qDiv (.int (.fix (-2 ^ 61))) (.int (.big ⟨1, [2 ^ 61]⟩)) = .ok (.int (.fix 0)) ∧
    qDiv (.int (.fix (-2 ^ 61))) (.int (.big ⟨1, [2 ^ 62]⟩)) = .ok (.rat (.fix 0) (.fix 2)) := by decide +kernel

/-- `(+ (/ (- 1 (expt 2 61)) (expt 2 62)) (/ -1 (expt 2 62)))` is the ratnum `0/2`; the sum is `-1/2`. -/
theorem C34_bug_add :
    qAdd (.rat (.fix (1 - 2 ^ 61)) (.big ⟨1, [2 ^ 62]⟩)) (.rat (.fix (-1)) (.big ⟨1, [2 ^ 62]⟩)) = .ok (.rat (.fix 0) (.fix 2)) := by
  decide +kernel

/-- `1/6` and `-3/4`. -/
def oneSixth : Q := .rat (.fix 1) (.fix 6)
def minus34 : Q := .rat (.fix (-3)) (.fix 4)
theorem oneSixth_canonical : oneSixth.Canonical := ⟨by unfold Num.Canonical; omega, by unfold Num.Canonical; omega, by decide, by decide⟩
theorem minus34_canonical : minus34.Canonical := ⟨by unfold Num.Canonical; omega, by unfold Num.Canonical; omega, by decide, by decide⟩

/-- `2^64/3`: a ratnum with a bignum numerator. -/
def bigThird : Q := .rat two64 (.fix 3)
theorem bigThird_canonical : bigThird.Canonical := ⟨two64_canonical, by unfold Num.Canonical; omega, by decide +kernel, by decide +kernel⟩

example : qAdd oneSixth minus34 = .ok (.rat (.fix (-7)) (.fix 12)) ∧ qMul oneSixth minus34 = .ok (.rat (.fix (-1)) (.fix 8)) ∧
    qDiv oneSixth minus34 = .ok (.rat (.fix (-2)) (.fix 9)) ∧ qSub oneSixth oneSixth = .ok (.int (.fix 0)) := by decide +kernel
/-- The hypotheses of the theorems hold for these. -/
example : ∃ r, qAdd oneSixth minus34 = .ok r ∧ r.IsRat (oneSixth.val + minus34.val) := by
  refine C34_add_partial oneSixth_canonical minus34_canonical ?_
  rintro ⟨-, h⟩
  have e1 := (C34_numerator_denominator oneSixth_canonical).2.2
  have e2 := (C34_numerator_denominator minus34_canonical).2.2
  have e1 : (6 : Int) = (oneSixth.val.den : Int) := e1
  have e2 : (4 : Int) = (minus34.val.den : Int) := e2
  rw [show oneSixth.val.den = 6 by omega, show minus34.val.den = 4 by omega] at h
  revert h; decide
example : ∃ r, qMul bigThird minus34 = .ok r ∧ r.IsRat (bigThird.val * minus34.val) := by
  refine C34_mul_partial bigThird_canonical minus34_canonical ?_
  rintro ⟨-, h⟩
  have e1 := (C34_numerator_denominator bigThird_canonical).2.2
  have e2 := (C34_numerator_denominator minus34_canonical).2.2
  have e1 : (3 : Int) = (bigThird.val.den : Int) := e1
  have e2 : (4 : Int) = (minus34.val.den : Int) := e2
  rw [← e1, ← e2] at h
  revert h; decide

/-! ## C48 : comparison -/

/-- `=`, `<` and `>` (through `Scm_NumCmp`) of two ratnums, two integers, or a ratnum and a bignum decide equality and order. -/
theorem C48_compare {x y : Q} (hx : x.Canonical) (hy : y.Canonical) (screen : Int → Num → Num → Int)
    (h : ¬ ∃ a n d, (x = .int (.fix a) ∧ y = .rat n d) ∨ (y = .int (.fix a) ∧ x = .rat n d)) :
    (qCmp screen x y = 0 ↔ x.val = y.val) ∧ (qCmp screen x y < 0 ↔ x.val < y.val) ∧ (0 < qCmp screen x y ↔ y.val < x.val) := by
  have := qCmp_spec (screen := screen) hx hy (fun a n d e1 e2 => absurd ⟨a, n, d, Or.inl ⟨e1, e2⟩⟩ h)
    (fun a n d e1 e2 => absurd ⟨a, n, d, Or.inr ⟨e1, e2⟩⟩ h)
  rcases this with ⟨h1, h2⟩ | ⟨h1, h2⟩ | ⟨h1, h2⟩
  · rw [h1]; exact ⟨⟨by simp, fun h => absurd h h2.ne⟩, ⟨fun _ => h2, by simp⟩, ⟨by simp, fun h => absurd h (not_lt.2 h2.le)⟩⟩
  · rw [h1, h2]; simp
  · rw [h1]; exact ⟨⟨by simp, fun h => absurd h h2.ne'⟩, ⟨by simp, fun h => absurd h (not_lt.2 h2.le)⟩, ⟨fun _ => h2, by simp⟩⟩

/-- A fixnum against a ratnum.  `dbl` is the conversion of rationals to double (the values of the doubles), assumed monotone.  Missing:
negative ratnums whose double equals the double of the fixnum (`C48_bug_compare_negative`); for the other negative ratnums the gap
between the two doubles is assumed to exceed the margin, which holds for doubles (their relative distance is at least `2^-53`). -/
theorem C48_compare_fix_rat_partial {a : Int} {n d : Num} (ha : (Num.fix a).Canonical) (h : (Q.rat n d).Canonical) (dbl : ℚ → ℚ) (hm : Monotone dbl)
    (h0 : 0 ≤ dbl (Q.rat n d).val ∨ |dbl (Q.rat n d).val| * (2 / 10 ^ 52) < |dbl a - dbl (Q.rat n d).val|) :
    let c := qCmp (fun a n d => fixRatScreen (dbl a) (dbl ((n.toInt : ℚ) / d.toInt))) (.int (.fix a)) (.rat n d)
    (c < 0 ↔ (a : ℚ) < (Q.rat n d).val) ∧ (0 < c ↔ (Q.rat n d).val < a) ∧ c ≠ 0 := by
  intro c
  have hs := qCmp_spec (screen := fun a n d => fixRatScreen (dbl a) (dbl ((n.toInt : ℚ) / d.toInt))) (x := .int (.fix a)) (y := .rat n d) ha h
    (by
      rintro a n d ⟨rfl⟩ ⟨rfl⟩ hne
      by_cases hy : 0 ≤ dbl (Q.rat n d).val
      · exact screen_pos h hy (fun t => hm t.le) (fun t => hm t.le) hne
      · exact screen_neg h (not_le.1 hy) (fun t => hm t.le) (fun t => hm t.le) (h0.resolve_left hy))
    (by rintro a n d ⟨⟩)
  have hne := rat_ne_int h a
  have ev : (Q.int (.fix a)).val = (a : ℚ) := rfl
  rw [ev] at hs
  rcases hs with ⟨h1, h2⟩ | ⟨h1, h2⟩ | ⟨h1, h2⟩
  · have h1 : c = -1 := h1
    rw [h1]; exact ⟨⟨fun _ => h2, by simp⟩, ⟨by simp, fun h => absurd h (not_lt.2 h2.le)⟩, by simp⟩
  · exact absurd h2 hne
  · have h1 : c = 1 := h1
    rw [h1]; exact ⟨⟨by simp, fun h => absurd h (not_lt.2 h2.le)⟩, ⟨fun _ => h2, by simp⟩, by simp⟩

/-- When the ratnum is negative and its double equals the double of the fixnum, the fixnum is said to be smaller, whatever the values. -/
theorem C48_bug_compare_negative (dbl : ℚ → ℚ) (a : Int) (n d : Num) (hneg : dbl ((n.toInt : ℚ) / d.toInt) < 0)
    (he : dbl a = dbl ((n.toInt : ℚ) / d.toInt)) :
    qCmp (fun a n d => fixRatScreen (dbl a) (dbl ((n.toInt : ℚ) / d.toInt))) (.int (.fix a)) (.rat n d) = -1 := by
  have : fixRatScreen (dbl a) (dbl ((n.toInt : ℚ) / d.toInt)) = -1 := by
    unfold fixRatScreen
    rw [he]
    dsimp only
    rw [if_pos]
    rw [sub_self, ← neg_mul]
    apply mul_pos (by linarith)
    positivity
  unfold qCmp
  simp [this]

example : qCmp (fun _ _ _ => 0) oneSixth minus34 = 1 ∧ qCmp (fun _ _ _ => 0) minus34 (.rat (.fix (-2)) (.fix 3)) = -1 := by decide +kernel
example : minus34.val < oneSixth.val := by
  refine (C48_compare oneSixth_canonical minus34_canonical (fun _ _ _ => 0) ?_).2.2.1 (by decide +kernel)
  rintro ⟨a, n, d, ⟨h, -⟩ | ⟨h, -⟩⟩ <;> cases h
/-- With the identity as conversion: 1 against 1/6. -/
example : 0 < qCmp (fun a n d => fixRatScreen ((a : ℚ)) ((n.toInt : ℚ) / d.toInt)) (.int (.fix 1)) oneSixth := by
  have hv : oneSixth.val = 1 / 6 := by
    show (((1 : Int)) : ℚ) / ((6 : Int) : ℚ) = 1 / 6
    norm_num
  refine (C48_compare_fix_rat_partial (by unfold Num.Canonical; omega) oneSixth_canonical id monotone_id (Or.inl ?_)).2.1.2 ?_
  · show 0 ≤ oneSixth.val
    rw [hv]; norm_num
  · show oneSixth.val < _
    rw [hv]; norm_num

/-! ## C49 : powers -/

/-- `(expt x y)` for an exact rational `x` and an exact integer `y` of any sign.  Missing: exponents outside the fixnum range (an error
except for bases 1 and -1), and base 2 with exponent from `2^28` on (an error). -/
theorem C49_expt_partial {x : Q} {y : Num} (hx : x.Canonical) (hy : y.Canonical) (h0 : y.toInt < 0 → x.val ≠ 0)
    (hc : (-2 ^ 61 ≤ y.toInt ∧ y.toInt < 2 ^ 61) ∨ x.val = 1 ∨ x.val = -1) (h2 : x.val = 2 → y.toInt < 2 ^ 28) :
    ∃ r, exactExptQ x y = .ok r ∧ r.IsRat (x.val ^ y.toInt) := by
  norm_num at hc
  refine exactExptQ_spec hx hy h0 ?_ ?_
  · rcases hc with h | h
    · left; omega
    · exact Or.inr h
  · intro h; have := h2 h; norm_num at this; exact this

/-- `(expt 0 y)` with `y < 0` in the fixnum range is an error. -/
theorem C49_expt_zero_negative {y : Int} (h : y < 0) : exactExptQ (.int (.fix 0)) (.fix y) = .err := by
  have e : scmSign (.fix y) = -1 := by unfold scmSign; dsimp only; rw [if_neg (by omega), if_neg (by omega)]
  unfold exactExptQ
  dsimp only
  rw [e, if_neg (by omega), if_neg (by simp), if_neg (by simp), if_neg (by simp), if_neg (by simp)]
  obtain ⟨z, z1, z2⟩ := exptLoopQ_spec 0 y.natAbs (.int (makeInt 1)) (.int (.fix 0)) 0 1 (by
    rw [pow_zero]; exact_mod_cast isRat_int one_isInt) ⟨fix0_canonical, by show ((0 : Int) : ℚ) = 0 ^ 1; simp⟩
  rw [z1]
  rw [Nat.zero_add, Nat.one_mul, zero_pow (by omega)] at z2
  have : z = .int (.fix 0) := (eq_int_fix z2.1 (by omega)).2 (by rw [z2.2]; simp)
  rw [this]
  rfl

example : exactExptQ minus34 (.fix (-3)) = .ok (.rat (.fix (-64)) (.fix 27)) := by decide +kernel
example : ∃ r, exactExptQ minus34 (.fix (-3)) = .ok r ∧ r.IsRat (minus34.val ^ (-3 : Int)) := by
  have hv : minus34.val = -3 / 4 := by
    show (((-3 : Int)) : ℚ) / ((4 : Int) : ℚ) = -3 / 4
    norm_num
  exact C49_expt_partial minus34_canonical (y := .fix (-3)) (by unfold Num.Canonical; omega) (by rw [hv]; norm_num) (Or.inl (by decide))
    (by rw [hv]; norm_num)

/-! ## C50 : rounding -/

/-- `floor`, `ceiling`, `truncate` and `round` of any exact number; `round` goes to the nearest integer and, halfway, to the even one. -/
theorem C50_round {x : Q} (hx : x.Canonical) :
    (∃ r, qRound .floor x = .ok r ∧ r.IsInt ⌊x.val⌋) ∧ (∃ r, qRound .ceil x = .ok r ∧ r.IsInt ⌈x.val⌉) ∧
    (∃ r, qRound .trunc x = .ok r ∧ r.IsInt (if 0 ≤ x.val then ⌊x.val⌋ else ⌈x.val⌉)) ∧
    (∃ r, qRound .round x = .ok r ∧ r.Canonical ∧ |x.val - r.toInt| ≤ 1 / 2 ∧ (|x.val - r.toInt| = 1 / 2 → r.toInt % 2 = 0)) := by
  refine ⟨?_, ?_, ?_, qRound_spec hx .round⟩
  · exact qRound_spec hx .floor
  · exact qRound_spec hx .ceil
  · exact qRound_spec hx .trunc

example : qRound .floor minus34 = .ok (.fix (-1)) ∧ qRound .ceil minus34 = .ok (.fix 0) ∧ qRound .trunc minus34 = .ok (.fix 0) ∧
    qRound .round minus34 = .ok (.fix (-1)) ∧ qRound .round (.rat (.fix 5) (.fix 2)) = .ok (.fix 2) ∧
    qRound .round (.rat (.fix (-7)) (.fix 2)) = .ok (.fix (-4)) := by decide +kernel
example : ∃ r, qRound .floor bigThird = .ok r ∧ r.IsInt ⌊bigThird.val⌋ := (C50_round bigThird_canonical).1

end Gauche.Rational

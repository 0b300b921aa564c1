import Verif.Proof.FloPrintText
/-
What `print_double` prints, the decimal reader reads back as the same double.
-/
namespace Gauche.FloText
open Gauche.Spec Gauche.Flonum Gauche.Radix Gauche.FloText.Spec

theorem zpow10_lt {a b : Int} (h : (10 : ℚ) ^ a < 10 ^ b) : a < b := (zpow_lt_zpow_iff_right₀ (by norm_num)).1 h

theorem neg_zpow (b : ℚ) (n : Nat) : b ^ (-(n : Int)) = 1 / b ^ n := by rw [zpow_neg, zpow_natCast]; simp

theorem no_trap {f : Nat} {rf : Int} (h : -344 ≤ rf) : ¬ Trap (target f rf) := by
  unfold Trap target dval
  intro ht
  have e1 : (2 : ℚ) ^ (-1074 : Int) = 2 / 2 ^ 1075 := by
    rw [show (-1074 : Int) = -((1074 : Nat) : Int) from rfl, neg_zpow, div_eq_div_iff (by positivity) (by positivity), one_mul, ← pow_succ']
  rw [e1] at ht
  have e2 : (f : ℚ) * 10 ^ rf * 2 ^ 1075 = 2 ^ 53 - 1 := by
    rw [ht]
    push_cast
    field_simp
    ring
  have e3 : (f : ℚ) * 10 ^ (rf + 344) * 2 ^ 1075 = (2 ^ 53 - 1) * 10 ^ 344 := by
    rw [zpow_add₀ (by norm_num), show (344 : Int) = ((344 : Nat) : Int) from rfl, zpow_natCast, ← e2]
    ring
  obtain ⟨j, hj⟩ : ∃ j : Nat, rf + 344 = j := ⟨(rf + 344).toNat, by omega⟩
  rw [hj, zpow_natCast] at e3
  have e4 : f * 10 ^ j * 2 ^ 1075 = (2 ^ 53 - 1) * 10 ^ 344 := by
    have : ((f * 10 ^ j * 2 ^ 1075 : Nat) : ℚ) = (((2 ^ 53 - 1) * 10 ^ 344 : Nat) : ℚ) := by
      push_cast
      rw [e3]
      norm_num
    exact_mod_cast this
  have h1 : (2 ^ 53 - 1) * 10 ^ 344 % 2 ^ 1075 ≠ 0 := by decide +kernel
  rw [← e4] at h1
  exact h1 (Nat.mul_mod_left _ _)

set_option exponentiation.threshold 3000

theorem dval_min {m : Nat} {k : Int} (hc : FinDbl m k) (hm : 0 < m) : (2 : ℚ) ^ (-1074 : Int) ≤ dval m k := by
  unfold dval
  have h1 : (1 : ℚ) ≤ m := by exact_mod_cast hm
  have h2 : (2 : ℚ) ^ (-1074 : Int) ≤ 2 ^ k := zpow_le_zpow_right₀ (by norm_num) hc.2.1
  have := two_pos (-1074)
  nlinarith

theorem dval_max {m : Nat} {k : Int} (hc : FinDbl m k) : dval m k ≤ (2 ^ 53 - 1) * 2 ^ (971 : Int) := by
  unfold dval
  have h1 : (m : ℚ) ≤ 2 ^ 53 - 1 := by
    have : m + 1 ≤ 2 ^ 53 := hc.1
    have : ((m + 1 : Nat) : ℚ) ≤ ((2 ^ 53 : Nat) : ℚ) := by exact_mod_cast this
    push_cast at this
    linarith
  have h2 : (2 : ℚ) ^ k ≤ 2 ^ (971 : Int) := zpow_le_zpow_right₀ (by norm_num) hc.2.2.1
  have := two_pos k
  exact mul_le_mul h1 h2 this.le (by norm_num)

theorem est_bounds {m : Nat} {k est : Int} (hc : FinDbl m k) (hm : 0 < m) (he : GoodEst est m k) : -323 ≤ est ∧ est ≤ 309 := by
  obtain ⟨h1, h2⟩ := he
  constructor
  · have h3 : (2 : ℚ) * 10 ^ (-324 : Int) < 2 ^ (-1074 : Int) := by
      rw [show (-324 : Int) = -((324 : Nat) : Int) from rfl, show (-1074 : Int) = -((1074 : Nat) : Int) from rfl, neg_zpow, neg_zpow]
      rw [mul_one_div, div_lt_div_iff₀ (by positivity) (by positivity)]
      norm_num
    have h4 := dval_min hc hm
    have := zpow10_lt (a := -324) (b := est) (by linarith)
    omega
  · have h3 : ((2 : ℚ) ^ 53 - 1) * 2 ^ (971 : Int) < 10 ^ (309 : Int) := by
      rw [show (971 : Int) = ((971 : Nat) : Int) from rfl, show (309 : Int) = ((309 : Nat) : Int) from rfl, zpow_natCast, zpow_natCast]
      norm_num
    have h4 := dval_max hc
    have := zpow10_lt (a := est - 1) (b := 309) (by linarith)
    omega

theorem est_start (est : Int) (m : Nat) (k : Int) : (startDigits est m k).2.2.2.2 = est ∨ (startDigits est m k).2.2.2.2 = est + 1 := by
  unfold startDigits
  simp only []
  split
  · exact Or.inr rfl
  · exact Or.inl rfl

/-- The digits. -/
def digitsOf (est : Int) (m : Nat) (k : Int) : List Nat :=
  let p := startDigits est m k
  genDigits p.2.1 p.2.2.2.1 (decide (m % 2 = 0)) 17 p.1 p.2.2.1

/-- The number printed. -/
def printed (est : Int) (m : Nat) (k : Int) : ℚ := (ofBE 10 (digitsOf est m k) : ℚ) * 10 ^ ((startDigits est m k).2.2.2.2 - (digitsOf est m k).length)

theorem printed_RU {m : Nat} {k est : Int} (hc : FinDbl m k) (hm : 0 < m) (he : GoodEst est m k) (hx : ¬ (m = 2 ^ 52 ∧ k = -1023)) :
    RU (printed est m k) m k := by
  obtain ⟨ds, h1, _, _, _, _, h2⟩ := digits_spec hc hm he 0 (le_refl 17)
  have := h2 hx
  rw [h1] at this
  exact this

/-! ### three special numbers -/

theorem least_digits : digitsOf (-323) 1 (-1074) = [5] ∧ (startDigits (-323) 1 (-1074)).2.2.2.2 = -323 := by decide +kernel
theorem greatest_digits : ∀ est : Nat, est < 310 → 308 ≤ est →
    ofBE 10 (digitsOf est (2 ^ 53 - 1) 971) = 17976931348623157 ∧ (digitsOf est (2 ^ 53 - 1) 971).length = 17 ∧
    (startDigits est (2 ^ 53 - 1) 971).2.2.2.2 = 309 := by decide +kernel
theorem odd_digits : ofBE 10 (digitsOf (-292) (2 ^ 52) (-1023)) = 5010420900022432 ∧ (digitsOf (-292) (2 ^ 52) (-1023)).length = 16 ∧
    (startDigits (-292) (2 ^ 52) (-1023)).2.2.2.2 = -292 := by decide +kernel
theorem odd_rnd : rnd 5010420900022432 (10 ^ 308) = .fin (2 ^ 52) (-1023) := by decide +kernel

theorem odd_est {est : Int} (he : GoodEst est (2 ^ 52) (-1023)) : est = -292 := by
  obtain ⟨h1, h2⟩ := he
  have hv : dval (2 ^ 52) (-1023) = 1 / 2 ^ 971 := by
    unfold dval
    rw [show (-1023 : Int) = -((1023 : Nat) : Int) from rfl, neg_zpow]
    push_cast
    rw [mul_one_div, div_eq_div_iff (by positivity) (by positivity)]
    norm_num
  rw [hv] at h1 h2
  have a1 := zpow10_lt (a := est - 1) (b := -292) (by
    refine lt_of_le_of_lt h1 ?_
    rw [show (-292 : Int) = -((292 : Nat) : Int) from rfl, neg_zpow, div_lt_div_iff₀ (by positivity) (by positivity)]
    norm_num)
  have a2 := zpow10_lt (a := -293) (b := est) (by
    have : (2 : ℚ) * 10 ^ (-293 : Int) < 1 / 2 ^ 971 := by
      rw [show (-293 : Int) = -((293 : Nat) : Int) from rfl, neg_zpow, mul_one_div, div_lt_div_iff₀ (by positivity) (by positivity)]
      norm_num
    exact lt_of_mul_lt_mul_left (lt_of_lt_of_le this h2) (by norm_num))
  omega

theorem printed_rounds {m : Nat} {k est : Int} (hc : FinDbl m k) (hm : 0 < m) (he : GoodEst est m k) : Rounds (printed est m k) (.fin m k) := by
  by_cases hx : m = 2 ^ 52 ∧ k = -1023
  · obtain ⟨rfl, rfl⟩ := hx
    rw [odd_est he]
    have := rnd_spec 5010420900022432 (10 ^ 308) (by positivity)
    rw [odd_rnd] at this
    obtain ⟨o1, o2, o3⟩ := odd_digits
    unfold printed
    rw [o1, o2, o3, show (-292 : Int) - ((16 : Nat) : Int) = -((308 : Nat) : Int) from rfl, neg_zpow, mul_one_div]
    push_cast at this ⊢
    exact this
  · exact rounds_of (printed_RU hc hm he hx) hc.2.2.1

theorem printed_min {m : Nat} {k est : Int} (hc : FinDbl m k) (hm : 0 < m) (he : GoodEst est m k) : 5 * 10 ^ (-324 : Int) ≤ printed est m k := by
  by_cases h1 : m = 1 ∧ k = -1074
  · obtain ⟨rfl, rfl⟩ := h1
    have hb := (est_bounds hc hm he).1
    have : est - 1 < -323 := zpow10_lt (by
      refine lt_of_le_of_lt he.1 ?_
      unfold dval
      rw [show (-323 : Int) = -((323 : Nat) : Int) from rfl, show (-1074 : Int) = -((1074 : Nat) : Int) from rfl, neg_zpow, neg_zpow]
      push_cast
      rw [one_mul, div_lt_div_iff₀ (by positivity) (by positivity)]
      norm_num)
    have : est = -323 := by omega
    subst this
    obtain ⟨o1, o2⟩ := least_digits
    unfold printed
    rw [o1, o2, ofBE_one]
    norm_num
  · have hL : (5 : ℚ) * 10 ^ (-324 : Int) ≤ 3 / 2 * 2 ^ (-1074 : Int) := by
      rw [show (-324 : Int) = -((324 : Nat) : Int) from rfl, show (-1074 : Int) = -((1074 : Nat) : Int) from rfl, neg_zpow, neg_zpow]
      rw [mul_one_div, mul_one_div, div_le_div_iff₀ (by positivity) (by positivity)]
      norm_num
    by_cases hx : m = 2 ^ 52 ∧ k = -1023
    · obtain ⟨rfl, rfl⟩ := hx
      rw [odd_est he]
      obtain ⟨o1, o2, o3⟩ := odd_digits
      unfold printed
      rw [o1, o2, o3, show (-292 : Int) - ((16 : Nat) : Int) = -((308 : Nat) : Int) from rfl,
        show (-324 : Int) = -((324 : Nat) : Int) from rfl, neg_zpow, neg_zpow, mul_one_div, mul_one_div, div_le_div_iff₀ (by positivity) (by positivity)]
      norm_num
    · obtain ⟨_, _, hlow⟩ := printed_RU hc hm he hx
      have hl := low_le m k
      have h2 : dval m k - 2 ^ k / 2 ≤ printed est m k := by
        rcases hlow with h | ⟨h, _⟩ <;> linarith
      refine le_trans hL (le_trans ?_ h2)
      unfold dval
      have hk : (2 : ℚ) ^ (-1074 : Int) ≤ 2 ^ k := zpow_le_zpow_right₀ (by norm_num) hc.2.1
      have hp := two_pos (-1074)
      have hm2 : 2 ≤ m := by
        rcases hc.2.2.2 with h | h
        · omega
        · rcases Nat.lt_or_ge m 2 with h' | h'
          · exact absurd ⟨by omega, h⟩ h1
          · exact h'
      have hm2' : (2 : ℚ) ≤ m := by exact_mod_cast hm2
      generalize (2 : ℚ) ^ (-1074 : Int) = A at *
      generalize (2 : ℚ) ^ k = X at *
      nlinarith

theorem printed_max {m : Nat} {k est : Int} (hc : FinDbl m k) (hm : 0 < m) (he : GoodEst est m k) : printed est m k ≤ (decMax : ℚ) := by
  have hR := printed_rounds hc hm he
  by_cases h1 : m = 2 ^ 53 - 1 ∧ k = 971
  · obtain ⟨rfl, rfl⟩ := h1
    have hb := (est_bounds hc hm he).2
    have : 307 < est := zpow10_lt (by
      have := he.2
      have h : (2 : ℚ) * 10 ^ (307 : Int) < dval (2 ^ 53 - 1) 971 := by
        unfold dval
        rw [show (971 : Int) = ((971 : Nat) : Int) from rfl, show (307 : Int) = ((307 : Nat) : Int) from rfl, zpow_natCast, zpow_natCast]
        norm_num
      linarith)
    obtain ⟨n, rfl⟩ : ∃ n : Nat, est = n := ⟨est.toNat, by omega⟩
    obtain ⟨o1, o2, o3⟩ := greatest_digits n (by omega) (by omega)
    unfold printed
    rw [o1, o2, o3, show (309 : Int) - ((17 : Nat) : Int) = ((292 : Nat) : Int) from rfl, zpow_natCast]
    refine le_of_eq ?_
    unfold decMax
    rw [Nat.cast_mul, Nat.cast_pow]
    rfl
  · have hx : printed est m k ≤ dval m k + 2 ^ k / 2 := by
      by_cases hx : m = 2 ^ 52 ∧ k = -1023
      · obtain ⟨rfl, rfl⟩ := hx
        rw [odd_est he]
        obtain ⟨o1, o2, o3⟩ := odd_digits
        unfold printed dval
        rw [o1, o2, o3, show (-292 : Int) - ((16 : Nat) : Int) = -((308 : Nat) : Int) from rfl,
          show (-1023 : Int) = -((1023 : Nat) : Int) from rfl, neg_zpow, neg_zpow]
        push_cast
        have : (5010420900022432 : ℚ) / 10 ^ 308 ≤ (2 ^ 52 + 1 / 2) / 2 ^ 1023 := by
          rw [div_le_div_iff₀ (by positivity) (by positivity)]
          norm_num
        calc (5010420900022432 : ℚ) * (1 / 10 ^ 308) = 5010420900022432 / 10 ^ 308 := by ring
          _ ≤ _ := this
          _ = _ := by ring
      · obtain ⟨_, hup, _⟩ := printed_RU hc hm he hx
        rcases hup with h | ⟨h, _⟩ <;> linarith
    refine le_trans hx ?_
    have hM : ((2 : ℚ) ^ 54 - 3) / 2 * 2 ^ (971 : Int) ≤ decMax := by
      have : (2 ^ 54 - 3) * 2 ^ 970 ≤ decMax := by decide +kernel
      have h : (((2 ^ 54 - 3) * 2 ^ 970 : Nat) : ℚ) ≤ (decMax : ℚ) := by exact_mod_cast this
      refine le_trans (le_of_eq ?_) h
      rw [two_971]
      push_cast
      ring
    refine le_trans ?_ hM
    unfold dval
    have hp := two_pos k
    have hk : (2 : ℚ) ^ k ≤ 2 ^ (971 : Int) := zpow_le_zpow_right₀ (by norm_num) hc.2.2.1
    have hmm : m < 2 ^ 53 := hc.1
    by_cases hk1 : k = 971
    · subst hk1
      have : m + 2 ≤ 2 ^ 53 := by omega
      have : ((m + 2 : Nat) : ℚ) ≤ ((2 ^ 53 : Nat) : ℚ) := by exact_mod_cast this
      push_cast at this
      nlinarith
    · have hk2 := two_lt (k := k) (k' := 971) (by have := hc.2.2.1; omega)
      have : ((m : Nat) : ℚ) ≤ ((2 ^ 53 : Nat) : ℚ) := by exact_mod_cast hmm.le
      push_cast at this
      nlinarith

/-- The round trip: there is a text that is printed, and it is read back as the double. -/
theorem round_trip {lo hi est : Int} (hlo : -20 ≤ lo) (hhi : hi ≤ 17) {m : Nat} {k : Int} (hc : FinDbl m k) (hm : 0 < m) (he : GoodEst est m k) :
    ∃ txt f d, ∃ e : Int, (∀ fuel, 17 ≤ fuel → printBody fuel lo hi est m k = some txt) ∧ (∀ strict, UDecimalText strict txt f d e) ∧
      Rounds (target f (e - d)) (.fin m k) ∧
      ∃ N, ∀ fuel, N ≤ fuel → ∀ neg, result fuel neg f d e = .flo (.num neg (.fin m k)) [] := by
  obtain ⟨b1, b2⟩ := est_bounds hc hm he
  have hest := est_start est m k
  obtain ⟨txt, f, d, e, h1, h2, h3, h4, h5, h6, h7⟩ := printBody_text (lo := lo) (hi := hi) hc hm he hlo hhi (by omega)
  have hv : target f (e - d) = printed est m k := h3
  have hmin := printed_min hc hm he
  have hmax := printed_max hc hm he
  have hR := printed_rounds hc hm he
  rw [← hv] at hmin hmax hR
  have hrng : -344 ≤ e - (d : Int) ∧ e - (d : Int) ≤ 308 ∧ e.natAbs < 325 := by
    rcases h7 with ⟨g1, _, _⟩ | ⟨g1, g2⟩ <;> omega
  have hf0 : 0 < f := by
    rcases Nat.eq_zero_or_pos f with h | h
    · subst h
      unfold target at hmin
      have : (0 : ℚ) < 5 * 10 ^ (-324 : Int) := by positivity
      simp only [Nat.cast_zero, zero_mul] at hmin
      linarith
    · exact h
  obtain ⟨sm, sk, hs, hsm, hsc⟩ := start_finite hf0 h4.le hrng.1 hrng.2.1 hmin hmax
  obtain ⟨N, x, hx, hN⟩ := toFlonum_spec (no_trap hrng.1) hs hsc hsm
  have hxe : x = .fin m k := rounds_unique (by unfold target; positivity) hx hR
  refine ⟨txt, f, d, e, h1, h2, hR, N, fun fuel hf neg => ?_⟩
  unfold result
  rw [if_neg (by omega), hN fuel hf, hxe]

end Gauche.FloText

import Verif.Proof.FlonumRat
/-
The decimal reader rounds every number that is not subnormal and not at the very end of the range, whatever the number of digits.
-/
namespace Gauche.Flonum
open Gauche.Spec

theorem rounds_RU {y : ℚ} (hy : 0 ≤ y) {m : Nat} {k : Int} (h : Rounds y (.fin m k)) : RU y m k := by
  obtain ⟨M, K, hT⟩ := RU_exists y hy
  have := rounds_fin_RU hy h hT
  injection this with a b
  rw [a, b]; exact hT

theorem pow_le_dval {m : Nat} (k : Int) (hm : 0 < m) : (2 : ℚ) ^ k ≤ dval m k := by
  unfold dval
  have h1 : (1 : ℚ) ≤ m := by exact_mod_cast hm
  have := two_pos k
  nlinarith

theorem rounds_lower {y : ℚ} (hy : 2 ^ (-1074 : Int) ≤ y) {m : Nat} {k : Int} (h : Rounds y (.fin m k)) : 0 < m ∧ y ≤ 2 * dval m k := by
  have h0 := two_pos (-1074)
  have hR := rounds_RU (by linarith) h
  have hu : y ≤ dval m k + 2 ^ k / 2 := by
    rcases hR.2.1 with g | ⟨g, _⟩ <;> linarith
  have hm : 0 < m := by
    rcases Nat.eq_zero_or_pos m with g | g
    · exfalso
      subst g
      have hk : k = -1074 := by
        rcases hR.1.2.2 with g | g
        · exact absurd g (by norm_num)
        · exact g
      subst hk
      unfold dval at hu
      simp only [Nat.cast_zero, zero_mul, zero_add] at hu
      linarith
    · exact g
  refine ⟨hm, ?_⟩
  have := pow_le_dval k hm
  linarith

theorem rounds_upper {y : ℚ} (hy : 1 ≤ y) {m : Nat} {k : Int} (h : Rounds y (.fin m k)) : dval m k ≤ y * (1 + 1 / 10 ^ 9) ∧ y ≤ dval m k * (1 + 1 / 10 ^ 9) := by
  have hR := rounds_RU (by linarith) h
  have hu : y ≤ dval m k + 2 ^ k / 2 := by
    rcases hR.2.1 with g | ⟨g, _⟩ <;> linarith
  have hl : dval m k - low m k / 2 ≤ y := by
    rcases hR.2.2 with g | ⟨g, _⟩ <;> linarith
  have hp := two_pos k
  have hm : 2 ^ 52 ≤ m := by
    rcases hR.1.2.2 with g | g
    · exact g
    · refine Classical.byContradiction fun hc => ?_
      subst g
      unfold dval at hu
      have h2 : (m : ℚ) ≤ 2 ^ 52 := by exact_mod_cast (by omega : m ≤ 2 ^ 52)
      have h3 : (2 : ℚ) ^ (-1074 : Int) * 2 ^ 53 < 1 := by
        rw [← zpow_natCast, ← zpow_add₀ (by norm_num)]
        exact zpow_lt_one_of_neg₀ (by norm_num) (by norm_num)
      nlinarith
  have hmq : (2 : ℚ) ^ 52 ≤ m := by exact_mod_cast hm
  have hd : 2 ^ 52 * (2 : ℚ) ^ k ≤ dval m k := by unfold dval; nlinarith
  have hlow := low_le m k
  constructor <;> linarith

theorem fmul_pos {p m : Nat} {k : Int} (hp : 0 < p) (hc : FinDbl m k) (hm : 0 < m) {m' : Nat} {k' : Int} (h : fmul p (.fin m k) = .fin m' k') :
    FinDbl m' k' ∧ 0 < m' := by
  have hs := fmul_spec p m k
  rw [h] at hs
  refine ⟨hs.1, (rounds_lower ?_ hs).1⟩
  have h1 := pow_le_dval k hm
  have h2 : (2 : ℚ) ^ (-1074 : Int) ≤ 2 ^ k := zpow_le_zpow_right₀ (by norm_num) hc.2.1
  have h3 : (1 : ℚ) ≤ p := by exact_mod_cast hp
  have := two_pos k
  have h4 : 0 < dval m k := lt_of_lt_of_le this h1
  nlinarith

theorem raiseMul_pos : ∀ (fuel n : Nat) {m : Nat} {k : Int}, FinDbl m k → 0 < m → ∀ {m' : Nat} {k' : Int},
    raiseMul fuel (.fin m k) n = .fin m' k' → FinDbl m' k' ∧ 0 < m'
  | 0, n, m, k, hc, hm, m', k', h => fmul_pos (Nat.pow_pos (by norm_num)) hc hm h
  | fuel + 1, n, m, k, hc, hm, m', k', h => by
    unfold raiseMul at h
    by_cases hn : n > 22
    · rw [if_pos hn] at h
      cases hx : fmul (10 ^ 22) (.fin m k) with
      | inf =>
        rw [hx] at h
        have : ∀ f n, raiseMul f .inf n = .inf := by
          intro f
          induction f with
          | zero => intro n; rfl
          | succ f ih =>
            intro n; unfold raiseMul
            by_cases g : n > 22
            · rw [if_pos g]; exact ih _
            · rw [if_neg g]; rfl
        rw [this] at h; cases h
      | fin m1 k1 =>
        rw [hx] at h
        obtain ⟨c1, p1⟩ := fmul_pos (Nat.pow_pos (by norm_num)) hc hm hx
        exact raiseMul_pos fuel _ c1 p1 h
    · rw [if_neg hn] at h
      exact fmul_pos (Nat.pow_pos (by norm_num)) hc hm h

/-- The infinity is the result only near the end of the range. -/
theorem fmul_fin {T : ℚ} (hT : T = (2 ^ 54 - 1) * 2 ^ 970) {p m : Nat} {k : Int} (h : dval m k * p < T) : ∃ m' k', fmul p (.fin m k) = .fin m' k' := by
  have hs := fmul_spec p m k
  cases hx : fmul p (.fin m k) with
  | fin m' k' => exact ⟨m', k', rfl⟩
  | inf => rw [hx] at hs; rw [hT] at h; exact absurd hs (not_le.2 h)

theorem raiseMul_fin {T : ℚ} (hT : T = (2 ^ 54 - 1) * 2 ^ 970) : ∀ (fuel n : Nat), n ≤ fuel → ∀ {m : Nat} {k : Int}, 1 ≤ dval m k → FinDbl m k →
    dval m k * 10 ^ n * (1 + 1 / 10 ^ 9) ^ (n / 22) < T → ∃ m' k', raiseMul fuel (.fin m k) n = .fin m' k'
  | 0, n, hf, m, k, h1, hc, hb => by
    have : n = 0 := by omega
    subst this
    exact fmul_fin hT (by simpa using hb)
  | fuel + 1, n, hf, m, k, h1, hc, hb => by
    have hg : (1 : ℚ) ≤ (1 + 1 / 10 ^ 9) ^ (n / 22) := one_le_pow₀ (by norm_num)
    have hd : 0 < dval m k * 10 ^ n := by
      have : (0 : ℚ) < 10 ^ n := by positivity
      nlinarith
    unfold raiseMul
    by_cases hn : n > 22
    · rw [if_pos hn]
      have hsplit : n = (n - 22) + 22 := by omega
      have hp : (10 : ℚ) ^ n = 10 ^ 22 * 10 ^ (n - 22) := by rw [← pow_add]; congr 1; omega
      have hq : (1 + 1 / 10 ^ 9 : ℚ) ^ (n / 22) = (1 + 1 / 10 ^ 9) * (1 + 1 / 10 ^ 9) ^ ((n - 22) / 22) := by
        rw [← pow_succ']; congr 1; omega
      have hg2 : (1 : ℚ) ≤ (1 + 1 / 10 ^ 9) ^ ((n - 22) / 22) := one_le_pow₀ (by norm_num)
      have ht : (1 : ℚ) ≤ 10 ^ (n - 22) := one_le_pow₀ (by norm_num)
      obtain ⟨m1, k1, hx⟩ := fmul_fin hT (p := 10 ^ 22) (m := m) (k := k) (by
        refine lt_of_le_of_lt ?_ hb
        rw [hp]
        push_cast
        generalize (10 : ℚ) ^ (n - 22) = A at *
        generalize (1 + 1 / 10 ^ 9 : ℚ) ^ (n / 22) = B at *
        have : 1 ≤ A * B := by nlinarith
        calc dval m k * 10 ^ 22 = dval m k * 10 ^ 22 * 1 := by ring
          _ ≤ dval m k * 10 ^ 22 * (A * B) := mul_le_mul_of_nonneg_left this (by linarith)
          _ = _ := by ring)
      rw [hx]
      have hs := fmul_spec (10 ^ 22) m k
      rw [hx] at hs
      rw [show ((10 ^ 22 : Nat) : ℚ) = 10 ^ 22 by norm_num] at hs
      obtain ⟨u1, u2⟩ := rounds_upper (by linarith) hs
      refine raiseMul_fin hT fuel (n - 22) (by omega) ?_ hs.1 ?_
      · nlinarith
      · refine lt_of_le_of_lt ?_ hb
        rw [hp, hq]
        generalize (10 : ℚ) ^ (n - 22) = A at *
        generalize (1 + 1 / 10 ^ 9 : ℚ) ^ ((n - 22) / 22) = B at *
        have hAB : 0 ≤ A * B := by nlinarith
        have h5 := mul_le_mul_of_nonneg_right u1 hAB
        clear hb hg hg2 ht hd hs u1 u2 hx hp hq hsplit
        generalize (1 + 1 / 10 ^ 9 : ℚ) = C at *
        generalize (10 : ℚ) ^ 22 = D at *
        linarith
    · rw [if_neg hn]
      refine fmul_fin hT ?_
      push_cast
      refine lt_of_le_of_lt ?_ hb
      nlinarith

theorem fdiv_ok {p m : Nat} {k : Int} (hp : 0 < p) (hc : FinDbl m k) (h : 2 ^ (-1074 : Int) ≤ dval m k / p) :
    ∃ m' k', fdiv p (.fin m k) = .fin m' k' ∧ FinDbl m' k' ∧ 0 < m' ∧ dval m k / p ≤ 2 * dval m' k' := by
  have hs := fdiv_spec hp m k
  have hle : dval m k / p ≤ dval m k := by
    have h3 : (1 : ℚ) ≤ p := by exact_mod_cast hp
    exact div_le_self (dval_nonneg _ _) h3
  have hmono := rounds_mono (by have := two_pos (-1074); linarith) hle hs (rounds_self hc)
  cases hx : fdiv p (.fin m k) with
  | inf => rw [hx] at hmono; exact hmono.elim
  | fin m' k' =>
    rw [hx] at hs
    obtain ⟨a, b⟩ := rounds_lower h hs
    exact ⟨m', k', rfl, hs.1, a, b⟩

theorem raiseDiv_ok : ∀ (fuel n : Nat), n ≤ fuel → ∀ {m : Nat} {k : Int}, FinDbl m k →
    2 ^ (-1074 : Int) * 2 ^ (n / 22) ≤ dval m k / 10 ^ n → ∃ m' k', raiseDiv fuel (.fin m k) n = .fin m' k' ∧ FinDbl m' k' ∧ 0 < m'
  | 0, n, hf, m, k, hc, hb => by
    have : n = 0 := by omega
    subst this
    obtain ⟨m', k', e, c, p, _⟩ := fdiv_ok (p := 10 ^ 0) (by norm_num) hc (by simpa using hb)
    exact ⟨m', k', e, c, p⟩
  | fuel + 1, n, hf, m, k, hc, hb => by
    have h0 := two_pos (-1074)
    have hg : (1 : ℚ) ≤ 2 ^ (n / 22) := one_le_pow₀ (by norm_num)
    have hge : (2 : ℚ) ^ (-1074 : Int) ≤ dval m k / 10 ^ n := by nlinarith
    unfold raiseDiv
    by_cases hn : n > 22
    · rw [if_pos hn]
      have hp : (10 : ℚ) ^ n = 10 ^ 22 * 10 ^ (n - 22) := by rw [← pow_add]; congr 1; omega
      have hq : (2 : ℚ) ^ (n / 22) = 2 * 2 ^ ((n - 22) / 22) := by rw [← pow_succ']; congr 1; omega
      have ht : (1 : ℚ) ≤ 10 ^ (n - 22) := one_le_pow₀ (by norm_num)
      rw [hp, ← div_div] at hb hge
      rw [le_div_iff₀ (by linarith)] at hb hge
      rw [hq] at hb
      obtain ⟨m1, k1, e, c, _, b⟩ := fdiv_ok (p := 10 ^ 22) (by norm_num) hc (by
        push_cast
        refine le_trans ?_ hge
        nlinarith)
      rw [e]
      refine raiseDiv_ok fuel (n - 22) (by omega) c ?_
      rw [le_div_iff₀ (by linarith)]
      push_cast at b
      generalize (10 : ℚ) ^ (n - 22) = A at *
      generalize (2 : ℚ) ^ ((n - 22) / 22) = B at *
      linarith
    · rw [if_neg hn]
      obtain ⟨m', k', e, c, p, _⟩ := fdiv_ok (p := 10 ^ n) (Nat.pow_pos (by norm_num)) hc (by push_cast; exact hge)
      exact ⟨m', k', e, c, p⟩

/-- The end of the range for which the starting approximation is known to be finite. -/
def bigEnd : ℚ := 1797 * 10 ^ 305

theorem not_trap {x : ℚ} (h : 2 ^ (-1022 : Int) ≤ x) : ¬ Trap x := by
  unfold Trap dval
  intro ht
  have e1 : (2 : ℚ) ^ (-1022 : Int) = 2 ^ 52 * 2 ^ (-1074 : Int) := by
    rw [← zpow_natCast, ← zpow_add₀ (by norm_num)]; norm_num
  have := two_pos (-1074)
  rw [e1, ht] at h
  push_cast at h
  linarith

theorem bigEnd_lt : bigEnd < (2 ^ 54 - 1) * 2 ^ 970 := by
  have : 1797 * 10 ^ 305 < (2 ^ 54 - 1) * 2 ^ 970 := by decide +kernel
  have h : ((1797 * 10 ^ 305 : Nat) : ℚ) < (((2 ^ 54 - 1) * 2 ^ 970 : Nat) : ℚ) := by exact_mod_cast this
  unfold bigEnd
  refine lt_of_eq_of_lt ?_ (lt_of_lt_of_eq h ?_)
  · push_cast; rfl
  · push_cast; norm_num

theorem bigEnd_slack : bigEnd * (1 + 1 / 10 ^ 9) ^ 16 < (2 ^ 54 - 1) * 2 ^ 970 := by
  have : 1797 * 10 ^ 305 * (10 ^ 9 + 1) ^ 16 < (2 ^ 54 - 1) * 2 ^ 970 * (10 ^ 9) ^ 16 := by decide +kernel
  have h : ((1797 * 10 ^ 305 * (10 ^ 9 + 1) ^ 16 : Nat) : ℚ) < (((2 ^ 54 - 1) * 2 ^ 970 * (10 ^ 9) ^ 16 : Nat) : ℚ) := by exact_mod_cast this
  have h2 : bigEnd * (1 + 1 / 10 ^ 9) ^ 16 * (10 ^ 9) ^ 16 < (2 ^ 54 - 1) * 2 ^ 970 * (10 ^ 9) ^ 16 := by
    refine lt_of_eq_of_lt ?_ (lt_of_lt_of_eq h ?_)
    · unfold bigEnd
      rw [mul_assoc, ← mul_pow, show ((1 + 1 / 10 ^ 9) * 10 ^ 9 : ℚ) = 10 ^ 9 + 1 by norm_num]
      push_cast
      norm_num
    · push_cast; norm_num
  exact lt_of_mul_lt_mul_right h2 (by positivity)

theorem toFlonum_inf {f : Nat} {rf : Int} (h : startOf f rf = .inf) (fuel : Nat) : toFlonum fuel f rf = some .inf := by
  unfold toFlonum
  by_cases hi : intToDouble f = .inf ∧ 0 ≤ rf
  · simp only [hi, and_self, if_true]
  · simp only [if_neg hi]
    unfold startOf at h
    rw [h]

theorem one_le_int {f : Nat} (hf : 0 < f) {m : Nat} {k : Int} (h : intToDouble f = .fin m k) : 1 ≤ dval m k := by
  have h1 := intToDouble_spec f
  rw [h] at h1
  have hc : FinDbl (2 ^ 52) (-52) := ⟨by norm_num, by norm_num, by norm_num, Or.inl le_rfl⟩
  have hv : dval (2 ^ 52) (-52) = 1 := by
    unfold dval
    norm_num
  have := rounds_mono (dval_nonneg _ _) (by rw [hv]; exact_mod_cast hf) (rounds_self hc) h1
  have h2 : dval (2 ^ 52) (-52) ≤ dval m k := this
  rw [hv] at h2
  exact h2

theorem target_neg (f n : Nat) : target f (-(n : Int)) = (f : ℚ) / 10 ^ n := by
  unfold target
  rw [zpow_neg, zpow_natCast]; rfl

theorem target_nat (f n : Nat) : target f (n : Int) = (f : ℚ) * 10 ^ n := by
  unfold target
  rw [zpow_natCast]

theorem two_1022 : (2 : ℚ) ^ (-1022 : Int) = 2 ^ (-1074 : Int) * 2 ^ 52 := by
  rw [← zpow_natCast, ← zpow_add₀ (by norm_num)]; norm_num

theorem toFlonum_range {f : Nat} {rf : Int} (h1 : 2 ^ (-1022 : Int) ≤ target f rf)
    (h2 : target f rf ≤ bigEnd ∨ (2 ^ 54 - 1) * 2 ^ 970 ≤ target f rf) :
    ∃ N d, Rounds (target f rf) d ∧ ∀ fuel, N ≤ fuel → toFlonum fuel f rf = some d := by
  have h0 := two_pos (-1074)
  have hlow : (2 : ℚ) ^ (-1074 : Int) ≤ target f rf := by rw [two_1022] at h1; nlinarith
  have hf0 : 0 < f := by
    rcases Nat.eq_zero_or_pos f with h | h
    · exfalso; subst h; unfold target at hlow; simp only [Nat.cast_zero, zero_mul] at hlow; linarith
    · exact h
  have hbig := bigEnd_lt
  have hslack := bigEnd_slack
  have hI := intToDouble_spec f
  have hTval : ((2 : ℚ) ^ 54 - 1) * 2 ^ 970 ≤ 2 ^ 1024 := by
    have : (2 ^ 54 - 1) * 2 ^ 970 ≤ 2 ^ 1024 := by decide +kernel
    have h : (((2 ^ 54 - 1) * 2 ^ 970 : Nat) : ℚ) ≤ ((2 ^ 1024 : Nat) : ℚ) := by exact_mod_cast this
    refine le_trans (le_of_eq ?_) (le_trans h (le_of_eq ?_))
    · push_cast; norm_num
    · push_cast; rfl
  obtain ⟨T, hT⟩ : ∃ T : ℚ, T = (2 ^ 54 - 1) * 2 ^ 970 := ⟨_, rfl⟩
  have hInf : T ≤ target f rf → Rounds (target f rf) .inf := fun h => by
    show (2 ^ 54 - 1) * 2 ^ 970 ≤ _
    rw [← hT]; exact h
  rw [← hT] at h2 hbig hslack hTval
  cases hd : intToDouble f with
  | inf =>
    rw [hd] at hI
    have hI' : T ≤ (f : ℚ) := by rw [hT]; exact hI
    by_cases hr : 0 ≤ rf
    · refine ⟨0, .inf, hInf ?_, fun fuel _ => by unfold toFlonum; simp only [hd, hr, and_self, if_true]⟩
      have h3 : (1 : ℚ) ≤ 10 ^ rf := one_le_zpow₀ (by norm_num) hr
      unfold target
      have h4 : (0 : ℚ) ≤ f := by positivity
      nlinarith
    · obtain ⟨n, rfl⟩ : ∃ n : Nat, rf = -(n : Int) := ⟨(-rf).toNat, by omega⟩
      rw [target_neg] at h1 h2 hlow hInf ⊢
      have hs := divToDouble_spec (n := f) (d := 10 ^ n) hf0 (Nat.pow_pos (by norm_num)) (by push_cast; exact h1)
      have hst : startOf f (-(n : Int)) = divToDouble f (10 ^ n) := by
        unfold startOf
        rw [if_pos hd, neg_neg, Int.toNat_natCast]
      push_cast at hs
      cases hx : divToDouble f (10 ^ n) with
      | inf =>
        rw [hx] at hs hst
        exact ⟨0, .inf, hs, fun fuel _ => toFlonum_inf hst fuel⟩
      | fin m k =>
        rw [hx] at hs hst
        have := toFlonum_spec (f := f) (rf := -(n : Int)) (not_trap (by rw [target_neg]; exact h1)) hst hs.1 (rounds_lower hlow hs).1
        rw [target_neg] at this
        exact this
  | fin m k =>
    rw [hd] at hI
    have hge := one_le_int hf0 hd
    obtain ⟨u1, u2⟩ := rounds_upper (by exact_mod_cast hf0) hI
    have hm0 : 0 < m := by
      rcases Nat.eq_zero_or_pos m with g | g
      · exfalso; subst g; unfold dval at hge; simp only [Nat.cast_zero, zero_mul] at hge; linarith
      · exact g
    have hst : startOf f rf = raisePow10 (.fin m k) rf := by
      unfold startOf; rw [hd, if_neg (by simp)]
    by_cases hr : 0 ≤ rf
    · obtain ⟨n, rfl⟩ : ∃ n : Nat, rf = n := ⟨rf.toNat, by omega⟩
      have hst2 : startOf f n = raiseMul n (.fin m k) n := by
        rw [hst]; unfold raisePow10; rw [if_pos hr]; simp
      cases hx : raiseMul n (.fin m k) n with
      | fin m' k' =>
        rw [hx] at hst2
        obtain ⟨c, p⟩ := raiseMul_pos n n hI.1 hm0 hx
        exact toFlonum_spec (not_trap h1) hst2 c p
      | inf =>
        rw [hx] at hst2
        refine ⟨0, .inf, hInf ?_, fun fuel _ => toFlonum_inf hst2 fuel⟩
        rcases h2 with g | g
        · exfalso
          rw [target_nat] at g
          have hf1 : (1 : ℚ) ≤ f := by exact_mod_cast hf0
          have hn : n ≤ 308 := by
            refine Classical.byContradiction fun hc => ?_
            have h3 : (10 : ℚ) ^ 309 ≤ 10 ^ n := pow_le_pow_right₀ (by norm_num) (by omega)
            have h4 : bigEnd < 10 ^ 309 := by
              unfold bigEnd
              rw [show 309 = 4 + 305 by rfl, pow_add]
              exact mul_lt_mul_of_pos_right (by norm_num) (by positivity)
            generalize (10 : ℚ) ^ 309 = A at h3 h4
            have : (10 : ℚ) ^ n ≤ f * 10 ^ n := by
              have : (0 : ℚ) < 10 ^ n := by positivity
              nlinarith
            linarith
          obtain ⟨m', k', e⟩ := raiseMul_fin hT n n le_rfl hge hI.1 (by
            refine lt_of_le_of_lt ?_ hslack
            have h3 : (1 + 1 / 10 ^ 9 : ℚ) ^ (n / 22) ≤ (1 + 1 / 10 ^ 9) ^ 15 := pow_le_pow_right₀ (by norm_num) (by omega)
            have h4 : (1 + 1 / 10 ^ 9 : ℚ) ^ 16 = (1 + 1 / 10 ^ 9) * (1 + 1 / 10 ^ 9) ^ 15 := by rw [← pow_succ']
            have h5 : (0 : ℚ) < (1 + 1 / 10 ^ 9) ^ 15 := by positivity
            have h6 : (0 : ℚ) < 10 ^ n := by positivity
            rw [h4]
            have hC : (0 : ℚ) < 1 + 1 / 10 ^ 9 := by norm_num
            generalize (1 + 1 / 10 ^ 9 : ℚ) = C at *
            generalize (10 : ℚ) ^ n = A at *
            generalize C ^ 15 = D at *
            generalize C ^ (n / 22) = E at *
            have h7 : dval m k * A ≤ bigEnd * C := by
              calc dval m k * A ≤ f * C * A := mul_le_mul_of_nonneg_right u1 h6.le
                _ = f * A * C := by ring
                _ ≤ _ := mul_le_mul_of_nonneg_right g hC.le
            have h8 : 0 ≤ dval m k * A := by nlinarith
            calc dval m k * A * E ≤ dval m k * A * D := mul_le_mul_of_nonneg_left h3 h8
              _ ≤ bigEnd * C * D := mul_le_mul_of_nonneg_right h7 h5.le
              _ = _ := by ring)
          rw [e] at hx; cases hx
        · exact g
    · obtain ⟨n, rfl⟩ : ∃ n : Nat, rf = -(n : Int) := ⟨(-rf).toNat, by omega⟩
      have hst2 : startOf f (-(n : Int)) = raiseDiv n (.fin m k) n := by
        rw [hst]; unfold raisePow10; rw [if_neg hr]; simp
      have hfT : (f : ℚ) < T := by rw [hT]; exact hI.2.1
      have h1' := h1
      rw [target_neg] at h1'
      have hpn : (0 : ℚ) < 10 ^ n := by positivity
      have hn : n ≤ 616 := by
        refine Classical.byContradiction fun hc => ?_
        have h3 : (10 : ℚ) ^ 617 ≤ 10 ^ n := pow_le_pow_right₀ (by norm_num) (by omega)
        have h4 : (2 : ℚ) ^ 1024 ≤ 2 ^ (-1022 : Int) * 10 ^ 617 := by
          have : 2 ^ 2046 ≤ 10 ^ 617 := by decide +kernel
          have h : ((2 ^ 2046 : Nat) : ℚ) ≤ ((10 ^ 617 : Nat) : ℚ) := by exact_mod_cast this
          push_cast at h
          have h5 : (2 : ℚ) ^ 1024 = 2 ^ (-1022 : Int) * 2 ^ 2046 := by
            rw [← zpow_natCast, ← zpow_natCast, ← zpow_add₀ (by norm_num)]; norm_num
          rw [h5]
          exact mul_le_mul_of_nonneg_left h (two_pos _).le
        rw [le_div_iff₀ hpn] at h1'
        have h6 := two_pos (-1022)
        generalize (10 : ℚ) ^ 617 = A at *
        generalize (10 : ℚ) ^ n = B at *
        generalize (2 : ℚ) ^ 1024 = C at *
        generalize (2 : ℚ) ^ (-1022 : Int) = D at *
        nlinarith
      obtain ⟨m', k', e, c, p⟩ := raiseDiv_ok n n le_rfl hI.1 (by
        have h3 : (2 : ℚ) ^ (n / 22) ≤ 2 ^ 51 := pow_le_pow_right₀ (by norm_num) (by omega)
        rw [le_div_iff₀ hpn] at h1' ⊢
        rw [two_1022, show (2 : ℚ) ^ 52 = 2 * 2 ^ 51 by rw [pow_succ]; ring] at h1'
        generalize (2 : ℚ) ^ 51 = A at *
        generalize (2 : ℚ) ^ (n / 22) = B at *
        generalize (10 : ℚ) ^ n = C at *
        generalize (2 : ℚ) ^ (-1074 : Int) = D at *
        have h5 : (f : ℚ) ≤ 2 * dval m k := by linarith
        have h6 : D * B * C ≤ D * A * C := mul_le_mul_of_nonneg_right (mul_le_mul_of_nonneg_left h3 h0.le) hpn.le
        linarith)
      rw [e] at hst2
      exact toFlonum_spec (not_trap h1) hst2 c p

theorem toFlonum_zero (fuel : Nat) (rf : Int) : toFlonum fuel 0 rf = some (.fin 0 (-1074)) := by
  have h0 : intToDouble 0 = .fin 0 (-1074) := by decide +kernel
  have hmul : ∀ p, fmul p (.fin 0 (-1074)) = .fin 0 (-1074) := by
    intro p; unfold fmul rnd; simp
  have hdiv : ∀ p, fdiv p (.fin 0 (-1074)) = .fin 0 (-1074) := by
    intro p; unfold fdiv rnd; simp
  have hm : ∀ f n, raiseMul f (.fin 0 (-1074)) n = .fin 0 (-1074) := by
    intro f
    induction f with
    | zero => intro n; exact hmul _
    | succ f ih =>
      intro n; unfold raiseMul
      by_cases g : n > 22
      · rw [if_pos g, hmul]; exact ih _
      · rw [if_neg g, hmul]
  have hd : ∀ f n, raiseDiv f (.fin 0 (-1074)) n = .fin 0 (-1074) := by
    intro f
    induction f with
    | zero => intro n; exact hdiv _
    | succ f ih =>
      intro n; unfold raiseDiv
      by_cases g : n > 22
      · rw [if_pos g, hdiv]; exact ih _
      · rw [if_neg g, hdiv]
  have hr : raisePow10 (.fin 0 (-1074)) rf = .fin 0 (-1074) := by
    unfold raisePow10
    by_cases g : 0 ≤ rf
    · rw [if_pos g, hm]
    · rw [if_neg g, hd]
  unfold toFlonum
  simp [h0, hr]

end Gauche.Flonum

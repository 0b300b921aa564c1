import Verif.Proof.FlonumR
/-
The machine operations, exact integers to doubles, and `toFlonum`.
-/
namespace Gauche.Flonum
open Gauche.Spec

/-- Every double that rounding gives exists. -/
theorem rounds_fin {x : ℚ} {m : Nat} {k : Int} (h : Rounds x (.fin m k)) : FinDbl m k := h.1

theorem zpow_split (k : Int) : (2 : ℚ) ^ k = if k < 0 then 1 / 2 ^ (-k).toNat else 2 ^ k.toNat := by
  by_cases h : k < 0
  · rw [if_pos h, toNat_zpow _ (by omega), zpow_neg]; simp
  · rw [if_neg h, toNat_zpow _ (by omega)]

theorem fmul_spec (p m : Nat) (k : Int) : Rounds (dval m k * p) (fmul p (.fin m k)) := by
  unfold fmul
  by_cases h : k < 0
  · simp only [h, if_true]
    have := rnd_spec (m * p) (2 ^ (-k).toNat) (Nat.two_pow_pos _)
    have e : dval m k * p = ((m * p : Nat) : ℚ) / ((2 ^ (-k).toNat : Nat) : ℚ) := by
      unfold dval; rw [zpow_split, if_pos h]; push_cast; ring
    rw [e]; exact this
  · simp only [h, if_false]
    have := rnd_spec (m * p * 2 ^ k.toNat) 1 Nat.one_pos
    have e : dval m k * p = ((m * p * 2 ^ k.toNat : Nat) : ℚ) / ((1 : Nat) : ℚ) := by
      unfold dval; rw [zpow_split, if_neg h]; push_cast; ring
    rw [e]; exact this

theorem fdiv_spec {p : Nat} (hp : 0 < p) (m : Nat) (k : Int) : Rounds (dval m k / p) (fdiv p (.fin m k)) := by
  unfold fdiv
  have hp0 : (p : ℚ) ≠ 0 := by positivity
  by_cases h : k < 0
  · simp only [h, if_true]
    have := rnd_spec m (2 ^ (-k).toNat * p) (Nat.mul_pos (Nat.two_pow_pos _) hp)
    have e : dval m k / p = (m : ℚ) / ((2 ^ (-k).toNat * p : Nat) : ℚ) := by
      unfold dval; rw [zpow_split, if_pos h]; push_cast; field_simp
    rw [e]; exact this
  · simp only [h, if_false]
    have := rnd_spec (m * 2 ^ k.toNat) p hp
    have e : dval m k / p = ((m * 2 ^ k.toNat : Nat) : ℚ) / (p : ℚ) := by
      unfold dval; rw [zpow_split, if_neg h]; push_cast; ring
    rw [e]; exact this

theorem ldexp_spec (m : Nat) (k e : Int) : Rounds (dval m k * 2 ^ e) (ldexp (.fin m k) e) := by
  unfold ldexp
  have e0 : dval m k * 2 ^ e = m * 2 ^ (k + e) := by unfold dval; rw [zpow_add₀ (by norm_num)]; ring
  rw [e0]
  by_cases h : k + e < 0
  · simp only [h, if_true]
    have := rnd_spec m (2 ^ (-(k + e)).toNat) (Nat.two_pow_pos _)
    rw [zpow_split, if_pos h]
    push_cast at this
    rw [mul_one_div]; exact this
  · simp only [h, if_false]
    have := rnd_spec (m * 2 ^ (k + e).toNat) 1 Nat.one_pos
    rw [zpow_split, if_neg h]
    push_cast at this
    simpa using this

/-- A double rounds to itself. -/
theorem RU_self {m : Nat} {k : Int} (h : CanonU m k) : RU (dval m k) m k :=
  ⟨h, Or.inl (by have := two_pos k; linarith), Or.inl (by have := low_pos m k; linarith)⟩

theorem rounds_self {m : Nat} {k : Int} (h : FinDbl m k) : Rounds (dval m k) (.fin m k) := rounds_of (RU_self (canonU_of h)) h.2.2.1

/-! ### integers -/

theorem bignumToDouble_spec {b : Nat} (hb : 2 ^ 54 ≤ b) : Rounds b (bignumToDouble b) := by
  have hb0 : b ≠ 0 := by positivity
  obtain ⟨mb, hmb⟩ : ∃ mb, mb = Nat.log2 b := ⟨_, rfl⟩
  have h54 : 54 ≤ mb := by rw [hmb]; exact (Nat.le_log2 hb0).2 hb
  have hlo : 2 ^ mb ≤ b := hmb ▸ Nat.log2_self_le hb0
  have hhi : b < 2 ^ (mb + 1) := hmb ▸ Nat.lt_log2_self
  obtain ⟨j, rfl⟩ : ∃ j, mb = j + 53 := ⟨mb - 53, by omega⟩
  obtain ⟨h, hh⟩ : ∃ h, h = 2 ^ j := ⟨_, rfl⟩
  have hpos : 0 < h := hh ▸ Nat.two_pow_pos j
  have hlo' : h * 2 ^ 53 ≤ b := by rw [hh, ← Nat.pow_add]; exact hlo
  have hhi' : b < h * 2 ^ 54 := by rw [hh, ← Nat.pow_add]; exact hhi
  have e52 : 2 ^ (j + 53 - 52) = h * 2 := by rw [show j + 53 - 52 = j + 1 by omega, Nat.pow_succ, hh]
  have e53 : 2 ^ (j + 53 - 53) = h := by rw [show j + 53 - 53 = j by omega, hh]
  obtain ⟨n, hn⟩ : ∃ n, n = b / (h * 2) := ⟨_, rfl⟩
  obtain ⟨r, hr⟩ : ∃ r, r = b % (h * 2) := ⟨_, rfl⟩
  have hbn : b = (h * 2) * n + r := by rw [hn, hr]; exact (Nat.div_add_mod b (h * 2)).symm
  have hrq : r < h * 2 := by rw [hr]; exact Nat.mod_lt _ (by omega)
  have hn52 : 2 ^ 52 ≤ n := by rw [hn, Nat.le_div_iff_mul_le (by omega)]; nlinarith
  have hn53 : n < 2 ^ 53 := by rw [hn, Nat.div_lt_iff_lt_mul (by omega)]; nlinarith
  have hdst : n % 2 ^ 52 = n - 2 ^ 52 := by omega
  -- the rounding condition
  have hbit : b / h % 2 = r / h := by
    have : b / h = 2 * n + r / h := by
      rw [congrArg (· / h) hbn]; show (h * 2 * n + r) / h = _; rw [show h * 2 * n + r = r + h * (2 * n) by ring, Nat.add_mul_div_left _ _ hpos, Nat.add_comm]
    have h2 : r / h < 2 := by rw [Nat.div_lt_iff_lt_mul hpos]; omega
    rw [this]
    generalize r / h = i at h2 ⊢
    omega
  have hlow : b % h = r % h := by rw [congrArg (· % h) hbn]; show (h * 2 * n + r) % h = _; rw [show h * 2 * n + r = r + h * (2 * n) by ring, Nat.add_mul_mod_self_left]
  have hrh := Nat.div_add_mod r h
  have hrm : r % h < h := Nat.mod_lt _ hpos
  have hcond : (b / h % 2 = 1 ∧ ((n - 2 ^ 52) % 2 = 1 ∨ 0 < b % h)) ↔ (h * 2 < 2 * r ∨ (2 * r = h * 2 ∧ n % 2 = 1)) := by
    rw [hbit, hlow]
    have h2 : r / h < 2 := by rw [Nat.div_lt_iff_lt_mul hpos]; omega
    have h01 : r / h = 0 ∨ r / h = 1 := by omega
    rcases h01 with h0 | h1
    · rw [h0] at hrh ⊢
      have : r = r % h := by omega
      constructor
      · intro hh; omega
      · intro hh; omega
    · rw [h1] at hrh ⊢
      omega
  have hval : (b : ℚ) = ((n : ℚ) + (r : ℚ) / ((h * 2 : Nat) : ℚ)) * 2 ^ ((j : Int) + 1) := by
    have e2 : (2 : ℚ) ^ ((j : Int) + 1) = ((h * 2 : Nat) : ℚ) := by
      rw [hh, zpow_add₀ (by norm_num), zpow_natCast]; push_cast; ring
    have h0 : ((h * 2 : Nat) : ℚ) ≠ 0 := by have : h * 2 ≠ 0 := by omega
                                            exact_mod_cast this
    have hb' : (b : ℚ) = ((h * 2 : Nat) : ℚ) * n + r := by exact_mod_cast hbn
    rw [e2, hb']; field_simp
  have hRU : RU (b : ℚ) (roundUp n r (h * 2) ((j : Int) + 1)).1 (roundUp n r (h * 2) ((j : Int) + 1)).2 := by
    rw [hval]; exact roundUp_RU hn53 (by omega) (Or.inl hn52) hrq
  have hfin := rounds_clip hRU
  have heq : bignumToDouble b = clip (roundUp n r (h * 2) ((j : Int) + 1)).1 (roundUp n r (h * 2) ((j : Int) + 1)).2 := by
    unfold bignumToDouble
    rw [← hmb]
    simp only [e52, e53, ← hn, hdst]
    have hup : (decide (b / h % 2 = 1) && (decide ((n - 2 ^ 52) % 2 = 1) || decide (0 < b % h))) =
        decide (h * 2 < 2 * r ∨ (2 * r = h * 2 ∧ n % 2 = 1)) := by
      rw [Bool.eq_iff_iff]; simp only [Bool.and_eq_true, Bool.or_eq_true, decide_eq_true_eq]; exact hcond
    rw [hup]
    unfold roundUp clip
    by_cases hc : h * 2 < 2 * r ∨ (2 * r = h * 2 ∧ n % 2 = 1)
    · rw [if_pos hc]
      simp only [decide_eq_true hc, if_true, Bool.true_and, decide_eq_true_eq]
      by_cases ho : n + 1 = 2 ^ 53
      · have hov : 2 ^ 52 ≤ n - 2 ^ 52 + 1 := by omega
        simp only [if_pos hov, if_pos ho]
        by_cases hx : j + 53 + 1023 + 1 > 2046
        · rw [if_pos hx, if_pos (by omega)]
        · rw [if_neg hx, if_neg (by omega)]
          exact congrArg₂ Dbl.fin (by omega) (by omega)
      · have hov : ¬ 2 ^ 52 ≤ n - 2 ^ 52 + 1 := by omega
        simp only [if_neg hov, if_neg ho]
        by_cases hx : j + 53 + 1023 > 2046
        · rw [if_pos hx, if_pos (by omega)]
        · rw [if_neg hx, if_neg (by omega)]
          exact congrArg₂ Dbl.fin (by omega) (by omega)
    · rw [if_neg hc]
      simp only [decide_eq_false hc, Bool.false_and, Bool.false_eq_true, if_false]
      by_cases hx : j + 53 + 1023 > 2046
      · rw [if_pos hx, if_pos (by omega)]
      · rw [if_neg hx, if_neg (by omega)]
        exact congrArg₂ Dbl.fin (by omega) (by omega)
  rw [heq]; exact hfin

/-- `Scm_GetDouble` rounds an exact integer to nearest, ties to even. -/
theorem intToDouble_spec (n : Nat) : Rounds n (intToDouble n) := by
  unfold intToDouble
  by_cases h : n ≤ 2 ^ 61 - 1
  · rw [if_pos h]; simpa using rnd_spec n 1 Nat.one_pos
  · rw [if_neg h]; exact bignumToDouble_spec (by omega)

/-- The doubles that represent small integers. -/
theorem small_double {n : Nat} (hn : n < 2 ^ 53) : ∃ m k, FinDbl m k ∧ dval m k = n := by
  by_cases h0 : n = 0
  · exact ⟨0, -1074, ⟨by norm_num, by norm_num, by norm_num, Or.inr rfl⟩, by rw [h0]; simp [dval]⟩
  · have hlo := Nat.log2_self_le h0
    have hhi : n < 2 ^ (Nat.log2 n + 1) := Nat.lt_log2_self
    have hl : Nat.log2 n < 53 := by
      refine Classical.byContradiction fun hc => ?_
      have : 2 ^ 53 ≤ 2 ^ Nat.log2 n := Nat.pow_le_pow_right (by omega) (by omega)
      omega
    generalize Nat.log2 n = l at hlo hhi hl
    refine ⟨n * 2 ^ (52 - l), -((52 - l : Nat) : Int), ⟨?_, by omega, by omega, Or.inl ?_⟩, ?_⟩
    · calc n * 2 ^ (52 - l) < 2 ^ (l + 1) * 2 ^ (52 - l) := Nat.mul_lt_mul_of_pos_right hhi (Nat.two_pow_pos _)
        _ = 2 ^ 53 := by rw [← Nat.pow_add]; congr 1; omega
    · calc 2 ^ 52 = 2 ^ l * 2 ^ (52 - l) := by rw [← Nat.pow_add]; congr 1; omega
        _ ≤ n * 2 ^ (52 - l) := Nat.mul_le_mul_right _ hlo
    · unfold dval
      push_cast
      rw [zpow_neg, zpow_natCast]
      have : (2 : ℚ) ^ (52 - l) ≠ 0 := by positivity
      field_simp

theorem intToDouble_small {n : Nat} (hn : n < 2 ^ 53) : ∃ m k, intToDouble n = .fin m k ∧ FinDbl m k ∧ dval m k = n := by
  obtain ⟨m, k, h1, h2⟩ := small_double hn
  refine ⟨m, k, ?_, h1, h2⟩
  have := intToDouble_spec n
  rw [← h2] at this
  exact rounds_unique (by rw [h2]; positivity) this (rounds_self h1)

/-! ### the end of `read_real` -/

/-- The approximation that `toFlonum` starts from. -/
def startOf (fraction : Nat) (rf : Int) : Dbl :=
  if intToDouble fraction = .inf then divToDouble fraction (10 ^ (-rf).toNat) else raisePow10 (intToDouble fraction) rf

theorem raisePow10_small (x : Dbl) {n : Int} (h1 : -22 ≤ n) (h2 : n ≤ 22) :
    raisePow10 x n = if 0 ≤ n then fmul (10 ^ n.toNat) x else fdiv (10 ^ (-n).toNat) x := by
  have hm : ∀ f, raiseMul f x n.toNat = fmul (10 ^ n.toNat) x := by
    intro f; cases f with
    | zero => rfl
    | succ f => unfold raiseMul; rw [if_neg (by omega)]
  have hd : ∀ f, raiseDiv f x (-n).toNat = fdiv (10 ^ (-n).toNat) x := by
    intro f; cases f with
    | zero => rfl
    | succ f => unfold raiseDiv; rw [if_neg (by omega)]
  unfold raisePow10
  rw [hm, hd]

theorem finite_of_small {n : Nat} (hn : n ≤ 2 ^ 52) : intToDouble n ≠ .inf := by
  obtain ⟨m, k, h, _⟩ := intToDouble_small (n := n) (by omega)
  rw [h]; simp

/-- The short way. -/
theorem start_short {f : Nat} {rf : Int} (hf : f ≤ 2 ^ 52) (h1 : -22 ≤ rf) (h2 : rf ≤ 22) : Rounds (target f rf) (startOf f rf) := by
  unfold startOf
  rw [if_neg (finite_of_small hf)]
  obtain ⟨m, k, he, hc, hv⟩ := intToDouble_small (n := f) (by omega)
  rw [he, raisePow10_small _ h1 h2]
  unfold target
  rw [← hv]
  by_cases h : 0 ≤ rf
  · rw [if_pos h]
    have := fmul_spec (10 ^ rf.toNat) m k
    push_cast at this
    rw [toNat_zpow _ h] at this
    exact this
  · rw [if_neg h]
    have := fdiv_spec (p := 10 ^ (-rf).toNat) (Nat.pow_pos (by norm_num)) m k
    push_cast at this
    rw [toNat_zpow _ (by omega), zpow_neg, div_inv_eq_mul] at this
    exact this

/-- The decimal reader rounds correctly whenever its first approximation is finite and not zero. -/
theorem toFlonum_spec {f : Nat} {rf : Int} (htr : ¬ Trap (target f rf)) {m : Nat} {k : Int} (hs : startOf f rf = .fin m k)
    (hc : FinDbl m k) (hm : 0 < m) :
    ∃ N d, Rounds (target f rf) d ∧ ∀ fuel, N ≤ fuel → toFlonum fuel f rf = some d := by
  by_cases hinf : intToDouble f = .inf ∧ 0 ≤ rf
  · refine ⟨0, .inf, ?_, fun fuel _ => by unfold toFlonum; simp only [hinf, and_self, if_true]⟩
    have h1 := intToDouble_spec f
    rw [hinf.1] at h1
    show (2 ^ 54 - 1) * 2 ^ 970 ≤ target f rf
    have h1' : (2 ^ 54 - 1) * 2 ^ 970 ≤ (f : ℚ) := h1
    have h2 : (1 : ℚ) ≤ 10 ^ rf := one_le_zpow₀ (by norm_num) hinf.2
    have h0 : (0 : ℚ) ≤ f := by positivity
    unfold target
    generalize (2 ^ 54 - 1) * (2:ℚ) ^ 970 = P at h1' ⊢
    nlinarith
  · by_cases hlong : 2 ^ 52 < f ∨ 22 < rf ∨ rf < -22
    · obtain ⟨N, d, h1, h2⟩ := algorithmR_spec f rf hc hm htr
      refine ⟨N, d, h1, fun fuel hf => ?_⟩
      unfold toFlonum
      simp only [if_neg hinf]
      unfold startOf at hs
      rw [hs]
      simp only [if_pos (show 0 < m ∧ (2 ^ 52 < f ∨ 22 < rf ∨ rf < -22) from ⟨hm, hlong⟩)]
      exact h2 fuel hf
    · refine ⟨0, .fin m k, ?_, fun fuel _ => ?_⟩
      · rw [← hs]; exact start_short (by omega) (by omega) (by omega)
      · unfold toFlonum
        simp only [if_neg hinf]
        unfold startOf at hs
        rw [hs]
        simp only [if_neg (show ¬ (0 < m ∧ (2 ^ 52 < f ∨ 22 < rf ∨ rf < -22)) from fun hh => hlong hh.2)]

end Gauche.Flonum

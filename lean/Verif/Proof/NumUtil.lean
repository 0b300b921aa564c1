import Verif.Model.NumUtil
import Verif.Spec.Double
import Mathlib.Tactic.Linarith
import Mathlib.Tactic.LinearCombination
import Mathlib.Tactic.FieldSimp
import Mathlib.Tactic.Ring
import Mathlib.Tactic.Push
import Mathlib.Tactic.NormNum
import Mathlib.Data.Int.ModEq
import Mathlib.Data.Nat.Bitwise
import Mathlib.Data.Int.Basic
/-
Lemmas for the number utilities.
-/
namespace Gauche.NumUtil

theorem isInt_iff (x : ℚ) : isInt x = true ↔ (x.num : ℚ) = x := by
  simp [isInt, Rat.den_eq_one_iff]

theorem tdiv_spec (a b : Int) (hb : b ≠ 0) :
    a = a.tdiv b * b + a.tmod b ∧ |a.tmod b| < |b| ∧ (0 ≤ a → 0 ≤ a.tmod b) ∧ (a < 0 → a.tmod b ≤ 0) := by
  refine ⟨by have := Int.tmod_add_mul_tdiv a b; linarith [Int.mul_comm (a.tdiv b) b], ?_, ?_, ?_⟩
  · rw [← Int.natCast_natAbs, ← Int.natCast_natAbs, Int.natAbs_tmod]
    exact_mod_cast Nat.mod_lt _ (by omega)
  · intro h; exact Int.tmod_nonneg b h
  · intro h
    have := Int.tmod_nonneg b (show 0 ≤ -a by omega)
    rw [Int.neg_tmod] at this; omega

/-- What `%div&mod` answers: division truncated towards zero. -/
theorem divMod1_spec (x y : ℚ) (hy : y ≠ 0) :
    ∃ q r, divMod1 x y = some (q, r) ∧ x = q * y + r ∧ |r| < |y| ∧ (0 ≤ x → 0 ≤ r) ∧ (x < 0 → r ≤ 0) := by
  unfold divMod1; rw [if_neg hy]
  by_cases h : isInt x ∧ isInt y
  · rw [if_pos h]
    obtain ⟨hx, hyy⟩ := h
    rw [isInt_iff] at hx hyy
    have hb : y.num ≠ 0 := by simpa using hy
    obtain ⟨h1, h2, h3, h4⟩ := tdiv_spec x.num y.num hb
    refine ⟨_, _, rfl, ?_, ?_, ?_, ?_⟩
    · have : (x.num : ℚ) = (x.num.tdiv y.num : ℚ) * (y.num : ℚ) + (x.num.tmod y.num : ℚ) := by exact_mod_cast h1
      rw [hx, hyy] at this; exact this
    · have : |(x.num.tmod y.num : ℚ)| < |(y.num : ℚ)| := by exact_mod_cast h2
      rwa [hyy] at this
    · intro h0; exact_mod_cast h3 (Rat.num_nonneg.mpr h0)
    · intro h0; exact_mod_cast h4 (Rat.num_neg.mpr h0)
  · rw [if_neg h]
    refine ⟨_, _, rfl, by ring, ?_, ?_, ?_⟩
    all_goals
      have key : x - (truncate (x / y) : ℚ) * y = (x / y - truncate (x / y)) * y := by field_simp
      rw [key]
      unfold truncate
    · rw [abs_mul]
      have hyp : 0 < |y| := abs_pos.mpr hy
      have : |x / y - ((if 0 ≤ x / y then ⌊x / y⌋ else ⌈x / y⌉ : Int) : ℚ)| < 1 := by
        split
        · rw [abs_lt]; constructor <;> linarith [Int.floor_le (x / y), Int.lt_floor_add_one (x / y)]
        · rw [abs_lt]; constructor <;> linarith [Int.le_ceil (x / y), Int.ceil_lt_add_one (x / y)]
      nlinarith
    · intro hx
      split
      · rename_i h0
        have := Int.floor_le (x / y)
        rcases lt_or_gt_of_ne hy with hn | hp
        · have : x / y ≤ 0 := div_nonpos_of_nonneg_of_nonpos hx hn.le
          have : x / y = 0 := le_antisymm this h0
          simp [this]
        · exact mul_nonneg (by linarith) hp.le
      · rename_i h0
        have := Int.le_ceil (x / y)
        rcases lt_or_gt_of_ne hy with hn | hp
        · exact mul_nonneg_of_nonpos_of_nonpos (by linarith) hn.le
        · exact absurd (div_nonneg hx hp.le) h0
    · intro hx
      split
      · rename_i h0
        have := Int.floor_le (x / y)
        rcases lt_or_gt_of_ne hy with hn | hp
        · exact mul_nonpos_of_nonneg_of_nonpos (by linarith) hn.le
        · exact absurd h0 (not_le.mpr (div_neg_of_neg_of_pos hx hp))
      · rename_i h0
        have := Int.le_ceil (x / y)
        rcases lt_or_gt_of_ne hy with hn | hp
        · exact absurd (div_nonneg_of_nonpos hx.le hn.le) h0
        · exact mul_nonpos_of_nonpos_of_nonneg (by linarith) hp.le

theorem divAndMod_spec (x y : ℚ) (hy : y ≠ 0) :
    ∃ (q : Int) (r : ℚ), divAndMod x y = some (q, r) ∧ x = q * y + r ∧ 0 ≤ r ∧ r < |y| := by
  obtain ⟨q, r, h, he, hr, hp, hn⟩ := divMod1_spec x y hy
  unfold divAndMod; rw [h]
  by_cases hx : x ≥ 0
  · rw [if_pos hx]; exact ⟨q, r, rfl, he, hp hx, lt_of_abs_lt hr⟩
  · rw [if_neg hx]; dsimp only
    have hr0 := hn (by linarith)
    by_cases h0 : r = 0
    · rw [if_pos h0]; exact ⟨q, r, rfl, he, by linarith, by rw [h0]; exact abs_pos.mpr hy⟩
    · rw [if_neg h0]
      have hr1 : r < 0 := lt_of_le_of_ne hr0 h0
      rw [abs_of_neg hr1] at hr
      by_cases hy0 : y > 0
      · rw [if_pos hy0]; rw [abs_of_pos hy0] at hr ⊢
        exact ⟨_, _, rfl, by push_cast; linarith, by linarith, by linarith⟩
      · rw [if_neg hy0]; rw [abs_of_nonpos (by linarith)] at hr ⊢
        exact ⟨_, _, rfl, by push_cast; linarith, by linarith, by linarith⟩

theorem div0AndMod0_spec (x y : ℚ) (hy : y ≠ 0) :
    ∃ (q : Int) (r : ℚ), div0AndMod0 x y = some (q, r) ∧ x = q * y + r ∧ -(|y| / 2) ≤ r ∧ r < |y| / 2 := by
  obtain ⟨q, r, h, he, hr, hp, hn⟩ := divMod1_spec x y hy
  unfold div0AndMod0; rw [h]; dsimp only
  by_cases hx : x ≥ 0
  · rw [if_pos hx]
    have h0 := hp hx
    rw [abs_of_nonneg h0] at hr
    by_cases hy0 : y > 0
    · rw [if_pos hy0]; rw [abs_of_pos hy0] at hr ⊢
      by_cases hc : r * 2 ≥ y
      · rw [if_pos hc]; exact ⟨_, _, rfl, by push_cast; linarith, by linarith, by linarith⟩
      · rw [if_neg hc]; exact ⟨_, _, rfl, by push_cast; linarith, by linarith, by linarith⟩
    · rw [if_neg hy0]; rw [abs_of_nonpos (by linarith)] at hr ⊢
      by_cases hc : r * 2 ≥ -y
      · rw [if_pos hc]; exact ⟨_, _, rfl, by push_cast; linarith, by linarith, by linarith⟩
      · rw [if_neg hc]; exact ⟨_, _, rfl, by push_cast; linarith, by linarith, by linarith⟩
  · rw [if_neg hx]
    have h0 := hn (by linarith)
    rw [abs_of_nonpos h0] at hr
    by_cases hy0 : y > 0
    · rw [if_pos hy0]; rw [abs_of_pos hy0] at hr ⊢
      by_cases hc : r * 2 < -y
      · rw [if_pos hc]; exact ⟨_, _, rfl, by push_cast; linarith, by linarith, by linarith⟩
      · rw [if_neg hc]; exact ⟨_, _, rfl, by push_cast; linarith, by linarith, by linarith⟩
    · rw [if_neg hy0]; rw [abs_of_nonpos (by linarith)] at hr ⊢
      by_cases hc : r * 2 < y
      · rw [if_pos hc]; exact ⟨_, _, rfl, by push_cast; linarith, by linarith, by linarith⟩
      · rw [if_neg hc]; exact ⟨_, _, rfl, by push_cast; linarith, by linarith, by linarith⟩

theorem quoRem_spec (x y : Int) (hy : y ≠ 0) :
    ∃ q r, quoRem x y = some (q, r) ∧ x = q * y + r ∧ |r| < |y| ∧ (0 ≤ x → 0 ≤ r) ∧ (x < 0 → r ≤ 0) := by
  unfold quoRem; rw [if_neg hy]
  exact ⟨_, _, rfl, tdiv_spec x y hy⟩

theorem floorDiv_spec (x y : Int) (hy : y ≠ 0) :
    ∃ q r, floorDiv x y = some (q, r) ∧ x = q * y + r ∧ (0 < y → 0 ≤ r ∧ r < y) ∧ (y < 0 → y < r ∧ r ≤ 0) := by
  obtain ⟨q, r, h, he, hr, hp, hn⟩ := quoRem_spec x y hy
  unfold floorDiv; rw [h]; dsimp only
  rw [abs_lt] at hr
  have e1 : (q - 1) * y = q * y - y := by ring
  have e2 : (q + 1) * y = q * y + y := by ring
  split_ifs <;> refine ⟨_, _, rfl, ?_, ?_, ?_⟩ <;> rcases abs_cases y with h | h <;> omega

theorem ceilingDiv_spec (x y : Int) (hy : y ≠ 0) :
    ∃ q r, ceilingDiv x y = some (q, r) ∧ x = q * y + r ∧ (0 < y → -y < r ∧ r ≤ 0) ∧ (y < 0 → 0 ≤ r ∧ r < -y) := by
  obtain ⟨q, r, h, he, hr, hp, hn⟩ := quoRem_spec x y hy
  unfold ceilingDiv; rw [h]; dsimp only
  rw [abs_lt] at hr
  have e1 : (q - 1) * y = q * y - y := by ring
  have e2 : (q + 1) * y = q * y + y := by ring
  split_ifs <;> refine ⟨_, _, rfl, ?_, ?_, ?_⟩ <;> rcases abs_cases y with h | h <;> omega

theorem roundDiv_spec (n d : Int) (hd : d ≠ 0) :
    ∃ (q r : Int), roundDiv n d = some (q, (r : ℚ)) ∧ n = q * d + r ∧ 2 * |r| ≤ |d| ∧ (2 * |r| = |d| → q % 2 = 0) := by
  unfold roundDiv; rw [if_neg hd]
  obtain ⟨q, r, h, he, h1, h2⟩ := div0AndMod0_spec (n : ℚ) (d : ℚ) (by exact_mod_cast hd)
  rw [h]; dsimp only
  obtain ⟨r, rfl⟩ : ∃ r' : Int, r = (r' : ℚ) := ⟨n - q * d, by push_cast; linarith⟩
  have he' : n = q * d + r := by exact_mod_cast he
  have h1' : -|d| ≤ 2 * r := by
    have : -|(d : ℚ)| ≤ 2 * (r : ℚ) := by linarith
    exact_mod_cast this
  have h2' : 2 * r < |d| := by
    have : 2 * (r : ℚ) < |(d : ℚ)| := by linarith
    exact_mod_cast this
  have hc : (|(r : ℚ)| * 2 = |(d : ℚ)|) ↔ |r| * 2 = |d| := by
    constructor
    · intro h; exact_mod_cast h
    · intro h; exact_mod_cast h
  simp only [hc]
  have e1 : (q - 1) * d = q * d - d := by ring
  have e2 : (q + 1) * d = q * d + d := by ring
  split_ifs with hif hdp
  · refine ⟨q - 1, -r, by push_cast; rfl, ?_, ?_, ?_⟩ <;> rcases abs_cases d with h | h <;> rcases abs_cases r with h' | h' <;>
      rcases abs_cases (-r) with h'' | h'' <;> omega
  · refine ⟨q + 1, -r, by push_cast; rfl, ?_, ?_, ?_⟩ <;> rcases abs_cases d with h | h <;> rcases abs_cases r with h' | h' <;>
      rcases abs_cases (-r) with h'' | h'' <;> omega
  · refine ⟨q, r, rfl, he', ?_, ?_⟩ <;> rcases abs_cases d with h | h <;> rcases abs_cases r with h' | h' <;> omega

/- ### exact-integer-sqrt -/

theorem newton_ge (k s t : Int) (hs : 0 < s) (h : t * t ≤ k) (ht : 0 ≤ t) : t ≤ Int.tdiv (s * s + k) (2 * s) := by
  have hk : 0 ≤ k := le_trans (mul_nonneg ht ht) h
  rw [Int.tdiv_eq_ediv_of_nonneg (by positivity)]
  rw [Int.le_ediv_iff_mul_le (by omega)]
  nlinarith [sq_nonneg (s - t)]

theorem newton_lt (k s : Int) (hk : 0 ≤ k) (hs : 0 < s) (h : k < s * s) : Int.tdiv (s * s + k) (2 * s) < s := by
  rw [Int.tdiv_eq_ediv_of_nonneg (by positivity)]
  rw [Int.ediv_lt_iff_lt_mul (by omega)]
  nlinarith

theorem sqrtLoop_above (k t : Int) (ht : 0 ≤ t) (h1 : t * t ≤ k) (h2 : k < (t + 1) * (t + 1)) :
    ∀ (fuel : Nat) (s : Int), t ≤ s → s - t < fuel → sqrtLoop k fuel s = some (t, k - t * t) := by
  intro fuel
  induction fuel with
  | zero => intro s h h'; simp at h'; omega
  | succ fuel ih =>
    intro s hs hf
    have hk : 0 ≤ k := le_trans (mul_nonneg ht ht) h1
    unfold sqrtLoop; dsimp only
    by_cases he : s = t
    · subst he
      rw [if_neg (by omega), if_pos (by nlinarith)]
    · have hsp : 0 < s := by omega
      have hlt : k < s * s := lt_of_lt_of_le h2 (mul_self_le_mul_self (by omega) (by omega))
      rw [if_pos hlt, if_neg (by omega)]
      have := newton_lt k s hk hsp hlt
      apply ih _ (newton_ge k s t hsp h1 ht)
      push_cast at hf; omega

theorem sqrtLoop_spec (k t s : Int) (ht : 0 ≤ t) (h1 : t * t ≤ k) (h2 : k < (t + 1) * (t + 1)) (hs : 0 < s) :
    ∃ N, ∀ fuel, N ≤ fuel → sqrtLoop k fuel s = some (t, k - t * t) := by
  by_cases h : t ≤ s
  · exact ⟨(s - t).toNat + 1, fun fuel hf => sqrtLoop_above k t ht h1 h2 fuel s h (by omega)⟩
  · refine ⟨(Int.tdiv (s * s + k) (2 * s) - t).toNat + 2, fun fuel hf => ?_⟩
    obtain ⟨fuel, rfl⟩ : ∃ f, fuel = f + 1 := ⟨fuel - 1, by omega⟩
    unfold sqrtLoop; dsimp only
    rw [if_neg (by nlinarith), if_neg (by nlinarith), if_neg (by omega)]
    exact sqrtLoop_above k t ht h1 h2 fuel _ (newton_ge k s t hs h1 ht) (by omega)

open Gauche.Spec in
theorem isDouble_frac (m : Int) (hm : |m| < 2 ^ 53) : IsDouble ((m : ℝ) / 2 ^ 26) :=
  ⟨m, -26, hm, by norm_num, by norm_num, by
    rw [div_eq_mul_inv, zpow_neg]; norm_num⟩

open Gauche.Spec in
theorem isDouble_int (m : Int) (hm : |m| < 2 ^ 53) : IsDouble (m : ℝ) :=
  ⟨m, 0, hm, by norm_num, by norm_num, by simp⟩

theorem exists_isqrt (k : Int) (hk : 0 ≤ k) : ∃ t : Int, 0 ≤ t ∧ t * t ≤ k ∧ k < (t + 1) * (t + 1) := by
  refine ⟨(Nat.sqrt k.toNat : Nat), by omega, ?_, ?_⟩
  · have := Nat.sqrt_le k.toNat; zify at this; rwa [Int.toNat_of_nonneg hk] at this
  · have := Nat.lt_succ_sqrt k.toNat; zify at this; rw [Int.toNat_of_nonneg hk] at this
    simpa using this

open Gauche.Spec in
theorem floor_small (k t : Int) (d : ℚ) (ht : 0 ≤ t) (h1 : t * t ≤ k) (h2 : k < (t + 1) * (t + 1)) (hk : k < 2 ^ 52)
    (hd : NearestDouble d (Real.sqrt k)) : ⌊d⌋ = t := by
  have hk0 : (0 : ℝ) ≤ k := by exact_mod_cast le_trans (mul_nonneg ht ht) h1
  have ht26 : t < 2 ^ 26 := by nlinarith
  set x := Real.sqrt k with hx
  have hxx : x * x = k := Real.mul_self_sqrt hk0
  have hx0 : 0 ≤ x := Real.sqrt_nonneg _
  have htr : (0 : ℝ) ≤ t := by exact_mod_cast ht
  have h1r : (t : ℝ) * t ≤ k := by exact_mod_cast h1
  have h2r : (k : ℝ) + 1 ≤ (t + 1) * (t + 1) := by exact_mod_cast h2
  have ht26r : (t : ℝ) + 1 ≤ 2 ^ 26 := by exact_mod_cast ht26
  have htx : (t : ℝ) ≤ x := by nlinarith
  have hxt : x < t + 1 := by nlinarith
  have hlo := hd.2 t (isDouble_int t (by rw [abs_of_nonneg ht]; omega))
  rw [abs_of_nonpos (show (t : ℝ) - x ≤ 0 by linarith)] at hlo
  have hdlo : (t : ℝ) ≤ d := by linarith [(abs_le.mp hlo).1]
  have hdhi : (d : ℝ) < t + 1 := by
    set n := ⌊x * 2 ^ 26⌋ with hn
    have hn1 : (n : ℝ) ≤ x * 2 ^ 26 := Int.floor_le _
    have hn2 : x * 2 ^ 26 < n + 1 := Int.lt_floor_add_one _
    have hn0 : 0 ≤ n := Int.floor_nonneg.mpr (by positivity)
    have hnb : n < 2 ^ 52 := by
      have : (n : ℝ) < 2 ^ 52 := by nlinarith
      exact_mod_cast this
    have a1 := hd.2 _ (isDouble_frac n (by rw [abs_of_nonneg hn0]; omega))
    have a2 := hd.2 _ (isDouble_frac (n + 1) (by rw [abs_of_nonneg (by omega)]; omega))
    have e1 : (n : ℝ) / 2 ^ 26 ≤ x := by rw [div_le_iff₀ (by positivity)]; exact hn1
    have e2 : x ≤ ((n + 1 : Int) : ℝ) / 2 ^ 26 := by rw [le_div_iff₀ (by positivity)]; push_cast; exact hn2.le
    rw [abs_of_nonpos (show (n : ℝ) / 2 ^ 26 - x ≤ 0 by linarith)] at a1
    rw [abs_of_nonneg (show 0 ≤ ((n + 1 : Int) : ℝ) / 2 ^ 26 - x by linarith)] at a2
    have hgap : |(d : ℝ) - x| ≤ 1 / 2 ^ 27 := by
      have : ((n + 1 : Int) : ℝ) / 2 ^ 26 - (n : ℝ) / 2 ^ 26 = 1 / 2 ^ 26 := by push_cast; ring
      have : (1 : ℝ) / 2 ^ 26 = 2 * (1 / 2 ^ 27) := by norm_num
      linarith
    have hu := (abs_le.mp hgap).2
    have hfar : 1 / 2 ^ 27 < (t : ℝ) + 1 - x := by
      have p : (1 : ℝ) ≤ (t + 1 - x) * (t + 1 + x) := by nlinarith
      have q : (t : ℝ) + 1 + x < 2 ^ 27 := by linarith
      rw [div_lt_iff₀ (by positivity)]
      have : 0 < (t : ℝ) + 1 - x := by linarith
      nlinarith
    linarith
  rw [Int.floor_eq_iff]
  constructor
  · exact_mod_cast hdlo
  · exact_mod_cast hdhi

open Gauche.Spec in
theorem floor_pos (k : Int) (d : ℚ) (hk : 1 ≤ k) (hd : NearestDouble d (Real.sqrt k)) : 0 < ⌊d⌋ := by
  have hx : (1 : ℝ) ≤ Real.sqrt k := Real.one_le_sqrt.mpr (by exact_mod_cast hk)
  have hlo := hd.2 (1 : Int) (isDouble_int 1 (by norm_num))
  rw [abs_of_nonpos (show ((1 : Int) : ℝ) - Real.sqrt k ≤ 0 by push_cast; linarith)] at hlo
  have : (1 : ℝ) ≤ d := by have := (abs_le.mp hlo).1; push_cast at this; linarith
  have : (1 : ℚ) ≤ d := by exact_mod_cast this
  rw [Int.floor_pos]; exact this

/- ### expt-mod -/

theorem fmod_modEq (a m : Int) : Int.fmod a m ≡ a [ZMOD m] := by
  have := Int.fmod_add_mul_fdiv a m
  rw [Int.modEq_iff_dvd]
  exact ⟨a.fdiv m, by linarith⟩

theorem fmod_congr {a b m : Int} (h : a ≡ b [ZMOD m]) : Int.fmod a m = Int.fmod b m := by
  rw [Int.fmod_eq_emod, Int.fmod_eq_emod]
  have h' : a % m = b % m := h
  rw [h']
  have : m ∣ a ↔ m ∣ b := by rw [Int.dvd_iff_emod_eq_zero, Int.dvd_iff_emod_eq_zero, h']
  simp [this]

theorem bit_step (e j : Nat) : e / 2 ^ j = 2 * (e / 2 ^ (j + 1)) + (if 2 ^ j &&& e = 0 then 0 else 1) := by
  rw [Nat.two_pow_and]
  have h := Nat.testBit_eq_decide_div_mod_eq (x := e) (i := j)
  have : e / 2 ^ (j + 1) = e / 2 ^ j / 2 := by rw [Nat.div_div_eq_div_mul, pow_succ]
  have hp : 2 ^ j ≠ 0 := by positivity
  rw [this, h]
  by_cases hh : e / 2 ^ j % 2 = 1
  · simp [hh]; omega
  · simp [hh]; omega

theorem exptModLoop_spec (n : Int) (e : Nat) (m : Int) : ∀ (j : Nat) (r : Int),
    r ≡ n ^ (e / 2 ^ (j + 1)) [ZMOD m] → exptModLoop n e m (2 ^ j) r = Int.fmod (n ^ e) m := by
  intro j
  induction j with
  | zero =>
    intro r hr
    have hb := bit_step e 0
    rw [pow_zero] at hb
    unfold exptModLoop
    rw [if_neg (by norm_num), pow_zero]
    by_cases h : 1 &&& e = 0
    · rw [if_pos h]
      unfold exptModLoop; rw [if_pos (by norm_num)]
      rw [if_pos h] at hb
      apply fmod_congr
      have : n ^ e = n ^ (e / 2 ^ (0 + 1)) * n ^ (e / 2 ^ (0 + 1)) := by
        rw [← pow_add]; congr 1; omega
      rw [this]; exact hr.mul hr
    · rw [if_neg h]
      unfold exptModLoop; rw [if_pos (by norm_num)]
      rw [if_neg h] at hb
      apply fmod_congr
      have : n ^ e = n ^ (e / 2 ^ (0 + 1)) * n ^ (e / 2 ^ (0 + 1)) * n := by
        rw [← pow_add, ← pow_succ]; congr 1; omega
      rw [this]; exact ((fmod_modEq _ _).trans (hr.mul hr)).mul_right _
  | succ j ih =>
    intro r hr
    have hb := bit_step e (j + 1)
    unfold exptModLoop
    rw [if_neg (by positivity)]
    have hdiv : 2 ^ (j + 1) / 2 = 2 ^ j := by rw [pow_succ]; omega
    rw [hdiv]
    by_cases h : 2 ^ (j + 1) &&& e = 0
    · rw [if_pos h]
      rw [if_pos h] at hb
      apply ih
      rw [hb, add_zero, Nat.mul_comm, pow_mul, pow_two]
      exact (fmod_modEq _ _).trans (hr.mul hr)
    · rw [if_neg h]
      rw [if_neg h] at hb
      apply ih
      rw [hb, pow_succ, Nat.mul_comm, pow_mul, pow_two]
      exact (fmod_modEq _ _).trans (((fmod_modEq _ _).trans (hr.mul hr)).mul_right _)

theorem exptMod_spec (n : Int) (e : Nat) (m : Int) (hm : m ≠ 0) : exptMod n e m = some (Int.fmod (n ^ e) m) := by
  unfold exptMod; rw [if_neg hm]
  by_cases h : integerLength n * e < 62
  · rw [if_pos h]
  · rw [if_neg h]
    have he : e ≠ 0 := by rintro rfl; simp at h
    have hs : 0 < Nat.size e := Nat.size_pos.mpr (by omega)
    congr 1
    apply exptModLoop_spec
    have : e / 2 ^ (Nat.size e - 1 + 1) = 0 := by
      rw [show Nat.size e - 1 + 1 = Nat.size e by omega]
      exact Nat.div_eq_of_lt (Nat.lt_size_self e)
    rw [this, pow_zero]

/- ### inverse-mod -/

theorem xgcd_sound (q m r0 r1 s0 s1 : Int) (h0 : q * s0 ≡ r0 [ZMOD m]) (h1 : q * s1 ≡ r1 [ZMOD m]) :
    q * (xgcd r0 r1 s0 s1).2 ≡ (xgcd r0 r1 s0 s1).1 [ZMOD m] := by
  fun_induction xgcd r0 r1 s0 s1 with
  | case1 => exact h0
  | case2 r0 r1 s0 s1 h q' ih =>
    apply ih h1
    have := h0.sub (h1.mul_left q')
    convert this using 1; ring

theorem xgcd_gcd (r0 r1 s0 s1 : Int) (h0 : 0 ≤ r0) (h1 : 0 ≤ r1) : (xgcd r0 r1 s0 s1).1 = Int.gcd r0 r1 := by
  fun_induction xgcd r0 r1 s0 s1 with
  | case1 r0 r1 s0 s1 h =>
    rcases h with h | h
    · subst h; simp [abs_of_nonneg h0]
    · subst h; simp
  | case2 r0 r1 s0 s1 h q' ih =>
    have e : r0 - q' * r1 = r0.tmod r1 := by
      have := Int.tmod_add_mul_tdiv r0 r1; rw [Int.mul_comm] at this; show r0 - r0.tdiv r1 * r1 = _; omega
    rw [ih h1 (by rw [e]; exact Int.tmod_nonneg _ h0), e]
    have : r0.tmod r1 = r0 % r1 := Int.tmod_eq_emod_of_nonneg h0
    rw [this, Int.gcd_comm, Int.gcd_emod]

end Gauche.NumUtil

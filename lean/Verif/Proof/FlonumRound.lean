import Verif.Model.Flonum
import Mathlib.Tactic.Linarith
import Mathlib.Tactic.Ring
import Mathlib.Tactic.NormNum
import Mathlib.Tactic.FieldSimp
import Mathlib.Tactic.Positivity
import Mathlib.Algebra.Order.Floor.Ring
/-
Rounding to 53 bits: a local description, uniqueness, order.
-/
namespace Gauche.Flonum
open Gauche.Spec

/-- As `FinDbl` without the bound on the exponent. -/
def CanonU (m : Nat) (k : Int) : Prop := m < 2 ^ 53 ∧ -1074 ≤ k ∧ (2 ^ 52 ≤ m ∨ k = -1074)

/-- The distance to the next lower number. -/
def low (m : Nat) (k : Int) : ℚ := if m = 2 ^ 52 ∧ -1074 < k then 2 ^ k / 2 else 2 ^ k

/-- `x` rounds to `m * 2^k` when exponents are not bounded. -/
def RU (x : ℚ) (m : Nat) (k : Int) : Prop := CanonU m k ∧
  (x < dval m k + 2 ^ k / 2 ∨ (x = dval m k + 2 ^ k / 2 ∧ m % 2 = 0)) ∧
  (dval m k - low m k / 2 < x ∨ (x = dval m k - low m k / 2 ∧ m % 2 = 0))

/-- The order of the numbers. -/
def Below (m : Nat) (k : Int) (m' : Nat) (k' : Int) : Prop := k < k' ∨ (k = k' ∧ m < m')

theorem canonU_of {m : Nat} {k : Int} (h : FinDbl m k) : CanonU m k := ⟨h.1, h.2.1, h.2.2.2⟩

theorem two_pos (k : Int) : (0 : ℚ) < 2 ^ k := by positivity

theorem low_pos (m : Nat) (k : Int) : 0 < low m k := by
  unfold low; have := two_pos k; split <;> linarith

theorem low_le (m : Nat) (k : Int) : low m k ≤ 2 ^ k := by
  unfold low; have := two_pos k; split <;> linarith

theorem two_lt {k k' : Int} (h : k < k') : 2 * (2 : ℚ) ^ k ≤ 2 ^ k' := by
  have h1 : (2 : ℚ) ^ (k + 1) ≤ 2 ^ k' := zpow_le_zpow_right₀ (by norm_num) (by omega)
  have h2 : (2 : ℚ) ^ (k + 1) = 2 * 2 ^ k := by rw [zpow_add₀ (by norm_num)]; ring
  linarith

theorem gap_up {m m' : Nat} {k k' : Int} (h : CanonU m k) (h' : CanonU m' k') (hb : Below m k m' k') :
    dval m k + 2 ^ k ≤ dval m' k' := by
  unfold dval
  have hu := two_pos k
  rcases hb with hk | ⟨rfl, hm⟩
  · have hw := two_lt hk
    obtain ⟨a1, a2, a3⟩ := h
    obtain ⟨b1, b2, b3⟩ := h'
    have hm' : 2 ^ 52 ≤ m' := by rcases b3 with b3 | b3; exact b3; omega
    have e1 : (m : ℚ) + 1 ≤ 2 ^ 53 := by exact_mod_cast a1
    have e2 : (2 : ℚ) ^ 52 ≤ m' := by exact_mod_cast hm'
    have e3 : (2 : ℚ) ^ 52 * 2 ^ k' ≤ m' * 2 ^ k' := mul_le_mul_of_nonneg_right e2 (two_pos k').le
    nlinarith
  · have e1 : (m : ℚ) + 1 ≤ m' := by exact_mod_cast hm
    nlinarith

theorem gap_down {m m' : Nat} {k k' : Int} (h : CanonU m k) (h' : CanonU m' k') (hb : Below m k m' k') :
    dval m k ≤ dval m' k' - low m' k' := by
  unfold dval
  have hu := two_pos k
  have hu' := two_pos k'
  rcases hb with hk | ⟨rfl, hm⟩
  · have hw := two_lt hk
    obtain ⟨a1, a2, a3⟩ := h
    obtain ⟨b1, b2, b3⟩ := h'
    have hm' : 2 ^ 52 ≤ m' := by rcases b3 with b3 | b3; exact b3; omega
    have e1 : (m : ℚ) + 1 ≤ 2 ^ 53 := by exact_mod_cast a1
    have e0 : (0 : ℚ) ≤ m := by positivity
    have e4 : (m : ℚ) * 2 ^ k ≤ (2 ^ 53 - 1) * (2 ^ k' / 2) := by
      have : (m : ℚ) * 2 ^ k ≤ (2 ^ 53 - 1) * 2 ^ k := mul_le_mul_of_nonneg_right (by linarith) hu.le
      nlinarith
    unfold low
    by_cases hc : m' = 2 ^ 52 ∧ -1074 < k'
    · rw [if_pos hc, hc.1]
      push_cast
      nlinarith
    · rw [if_neg hc]
      have : 2 ^ 52 + 1 ≤ m' := by
        have : m' ≠ 2 ^ 52 := fun hh => hc ⟨hh, by omega⟩
        omega
      have e2 : (2 : ℚ) ^ 52 + 1 ≤ m' := by exact_mod_cast this
      nlinarith
  · have e1 : (m : ℚ) + 1 ≤ m' := by exact_mod_cast hm
    have := low_le m' k
    nlinarith

theorem below_trichotomy (m m' : Nat) (k k' : Int) : Below m k m' k' ∨ (m, k) = (m', k') ∨ Below m' k' m k := by
  unfold Below
  rcases lt_trichotomy k k' with h | h | h
  · exact Or.inl (Or.inl h)
  · rcases lt_trichotomy m m' with g | g | g
    · exact Or.inl (Or.inr ⟨h, g⟩)
    · exact Or.inr (Or.inl (by rw [h, g]))
    · exact Or.inr (Or.inr (Or.inr ⟨h.symm, g⟩))
  · exact Or.inr (Or.inr (Or.inl h))

theorem two_971 : (2 : ℚ) ^ (971 : Int) = 2 * 2 ^ 970 := by
  rw [show (971 : Int) = ((970 + 1 : Nat) : Int) from rfl, zpow_natCast, pow_succ]; exact mul_comm _ _
theorem two_972 : (2 : ℚ) ^ (972 : Int) = 4 * 2 ^ 970 := by
  rw [show (972 : Int) = ((970 + 2 : Nat) : Int) from rfl, zpow_natCast, pow_add]
  generalize (2 : ℚ) ^ (970 : Nat) = P
  ring

/-- A local description suffices. -/
theorem rounds_of {x : ℚ} {m : Nat} {k : Int} (h : RU x m k) (hk : k ≤ 971) : Rounds x (.fin m k) := by
  obtain ⟨hc, hup, hdn⟩ := h
  refine ⟨⟨hc.1, hc.2.1, hk, hc.2.2⟩, ?_, ?_⟩
  · have hu : (2 : ℚ) ^ k ≤ 2 ^ (971 : Int) := zpow_le_zpow_right₀ (by norm_num) hk
    rw [two_971] at hu
    generalize (2 : ℚ) ^ (970 : Nat) = P at hu ⊢
    have e1 : (m : ℚ) + 1 ≤ 2 ^ 53 := by exact_mod_cast hc.1
    have hp := two_pos k
    unfold dval at hup
    have hm0 : (0 : ℚ) ≤ m := by positivity
    rcases hup with h | ⟨h, he⟩
    · have : (m : ℚ) * 2 ^ k + 2 ^ k / 2 ≤ (2 ^ 53 - 1 + 1 / 2) * 2 ^ k := by nlinarith
      nlinarith
    · have : m + 2 ≤ 2 ^ 53 := by have := hc.1; omega
      have e2 : (m : ℚ) + 2 ≤ 2 ^ 53 := by exact_mod_cast this
      nlinarith
  · intro m' k' hf hne
    have hc' := canonU_of hf
    rcases below_trichotomy m m' k k' with hb | hb | hb
    · have g := gap_up hc hc' hb
      have hp := two_pos k
      have hpos : x - dval m' k' ≤ 0 := by
        rcases hup with h | ⟨h, _⟩ <;> linarith
      rw [abs_of_nonpos hpos]
      have hl := low_pos m k
      rcases hup with h | ⟨h, he⟩
      · refine Or.inl (abs_lt.2 ⟨?_, ?_⟩)
        · have hl' := low_le m k
          rcases hdn with hd | ⟨hd, _⟩ <;> linarith
        · linarith
      · have hx : 0 ≤ x - dval m k := by linarith
        rw [abs_of_nonneg hx]
        rcases lt_or_eq_of_le (show x - dval m k ≤ -(x - dval m' k') by linarith) with h1 | h1
        · exact Or.inl h1
        · exact Or.inr ⟨h1, he⟩
    · exact absurd hb.symm hne
    · have g := gap_down hc' hc hb
      have hl := low_pos m k
      have hpos : 0 ≤ x - dval m' k' := by
        rcases hdn with h | ⟨h, _⟩ <;> linarith
      rw [abs_of_nonneg hpos]
      have hg := gap_up hc' hc hb
      rcases hdn with h | ⟨h, he⟩
      · by_cases hx : 0 ≤ x - dval m k
        · rw [abs_of_nonneg hx]; left; linarith [low_pos m k]
        · rw [abs_of_neg (not_le.1 hx)]; left; linarith
      · have hx : x - dval m k ≤ 0 := by linarith
        rw [abs_of_nonpos hx]
        rcases lt_or_eq_of_le (show -(x - dval m k) ≤ x - dval m' k' by linarith) with h1 | h1
        · exact Or.inl h1
        · exact Or.inr ⟨h1, he⟩

/-- Overflow. -/
theorem rounds_inf {x : ℚ} {m : Nat} {k : Int} (h : RU x m k) (hk : 971 < k) : Rounds x .inf := by
  obtain ⟨hc, -, hdn⟩ := h
  show (2 ^ 54 - 1) * 2 ^ 970 ≤ x
  have hm : 2 ^ 52 ≤ m := by rcases hc.2.2 with h | h; exact h; omega
  have hu : (2 : ℚ) ^ (972 : Int) ≤ 2 ^ k := zpow_le_zpow_right₀ (by norm_num) (by omega)
  rw [two_972] at hu
  generalize (2 : ℚ) ^ (970 : Nat) = P at hu ⊢
  have e1 : (2 : ℚ) ^ 52 ≤ m := by exact_mod_cast hm
  have hp := two_pos k
  have key : (2 ^ 54 - 1) * P ≤ dval m k - low m k / 2 := by
    unfold dval low
    by_cases hc : m = 2 ^ 52 ∧ -1074 < k
    · rw [if_pos hc, hc.1]; push_cast; nlinarith
    · rw [if_neg hc]
      have : 2 ^ 52 + 1 ≤ m := by
        have : m ≠ 2 ^ 52 := fun hh => hc ⟨hh, by omega⟩
        omega
      have e2 : (2 : ℚ) ^ 52 + 1 ≤ m := by exact_mod_cast this
      nlinarith
  rcases hdn with h | ⟨h, _⟩ <;> linarith

theorem rounds_clip {x : ℚ} {m : Nat} {k : Int} (h : RU x m k) : Rounds x (clip m k) := by
  unfold clip
  by_cases hk : 971 < k
  · rw [if_pos hk]; exact rounds_inf h hk
  · rw [if_neg hk]; exact rounds_of h (by omega)

/-- The number after `m * 2^k`. -/
def succD (m : Nat) (k : Int) : Nat × Int := if m + 1 = 2 ^ 53 then (2 ^ 52, k + 1) else (m + 1, k)

theorem succD_spec {m : Nat} {k : Int} (h : CanonU m k) : CanonU (succD m k).1 (succD m k).2 ∧ Below m k (succD m k).1 (succD m k).2 ∧
    dval (succD m k).1 (succD m k).2 = dval m k + 2 ^ k ∧ (m % 2 = 0 → (succD m k).1 % 2 = 1) := by
  unfold succD dval
  obtain ⟨a1, a2, a3⟩ := h
  by_cases hc : m + 1 = 2 ^ 53
  · rw [if_pos hc]
    refine ⟨⟨by norm_num, by simp; omega, Or.inl (by simp)⟩, Or.inl (by simp), ?_, fun h => by omega⟩
    have hm : (m : ℚ) = 2 ^ 53 - 1 := by
      have : (m : ℚ) + 1 = 2 ^ 53 := by exact_mod_cast hc
      linarith
    simp only []
    rw [zpow_add₀ (by norm_num), hm]; push_cast; ring
  · rw [if_neg hc]
    refine ⟨⟨by simp; omega, a2, by simp; omega⟩, Or.inr ⟨rfl, by simp⟩, ?_, fun h => by simp; omega⟩
    simp only []
    push_cast; ring

/-- The local description has one solution. -/
theorem RU_unique {x : ℚ} {m m' : Nat} {k k' : Int} (h : RU x m k) (h' : RU x m' k') : (m, k) = (m', k') := by
  have key : ∀ {m m' : Nat} {k k' : Int}, RU x m k → RU x m' k' → Below m k m' k' → False := by
    intro m m' k k' h h' hb
    obtain ⟨s1, s2, s3, s4⟩ := succD_spec h.1
    have g := gap_down h.1 h'.1 hb
    have g' := gap_up h.1 h'.1 hb
    have hl := low_pos m' k'
    have hp := two_pos k
    have hup : x ≤ dval m k + 2 ^ k / 2 := by rcases h.2.1 with a | ⟨a, _⟩ <;> linarith
    have hdn : dval m' k' - low m' k' / 2 ≤ x := by rcases h'.2.2 with a | ⟨a, _⟩ <;> linarith
    have hx : x = dval m k + 2 ^ k / 2 := by linarith
    have hx' : x = dval m' k' - low m' k' / 2 := by linarith
    have he : m % 2 = 0 := by
      rcases h.2.1 with a | ⟨_, a⟩
      · linarith
      · exact a
    have he' : m' % 2 = 0 := by
      rcases h'.2.2 with a | ⟨_, a⟩
      · linarith
      · exact a
    rcases below_trichotomy (succD m k).1 m' (succD m k).2 k' with hb' | hb' | hb'
    · have g2 := gap_down s1 h'.1 hb'
      linarith
    · have := s4 he
      have e : (succD m k).1 = m' := congrArg Prod.fst hb'
      omega
    · have g2 := gap_up h'.1 s1 hb'
      have := two_pos k'
      linarith
  rcases below_trichotomy m m' k k' with hb | hb | hb
  · exact (key h h' hb).elim
  · exact hb
  · exact (key h' h hb).elim

/-- A number above `x` which `x` does not round to is above the rounded `x`. -/
theorem RU_below {x : ℚ} {m M : Nat} {k K : Int} (hT : RU x M K) (hc : CanonU m k) (hx : x < dval m k) (hn : (M, K) ≠ (m, k)) :
    Below M K m k := by
  rcases below_trichotomy M m K k with hb | hb | hb
  · exact hb
  · exact absurd hb hn
  · exfalso
    have g := gap_down hc hT.1 hb
    have hl := low_pos M K
    rcases hT.2.2 with h | ⟨h, _⟩ <;> linarith

/-- A number below `x` which `x` does not round to is below the rounded `x`. -/
theorem RU_above {x : ℚ} {m M : Nat} {k K : Int} (hT : RU x M K) (hc : CanonU m k) (hx : dval m k < x) (hn : (M, K) ≠ (m, k)) :
    Below m k M K := by
  rcases below_trichotomy m M k K with hb | hb | hb
  · exact hb
  · exact absurd hb.symm hn
  · exfalso
    have g := gap_up hT.1 hc hb
    have := two_pos K
    rcases hT.2.1 with h | ⟨h, _⟩ <;> linarith

/-- The result of rounding is unique. -/
theorem rounds_fin_RU {x : ℚ} {m : Nat} {k : Int} (hx : 0 ≤ x) (h : Rounds x (.fin m k)) {M : Nat} {K : Int} (hT : RU x M K) :
    (m, k) = (M, K) := by
  have hK : K ≤ 971 := by
    refine Classical.byContradiction fun hc => ?_
    have h1 : (2 ^ 54 - 1) * 2 ^ 970 ≤ x := rounds_inf hT (by omega)
    have h2 := h.2.1
    linarith
  obtain ⟨f1, f2, f3⟩ := rounds_of hT hK
  obtain ⟨g1, g2, g3⟩ := h
  refine Classical.byContradiction fun hne => ?_
  have a := f3 m k g1 hne
  have b := g3 M K f1 (fun hh => hne hh.symm)
  -- both are as close and even: then the local description holds for both
  have heq : |x - dval m k| = |x - dval M K| ∧ m % 2 = 0 := by
    rcases a with a | ⟨a, a'⟩
    · rcases b with b | ⟨b, b'⟩
      · linarith
      · linarith
    · rcases b with b | ⟨b, b'⟩
      · linarith
      · exact ⟨b, b'⟩
  have hM : M % 2 = 0 := by
    rcases a with a | ⟨_, a⟩
    · linarith [heq.1]
    · exact a
  rcases below_trichotomy m M k K with hb | hb | hb
  · obtain ⟨s1, s2, s3, s4⟩ := succD_spec (canonU_of g1)
    have g := gap_down (canonU_of g1) hT.1 hb
    have gu := gap_up (canonU_of g1) hT.1 hb
    have hp := two_pos k
    have hd : dval M K - low M K / 2 ≤ x := by rcases hT.2.2 with a | ⟨a, _⟩ <;> linarith
    have hl := low_pos M K
    have hxm : 0 < x - dval m k := by linarith
    rw [abs_of_pos hxm] at heq
    have hxM : x - dval M K < 0 := by
      refine Classical.byContradiction fun hh => ?_
      rw [abs_of_nonneg (not_lt.1 hh)] at heq
      linarith [heq.1]
    rw [abs_of_neg hxM] at heq
    have hx1 : x = dval M K - low M K / 2 := by linarith [heq.1]
    have hx2 : dval m k = dval M K - low M K := by linarith [heq.1]
    rcases below_trichotomy (succD m k).1 M (succD m k).2 K with hb' | hb' | hb'
    · have g2 := gap_down s1 hT.1 hb'
      linarith
    · have := s4 heq.2
      have e : (succD m k).1 = M := congrArg Prod.fst hb'
      omega
    · have g2 := gap_up hT.1 s1 hb'
      have := two_pos K
      linarith
  · exact hne hb
  · obtain ⟨s1, s2, s3, s4⟩ := succD_spec hT.1
    have g := gap_up hT.1 (canonU_of g1) hb
    have hp := two_pos K
    have hd : x ≤ dval M K + 2 ^ K / 2 := by rcases hT.2.1 with a | ⟨a, _⟩ <;> linarith
    have hxm : x - dval m k < 0 := by linarith
    rw [abs_of_neg hxm] at heq
    have hxM : 0 < x - dval M K := by
      refine Classical.byContradiction fun hh => ?_
      rw [abs_of_nonpos (not_lt.1 hh)] at heq
      linarith [heq.1]
    rw [abs_of_pos hxM] at heq
    have hx2 : dval m k = dval M K + 2 ^ K := by linarith [heq.1]
    rcases below_trichotomy (succD M K).1 m (succD M K).2 k with hb' | hb' | hb'
    · have g2 := gap_up s1 (canonU_of g1) hb'
      have := two_pos (succD M K).2
      linarith
    · have := s4 hM
      have e : (succD M K).1 = m := congrArg Prod.fst hb'
      have := heq.2
      omega
    · have g2 := gap_up (canonU_of g1) s1 hb'
      have := two_pos k
      linarith

end Gauche.Flonum

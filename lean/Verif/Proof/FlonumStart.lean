import Verif.Proof.FlonumConv
/-
The first approximation is monotone; for the decimals that the printer produces it is finite and not zero.
-/
namespace Gauche.Flonum
open Gauche.Spec

/-- The order of magnitudes. -/
def DLe : Dbl → Dbl → Prop
  | _, .inf => True
  | .inf, .fin _ _ => False
  | .fin m k, .fin m' k' => dval m k ≤ dval m' k'

theorem RU_mono {x y : ℚ} {m m' : Nat} {k k' : Int} (hxy : x ≤ y) (h : RU x m k) (h' : RU y m' k') : dval m k ≤ dval m' k' := by
  rcases below_trichotomy m m' k k' with hb | hb | hb
  · have := gap_up h.1 h'.1 hb; have := two_pos k; linarith
  · injection hb with h1 h2; rw [h1, h2]
  · exfalso
    have g1 := gap_up h'.1 h.1 hb
    have g2 := gap_down h'.1 h.1 hb
    have hup : y ≤ dval m' k' + 2 ^ k' / 2 := by rcases h'.2.1 with a | ⟨a, _⟩ <;> linarith
    have hdn : dval m k - low m k / 2 ≤ x := by rcases h.2.2 with a | ⟨a, _⟩ <;> linarith
    have hp := two_pos k'
    have hl := low_pos m k
    have hx : x = y := by linarith
    rw [hx] at h
    have := RU_unique h h'
    injection this with h1 h2
    rw [h1, h2] at g1
    linarith

theorem rounds_mono {x y : ℚ} (hx : 0 ≤ x) (hxy : x ≤ y) {d d' : Dbl} (h : Rounds x d) (h' : Rounds y d') : DLe d d' := by
  cases d' with
  | inf => cases d <;> trivial
  | fin m' k' =>
    have hy' := h'.2.1
    cases d with
    | inf =>
      have h1 : (2 ^ 54 - 1) * 2 ^ 970 ≤ x := h
      exact absurd h1 (not_le.2 (lt_of_le_of_lt hxy hy'))
    | fin m k =>
      obtain ⟨M, K, hT⟩ := RU_exists x hx
      obtain ⟨M', K', hT'⟩ := RU_exists y (le_trans hx hxy)
      have a := rounds_fin_RU hx h hT
      have b := rounds_fin_RU (le_trans hx hxy) h' hT'
      injection a with a1 a2
      injection b with b1 b2
      show dval m k ≤ dval m' k'
      rw [a1, a2, b1, b2]
      exact RU_mono hxy hT hT'

theorem dval_nonneg (m : Nat) (k : Int) : 0 ≤ dval m k := by unfold dval; positivity

theorem fmul_mono (p : Nat) {d d' : Dbl} (h : DLe d d') : DLe (fmul p d) (fmul p d') := by
  cases d' with
  | inf => trivial
  | fin m' k' =>
    cases d with
    | inf => exact h.elim
    | fin m k =>
      have h1 : dval m k ≤ dval m' k' := h
      have hp : (0 : ℚ) ≤ p := by positivity
      exact rounds_mono (mul_nonneg (dval_nonneg m k) hp) (mul_le_mul_of_nonneg_right h1 hp) (fmul_spec p m k) (fmul_spec p m' k')

theorem fdiv_mono {p : Nat} (hp : 0 < p) {d d' : Dbl} (h : DLe d d') : DLe (fdiv p d) (fdiv p d') := by
  cases d' with
  | inf => trivial
  | fin m' k' =>
    cases d with
    | inf => exact h.elim
    | fin m k =>
      have h1 : dval m k ≤ dval m' k' := h
      have hp' : (0 : ℚ) < p := by exact_mod_cast hp
      exact rounds_mono (div_nonneg (dval_nonneg m k) hp'.le) ((div_le_div_iff_of_pos_right hp').2 h1) (fdiv_spec hp m k)
        (fdiv_spec hp m' k')

theorem raise_mono (n : Int) {d d' : Dbl} (h : DLe d d') : DLe (raisePow10 d n) (raisePow10 d' n) := by
  have hm : ∀ (f n : Nat) (d d' : Dbl), DLe d d' → DLe (raiseMul f d n) (raiseMul f d' n) := by
    intro f
    induction f with
    | zero => intro n d d' h; exact fmul_mono _ h
    | succ f ih =>
      intro n d d' h
      unfold raiseMul
      by_cases hn : n > 22
      · rw [if_pos hn, if_pos hn]; exact ih _ _ _ (fmul_mono _ h)
      · rw [if_neg hn, if_neg hn]; exact fmul_mono _ h
  have hd : ∀ (f n : Nat) (d d' : Dbl), DLe d d' → DLe (raiseDiv f d n) (raiseDiv f d' n) := by
    intro f
    induction f with
    | zero => intro n d d' h; exact fdiv_mono (Nat.pow_pos (by norm_num)) h
    | succ f ih =>
      intro n d d' h
      unfold raiseDiv
      by_cases hn : n > 22
      · rw [if_pos hn, if_pos hn]; exact ih _ _ _ (fdiv_mono (Nat.pow_pos (by norm_num)) h)
      · rw [if_neg hn, if_neg hn]; exact fdiv_mono (Nat.pow_pos (by norm_num)) h
  unfold raisePow10
  split
  · exact hm _ _ _ _ h
  · exact hd _ _ _ _ h

theorem intToDouble_mono {a b : Nat} (h : a ≤ b) : DLe (intToDouble a) (intToDouble b) :=
  rounds_mono (by positivity) (by exact_mod_cast h) (intToDouble_spec a) (intToDouble_spec b)

theorem fin_of_le {d d' : Dbl} (h : DLe d d') (hd : d' ≠ .inf) : d ≠ .inf := by
  rintro rfl
  cases d' with
  | inf => exact hd rfl
  | fin m k => exact h

/-- Not zero. -/
def NZ : Dbl → Bool
  | .inf => true
  | .fin m _ => decide (0 < m)

theorem nz_of_le {d d' : Dbl} (h : DLe d d') (hd : NZ d = true) : NZ d' = true := by
  cases d' with
  | inf => rfl
  | fin m' k' =>
    cases d with
    | inf => exact h.elim
    | fin m k =>
      have h1 : dval m k ≤ dval m' k' := h
      have hm : 0 < m := of_decide_eq_true hd
      refine decide_eq_true ?_
      rcases Nat.eq_zero_or_pos m' with h0 | h0
      · exfalso
        rw [h0] at h1
        unfold dval at h1
        have : (0 : ℚ) < m := by exact_mod_cast hm
        have := mul_pos this (two_pos k)
        push_cast at h1
        linarith
      · exact h0

/-! ### tables -/

/-- The decimal that the printer gives for the greatest double. -/
def decMax : Nat := 17976931348623157 * 10 ^ 292

theorem table_18 : ∀ rf : Nat, rf < 291 → raisePow10 (intToDouble (10 ^ 18)) rf ≠ .inf := by decide +kernel
theorem table_max : ∀ j : Nat, j < 18 → raisePow10 (intToDouble (decMax / 10 ^ (j + 291))) ((j + 291 : Nat) : Int) ≠ .inf := by decide +kernel

/-- The least integer at or above `5 * 10^(j - 324)`. -/
def leastF (j : Nat) : Nat := if j < 324 then 1 else 5 * 10 ^ (j - 324)

theorem table_min : ∀ j : Nat, j < 345 → NZ (raisePow10 (intToDouble (leastF j)) (-(j : Int))) = true := by decide +kernel
theorem table_div : ∀ j : Nat, j < 345 → raisePow10 (intToDouble (10 ^ 18)) (-(j : Int)) ≠ .inf := by decide +kernel

theorem start_finite {f : Nat} {rf : Int} (hf0 : 0 < f) (hf : f ≤ 10 ^ 18) (hlo : -344 ≤ rf) (hhi : rf ≤ 308)
    (hmin : 5 * 10 ^ (-324 : Int) ≤ target f rf) (hmax : target f rf ≤ (decMax : ℚ)) :
    ∃ m k, startOf f rf = .fin m k ∧ 0 < m ∧ FinDbl m k := by
  have h18 : intToDouble (10 ^ 18) ≠ .inf := by decide +kernel
  have hfin : intToDouble f ≠ .inf := fin_of_le (intToDouble_mono hf) h18
  unfold startOf
  rw [if_neg hfin]
  have hninf : raisePow10 (intToDouble f) rf ≠ .inf := by
    by_cases h0 : 0 ≤ rf
    · by_cases h291 : rf < 291
      · have := table_18 rf.toNat (by omega)
        rw [show ((rf.toNat : Nat) : Int) = rf by omega] at this
        exact fin_of_le (raise_mono rf (intToDouble_mono hf)) this
      · have := table_max (rf.toNat - 291) (by omega)
        rw [show rf.toNat - 291 + 291 = rf.toNat by omega, show ((rf.toNat : Nat) : Int) = rf by omega] at this
        refine fin_of_le (raise_mono rf (intToDouble_mono ?_)) this
        rw [Nat.le_div_iff_mul_le (Nat.pow_pos (by norm_num))]
        unfold target at hmax
        rw [← toNat_zpow _ h0] at hmax
        exact_mod_cast hmax
    · have := table_div (-rf).toNat (by omega)
      rw [show -(((-rf).toNat : Nat) : Int) = rf by omega] at this
      exact fin_of_le (raise_mono rf (intToDouble_mono hf)) this
  have hnz : NZ (raisePow10 (intToDouble f) rf) = true := by
    by_cases h0 : 0 ≤ rf
    · -- the table at 1
      have h1 : NZ (raisePow10 (intToDouble 1) rf) = true := by
        have : ∀ rf : Nat, rf < 309 → NZ (raisePow10 (intToDouble 1) rf) = true := by decide +kernel
        have := this rf.toNat (by omega)
        rwa [show ((rf.toNat : Nat) : Int) = rf by omega] at this
      exact nz_of_le (raise_mono rf (intToDouble_mono hf0)) h1
    · have := table_min (-rf).toNat (by omega)
      rw [show -(((-rf).toNat : Nat) : Int) = rf by omega] at this
      refine nz_of_le (raise_mono rf (intToDouble_mono ?_)) this
      unfold leastF
      by_cases hj : (-rf).toNat < 324
      · rw [if_pos hj]; exact hf0
      · rw [if_neg hj]
        unfold target at hmin
        have e : (10 : ℚ) ^ (-324 : Int) = 10 ^ ((-rf).toNat - 324) * 10 ^ rf := by
          rw [← zpow_natCast, ← zpow_add₀ (by norm_num)]; congr 1; omega
        rw [e, ← mul_assoc] at hmin
        have hp : (0 : ℚ) < 10 ^ rf := by positivity
        have := (mul_le_mul_iff_left₀ hp).1 hmin
        exact_mod_cast this
  cases hr : raisePow10 (intToDouble f) rf with
  | inf => exact absurd hr hninf
  | fin m k =>
    refine ⟨m, k, rfl, ?_, ?_⟩
    · rw [hr] at hnz; exact of_decide_eq_true hnz
    · -- the last operation was a rounding
      have hm : ∀ (f n : Nat) (d : Dbl), ∀ m k, raiseMul f d n = .fin m k → FinDbl m k := by
        intro f
        induction f with
        | zero =>
          intro n d m k h
          cases d with
          | inf => cases h
          | fin m' k' => have := fmul_spec (10 ^ n) m' k'; rw [show fmul (10 ^ n) (.fin m' k') = .fin m k from h] at this; exact this.1
        | succ f ih =>
          intro n d m k h
          unfold raiseMul at h
          by_cases hn : n > 22
          · rw [if_pos hn] at h; exact ih _ _ _ _ h
          · rw [if_neg hn] at h
            cases d with
            | inf => cases h
            | fin m' k' => have := fmul_spec (10 ^ n) m' k'; rw [h] at this; exact this.1
      have hd : ∀ (f n : Nat) (d : Dbl), ∀ m k, raiseDiv f d n = .fin m k → FinDbl m k := by
        intro f
        induction f with
        | zero =>
          intro n d m k h
          cases d with
          | inf => cases h
          | fin m' k' =>
            have := fdiv_spec (p := 10 ^ n) (Nat.pow_pos (by norm_num)) m' k'
            rw [show fdiv (10 ^ n) (.fin m' k') = .fin m k from h] at this; exact this.1
        | succ f ih =>
          intro n d m k h
          unfold raiseDiv at h
          by_cases hn : n > 22
          · rw [if_pos hn] at h; exact ih _ _ _ _ h
          · rw [if_neg hn] at h
            cases d with
            | inf => cases h
            | fin m' k' =>
              have := fdiv_spec (p := 10 ^ n) (Nat.pow_pos (by norm_num)) m' k'
              rw [h] at this; exact this.1
      unfold raisePow10 at hr
      by_cases h0 : 0 ≤ rf
      · rw [if_pos h0] at hr; exact hm _ _ _ _ _ hr
      · rw [if_neg h0] at hr; exact hd _ _ _ _ _ hr

end Gauche.Flonum

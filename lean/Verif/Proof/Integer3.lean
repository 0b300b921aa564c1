import Verif.Proof.Integer2
/-
Shifts, powers and bitwise operations on exact integers.
-/
namespace Gauche.Integer
open Gauche.Bignum

/-! ### shifts -/

theorem bigAshLeft_spec {b : Big} (hb : b.WF) {n : Nat} (hn : n ≠ 0) : (bigAshLeft b n).IsInt (b.toInt * 2 ^ n) := by
  unfold bigAshLeft
  rw [if_neg hn]
  have hl := List.length_pos_iff.mpr hb.ne
  have hsz : n / 64 < b.vals.length + (n + 63) / 64 := by omega
  have hne : lshift (b.vals.length + (n + 63) / 64) b.vals n ≠ [] := by
    apply List.length_pos_iff.mp; rw [lshift_length]; omega
  have h := normalize_spec hb.sign hne (lshift_words hb.words _ n)
  have hlt : val b.vals * 2 ^ n < 18446744073709551616 ^ (b.vals.length + (n + 63) / 64) := by
    have h1 := val_lt hb.words
    rw [pow_add]
    apply Nat.mul_lt_mul_of_lt_of_le h1 _ (by positivity)
    rw [show (18446744073709551616 : Nat) = 2 ^ 64 by norm_num, ← pow_mul]
    exact Nat.pow_le_pow_right (by norm_num) (by omega)
  rw [lshift_val hb.words hb.ne _ _ hsz, Nat.mod_eq_of_lt hlt] at h
  rw [show b.toInt * 2 ^ n = b.sign * ((val b.vals * 2 ^ n : Nat) : Int) by unfold Big.toInt; push_cast; ring]
  exact h

theorem fixAshLeft_spec {a : Int} (ha : FIXMIN ≤ a ∧ a ≤ FIXMAX) {n : Nat} (hn : n < 268435456)
    (hx : ¬ (n = 0 ∧ (a = FIXMAX ∨ a = -FIXMAX ∨ a = FIXMIN))) : ∃ r, fixAshLeft a n = .ok r ∧ r.IsInt (a * 2 ^ n) := by
  unfold fixAshLeft
  rw [if_neg (by omega)]
  by_cases h : n < 61 ∧ (if a < 0 then -a < FIXMAX >>> n else a < FIXMAX >>> n)
  · rw [if_pos h]
    refine ⟨_, rfl, makeInteger_isInt ?_⟩
    obtain ⟨h1, h2⟩ := h
    have e : FIXMAX >>> n = FIXMAX / 2 ^ n := Int.shiftRight_eq_div_pow _ _
    have hp : (0 : Int) < 2 ^ n := by positivity
    have hm : FIXMAX / 2 ^ n * 2 ^ n ≤ FIXMAX := Int.ediv_mul_le _ (by omega)
    rw [e] at h2
    generalize (2 : Int) ^ n = P at *
    have habs : a.natAbs * P ≤ FIXMAX / P * P := by
      apply Int.mul_le_mul_of_nonneg_right _ hp.le
      split at h2 <;> omega
    by_cases h3 : a < 0
    · have : (a.natAbs : Int) = -a := by omega
      rw [this, Int.neg_mul] at habs
      have : a * P ≤ 0 := Int.mul_nonpos_of_nonpos_of_nonneg h3.le hp.le
      omega
    · have : (a.natAbs : Int) = a := by omega
      rw [this] at habs
      have : 0 ≤ a * P := Int.mul_nonneg (by omega) hp.le
      omega
  · rw [if_neg h]
    have hn0 : n ≠ 0 := by
      rintro rfl
      apply h
      refine ⟨by omega, ?_⟩
      have : FIXMAX >>> 0 = FIXMAX := rfl
      rw [this]
      split <;> omega
    refine ⟨_, rfl, ?_⟩
    have := bigAshLeft_spec (fromSI_wf a) hn0
    rw [fromSI_toInt (by omega)] at this
    exact this

/-- `ash` to the left. -/
theorem scmAsh_left {x : Num} (hx : x.Canonical) {n : Nat} (hn : n < 268435456)
    (hc : ¬ (n = 0 ∧ (x.toInt = FIXMAX ∨ x.toInt = -FIXMAX ∨ x.toInt = FIXMIN))) :
    ∃ r, scmAsh x n = .ok r ∧ r.IsInt (x.toInt * 2 ^ n) := by
  unfold scmAsh
  rw [if_neg (by omega)]
  cases x with
  | fix a =>
    dsimp only
    rw [if_neg (by omega), if_neg (by omega), Int.toNat_natCast]
    exact fixAshLeft_spec (canon_fix hx) hn hc
  | big b =>
    dsimp only [bigAsh]
    have e : Int.bmod (n : Int) 4294967296 = n := by
      rw [Int.bmod_def]; split <;> omega
    rw [e]
    by_cases h : (n : Int) = 0
    · rw [if_pos h]
      refine ⟨_, rfl, hx, ?_⟩
      have : n = 0 := by omega
      rw [this, pow_zero, Int.mul_one]
    · rw [if_neg h, if_pos (by omega), Int.toNat_natCast]
      exact ⟨_, rfl, bigAshLeft_spec (canon_wf hx) (by omega)⟩

theorem floor_neg_shift (m p : Int) (hm : m < 0) (hp : 0 < p) : -((-m - 1) / p) - 1 = m / p := by
  have h1 := Int.emod_add_mul_ediv (-m - 1) p
  have h2 := Int.emod_nonneg (-m - 1) hp.ne'
  have h3 := Int.emod_lt_of_pos (-m - 1) hp
  symm
  rw [Int.ediv_eq_iff_of_pos hp]
  constructor <;> nlinarith

theorem tdiv_neg_floor (m p : Int) (hm : m < 0) (hp : 0 < p) : Int.tdiv (m + 1) p - 1 = m / p := by
  rw [← floor_neg_shift m p hm hp]
  have : Int.tdiv (m + 1) p = -Int.tdiv (-m - 1) p := by
    rw [← Int.neg_tdiv]; congr 1; omega
  rw [this, Int.tdiv_eq_ediv_of_nonneg (by omega)]

/-- `ash` to the right. -/
theorem scmAsh_right {x : Num} (hx : x.Canonical) {n : Nat} (hn : 0 < n)
    (hb : ∀ b, x = .big b → n < 2147483648 ∧ (x.toInt < 0 → n < 268435456 ∧ ¬ (x.toInt = FIXMIN - 1 ∧ n = 61))) :
    ∃ r, scmAsh x (-(n : Int)) = .ok r ∧ r.IsInt (x.toInt / 2 ^ n) := by
  unfold scmAsh
  rw [if_neg (by omega)]
  have hp : (0 : Int) < 2 ^ n := by positivity
  cases x with
  | fix a =>
    have ha := canon_fix hx
    dsimp only
    by_cases h : -(n : Int) ≤ -64
    · rw [if_pos h]
      refine ⟨_, rfl, ?_⟩
      have hbig : (18446744073709551616 : Int) ≤ 2 ^ n := by
        rw [show (18446744073709551616 : Int) = 2 ^ 64 by norm_num]
        exact pow_le_pow_right₀ (by norm_num) (by omega)
      have e : (Num.fix a).toInt / 2 ^ n = if a < 0 then -1 else 0 := by
        show a / 2 ^ n = _
        generalize (2 : Int) ^ n = P at *
        split
        · rw [Int.ediv_eq_iff_of_pos hp]; omega
        · exact Int.ediv_eq_zero_of_lt (by omega) (by omega)
      rw [e]
      apply makeInteger_isInt
      split <;> omega
    · rw [if_neg h, if_pos (by omega)]
      refine ⟨_, rfl, ?_⟩
      rw [show (-(-(n : Int))).toNat = n by omega]
      have e : (if a < 0 then -((-a - 1) / 2 ^ n) - 1 else a / 2 ^ n) = a / 2 ^ n := by
        split
        · exact floor_neg_shift _ _ (by omega) hp
        · rfl
      rw [e]
      apply makeInteger_isInt
      generalize (2 : Int) ^ n = P at *
      by_cases h3 : 0 ≤ a
      · have h4 := Int.ediv_le_self P h3
        have h5 := Int.ediv_nonneg h3 hp.le
        omega
      · have h4 : a / P < 0 := Int.ediv_neg_of_neg_of_pos (by omega) hp
        have h5 : a ≤ a / P := by
          rw [Int.le_ediv_iff_mul_le hp]; nlinarith
        omega
  | big b =>
    obtain ⟨h1, h2⟩ := hb b rfl
    dsimp only [bigAsh]
    have e : Int.bmod (-(n : Int)) 4294967296 = -(n : Int) := by
      rw [Int.bmod_def]; split <;> omega
    rw [e, if_neg (by omega), if_neg (by omega)]
    rw [show (-(-(n : Int))).toNat = n by omega]
    have hw := canon_wf hx
    have hpos := WF_val_pos hx
    by_cases h3 : b.vals.length ≤ n / 64
    · rw [if_pos h3]
      have hlt : (val b.vals : Int) < 2 ^ n := by
        have := val_lt hw.words
        have : val b.vals < 2 ^ n := by
          refine lt_of_lt_of_le this ?_
          rw [show (18446744073709551616 : Nat) = 2 ^ 64 by norm_num, ← pow_mul]
          exact Nat.pow_le_pow_right (by norm_num) (by omega)
        exact_mod_cast this
      have e : (Num.big b).toInt / 2 ^ n = if b.sign < 0 then -1 else 0 := by
        show b.toInt / 2 ^ n = _
        unfold Big.toInt
        generalize (2 : Int) ^ n = P at *
        rcases hw.sign with hs | hs <;> rw [hs]
        · rw [if_neg (by omega), Int.one_mul]; exact Int.ediv_eq_zero_of_lt (by omega) (by omega)
        · rw [if_pos (by omega), Int.ediv_eq_iff_of_pos hp]; omega
      rw [e]
      refine ⟨_, rfl, ?_⟩
      split
      · exact makeInt_isInt (by omega) (by omega)
      · exact makeInt_isInt (by omega) (by omega)
    · rw [if_neg h3]
      rcases hw.sign with hs | hs
      · rw [if_neg (by omega)]
        refine ⟨_, rfl, ?_⟩
        have hne : rshift b.vals n ≠ [] := by
          apply List.length_pos_iff.mp; rw [rshift_length]; omega
        have := normalize_spec (s := 1) (Or.inl rfl) hne (rshift_words hw.words n)
        rw [rshift_val hw.words] at this
        have e : (Num.big b).toInt / 2 ^ n = 1 * ((val b.vals / 2 ^ n : Nat) : Int) := by
          show b.toInt / 2 ^ n = _
          unfold Big.toInt
          rw [hs]; push_cast; rw [Int.one_mul, Int.one_mul]
        rw [e]; exact this
      · rw [if_pos (by omega)]
        have hneg : (Num.big b).toInt < 0 := by
          show b.toInt < 0
          unfold Big.toInt; rw [hs]; omega
        obtain ⟨h4, h5⟩ := h2 hneg
        obtain ⟨d, d1, d2⟩ := fixAshLeft_spec (a := 1) (by omega) h4 (by omega)
        have hf1 : (Num.fix 1).Canonical := ⟨by omega, by omega⟩
        have hfm : (Num.fix (-1)).Canonical := ⟨by omega, by omega⟩
        have hadd := scmAdd_isInt hx hf1
        rw [Int.one_mul] at d2
        obtain ⟨q, r, q1, q2, -⟩ := quotient_isInt hadd.1 d2.1 (by rw [d2.2]; exact hp.ne') (by
          rw [hadd.2, d2.2]
          intro hbad
          have : (Num.fix 1).toInt = 1 := rfl
          rw [this] at hbad
          apply h5
          refine ⟨by omega, ?_⟩
          rcases hbad.2 with h6 | h6
          · generalize (2 : Int) ^ n = P at *; omega
          · have : (2 : Int) ^ n = 2 ^ 61 := by rw [h6]; norm_num
            exact Int.pow_right_injective (by norm_num) this)
        have e1 : (Num.fix 1).toInt = 1 := rfl
        rw [hadd.2, d2.2, e1] at q2
        refine ⟨scmAdd q (.fix (-1)), ?_, ?_⟩
        · rw [d1]; simp only [Res.bind]; rw [q1]
        · have := scmAdd_isInt q2.1 hfm
          rw [q2.2] at this
          have e3 : (Num.fix (-1)).toInt = -1 := rfl
          rw [e3] at this
          rw [← tdiv_neg_floor _ _ hneg hp]
          exact this

/-! ### powers -/

theorem scmOddP_spec {x : Num} (hx : x.Canonical) : scmOddP x = decide (x.toInt % 2 = 1) := by
  cases x with
  | fix n => rfl
  | big b =>
    show decide (b.vals.getD 0 0 % 2 = 1) = decide (b.toInt % 2 = 1)
    obtain ⟨s, l⟩ := b
    obtain ⟨hs, -, ⟨hl, -⟩, -⟩ := hx
    unfold Big.toInt
    dsimp only at *
    cases l with
    | nil => exact absurd rfl hl
    | cons w ws =>
      simp only [val, List.getD_cons_zero]
      apply decide_eq_decide.mpr
      generalize val ws = V
      rcases hs with hs | hs <;> subst hs <;> omega

theorem neg_one_pow_int (n : Nat) : (-1 : Int) ^ n = if (n : Int) % 2 = 1 then -1 else 1 := by
  rcases Nat.even_or_odd n with h | h
  · rw [h.neg_one_pow, if_neg]; obtain ⟨k, hk⟩ := h; omega
  · rw [h.neg_one_pow, if_pos]; obtain ⟨k, hk⟩ := h; omega

/-- `Scm_ExactIntegerExpt` with a nonnegative exponent. -/
theorem exactExpt_spec {x y : Num} (hx : x.Canonical) (hy : y.Canonical) (hy0 : 0 ≤ y.toInt)
    (hc : y.toInt ≤ FIXMAX ∨ x.toInt = 1 ∨ x.toInt = -1) (h2 : x.toInt = 2 → y.toInt < 268435456) :
    ∃ r, exactExpt x y = .ok r ∧ r.IsInt (x.toInt ^ y.toInt.toNat) := by
  have heq : ∀ n : Int, FIXMIN ≤ n ∧ n ≤ FIXMAX → (x = .fix n ↔ x.toInt = n) := by
    intro n hn
    constructor
    · intro h; rw [h]; rfl
    · intro h; exact canon_unique hx hn h
  unfold exactExpt
  rw [scmSign_eq hy]
  by_cases h0 : y.toInt = 0
  · rw [if_pos (by rw [h0]; rfl)]
    refine ⟨_, rfl, ?_⟩
    rw [h0, Int.toNat_zero, pow_zero]
    exact makeInt_isInt (by omega) (by omega)
  rw [if_neg (by rw [Int.sign_eq_zero_iff_zero]; exact h0)]
  by_cases h1 : x = .fix 1
  · rw [if_pos h1]
    refine ⟨_, rfl, ?_⟩
    have hx1 := (heq 1 (by omega)).1 h1
    rw [hx1, one_pow]
    exact makeInt_isInt (by omega) (by omega)
  rw [if_neg h1]
  by_cases hm1 : x = .fix (-1)
  · rw [if_pos hm1]
    refine ⟨_, rfl, ?_⟩
    have hxm := (heq (-1) (by omega)).1 hm1
    rw [hxm, neg_one_pow_int, scmOddP_spec hy, show ((y.toInt.toNat : Nat) : Int) = y.toInt by omega]
    by_cases h : y.toInt % 2 = 1
    · rw [if_pos h, if_pos (by simpa using h)]; exact makeInt_isInt (by omega) (by omega)
    · rw [if_neg h, if_neg (by simpa using h)]; exact makeInt_isInt (by omega) (by omega)
  rw [if_neg hm1]
  have h1' : x.toInt ≠ 1 := fun h => h1 ((heq 1 (by omega)).2 h)
  have hm1' : x.toInt ≠ -1 := fun h => hm1 ((heq (-1) (by omega)).2 h)
  cases y with
  | big b =>
    exfalso
    have hr := hy.2.2.2
    have : (Num.big b).toInt = b.toInt := rfl
    omega
  | fix iy =>
    dsimp only
    have e : (Num.fix iy).toInt = iy := rfl
    rw [e] at hy0 hc h2 h0 ⊢
    by_cases h10 : x = .fix 10 ∧ iy > 0 ∧ iy < 341
    · rw [if_pos h10]
      refine ⟨_, rfl, ?_⟩
      rw [(heq 10 (by omega)).1 h10.1]
      exact iexpt10_spec _
    rw [if_neg h10]
    by_cases hx2 : x = .fix 2 ∧ iy > 0
    · rw [if_pos hx2]
      have h2' := (heq 2 (by omega)).1 hx2.1
      have h1c : (makeInt 1).IsInt 1 := makeInt_isInt (by omega) (by omega)
      obtain ⟨r, r1, r2⟩ := scmAsh_left h1c.1 (n := iy.toNat) (by have := h2 h2'; omega) (by omega)
      rw [show ((iy.toNat : Nat) : Int) = iy by omega] at r1
      refine ⟨r, r1, ?_⟩
      rw [h1c.2, Int.one_mul] at r2
      rw [h2']; exact r2
    rw [if_neg hx2]
    refine ⟨_, rfl, ?_⟩
    have h1c : (makeInt 1).IsInt 1 := makeInt_isInt (by omega) (by omega)
    have := exptLoop_spec (makeInt 1) x iy.natAbs h1c.1 hx
    rw [h1c.2, Int.one_mul] at this
    rw [show iy.toNat = iy.natAbs by omega]
    exact this

end Gauche.Integer

import Verif.Proof.FlonumRnd
/-
`algorithmR` finds the rounded value, except for one number.
-/
namespace Gauche.Flonum
open Gauche.Spec

/-- The number to be read. -/
def target (f : Nat) (e : Int) : ℚ := (f : ℚ) * 10 ^ e

/-- The scale of `x` and `y`. -/
def scaleR (e k : Int) : ℚ := (if 0 ≤ e then 1 else 10 ^ (-e)) * (if 0 ≤ k then 1 else 2 ^ (-k))

theorem scaleR_pos (e k : Int) : 0 < scaleR e k := by
  unfold scaleR
  have h1 : (0 : ℚ) < if 0 ≤ e then 1 else 10 ^ (-e) := by split <;> positivity
  have h2 : (0 : ℚ) < if 0 ≤ k then 1 else 2 ^ (-k) := by split <;> positivity
  exact mul_pos h1 h2

theorem toNat_zpow (b : ℚ) {e : Int} (h : 0 ≤ e) : b ^ e.toNat = b ^ e := by
  rw [← zpow_natCast]; congr 1; omega

theorem xOf_eq (f : Nat) (e k : Int) : (xOf f e k : ℚ) = target f e * scaleR e k := by
  unfold xOf target scaleR
  have t2 : (2 : ℚ) ≠ 0 := by norm_num
  have t10 : (10 : ℚ) ≠ 0 := by norm_num
  by_cases he : 0 ≤ e <;> by_cases hk : 0 ≤ k
  · simp only [he, hk, if_true]; push_cast; rw [toNat_zpow _ he]; ring
  · simp only [he, hk, if_true, if_false]; push_cast; rw [toNat_zpow _ he, toNat_zpow _ (by omega)]; ring
  · simp only [he, hk, if_true, if_false]
    have : (10 : ℚ) ^ e * 10 ^ (-e) = 1 := by rw [← zpow_add₀ t10]; simp
    rw [mul_one, mul_assoc, this, mul_one]
  · simp only [he, hk, if_false]; push_cast; rw [toNat_zpow _ (by omega)]
    have : (10 : ℚ) ^ e * 10 ^ (-e) = 1 := by rw [← zpow_add₀ t10]; simp
    rw [mul_assoc, ← mul_assoc ((10:ℚ)^e), this, one_mul]

theorem yOf_eq (m : Nat) (e k : Int) : (yOf m e k : ℚ) = dval m k * scaleR e k := by
  unfold yOf dval scaleR
  have t2 : (2 : ℚ) ≠ 0 := by norm_num
  by_cases he : 0 ≤ e <;> by_cases hk : 0 ≤ k
  · simp only [he, hk, if_true]; push_cast; rw [toNat_zpow _ hk]; ring
  · simp only [he, hk, if_true, if_false]
    have : (2 : ℚ) ^ k * 2 ^ (-k) = 1 := by rw [← zpow_add₀ t2]; simp
    rw [one_mul, mul_assoc, this, mul_one]
  · simp only [he, hk, if_true, if_false]; push_cast; rw [toNat_zpow _ hk, toNat_zpow _ (by omega)]; ring
  · simp only [he, hk, if_false]; push_cast; rw [toNat_zpow _ (by omega)]
    have : (2 : ℚ) ^ k * 2 ^ (-k) = 1 := by rw [← zpow_add₀ t2]; simp
    rw [mul_comm ((10:ℚ)^(-e)), mul_assoc, ← mul_assoc ((2:ℚ)^k), this, one_mul]

/-- A state whose `x` and `y` are what they should be. -/
def Good (f : Nat) (e : Int) (s : RState) : Prop := s.x = xOf f e s.k ∧ s.y = yOf s.m e s.k

/-- The one number on which the loop does not end: halfway between the greatest subnormal and the least normal double. -/
def Trap (x : ℚ) : Prop := x = dval (2 ^ 52) (-1074) - 2 ^ (-1074 : Int) / 2

/-- What the comparison says about the number. -/
theorem compareR_spec {f : Nat} {e : Int} {s : RState} (hg : Good f e s) (hc : CanonU s.m s.k) :
    match compareR s with
    | .done => s.m = 0 ∨ RU (target f e) s.m s.k
    | .prev => target f e < dval s.m s.k ∧ 0 < s.m ∧ (RU (target f e) s.m s.k → Trap (target f e) ∧ s.m = 2 ^ 52 ∧ s.k = -1074)
    | .next => dval s.m s.k < target f e ∧ ¬ RU (target f e) s.m s.k := by
  obtain ⟨m, k, x, y, kp⟩ := s
  obtain ⟨hx, hy⟩ := hg
  simp only at hx hy hc ⊢
  have hxe := xOf_eq f e k
  have hye := yOf_eq m e k
  rw [← hx] at hxe
  rw [← hy] at hye
  generalize hX : target f e = X at *
  generalize hC : scaleR e k = C at *
  have hCp : 0 < C := hC ▸ scaleR_pos e k
  have hu := two_pos k
  by_cases hm0 : m = 0
  · have hy0 : y = 0 := by
      have : (y : ℚ) = 0 := by rw [hye, hm0]; simp [dval]
      exact_mod_cast this
    have : compareR ⟨m, k, x, y, kp⟩ = .done := by
      simp [compareR, hm0, hy0]
    rw [this]; exact Or.inl hm0
  have hmp : (0 : ℚ) < m := by have : 0 < m := by omega
                               exact_mod_cast this
  -- comparisons
  have hlt : x < y ↔ X < dval m k := by
    rw [← Nat.cast_lt (α := ℚ), hxe, hye, mul_lt_mul_iff_left₀ hCp]
  generalize hd : (if x > y then x - y else y - x) = absd
  have habs : (absd : ℚ) = |X - dval m k| * C := by
    rw [← hd]
    by_cases h : x > y
    · rw [if_pos h, Nat.cast_sub h.le, hxe, hye]
      have : dval m k < X := by
        have h' : (y : ℚ) < x := by exact_mod_cast h
        rw [hxe, hye] at h'
        exact (mul_lt_mul_iff_left₀ hCp).1 h'
      rw [abs_of_pos (by linarith)]; ring
    · rw [if_neg h, Nat.cast_sub (not_lt.1 h), hxe, hye]
      have : X ≤ dval m k := by
        have h' : (x : ℚ) ≤ y := by exact_mod_cast not_lt.1 h
        rw [hxe, hye] at h'
        exact (mul_le_mul_iff_left₀ hCp).1 h'
      rw [abs_of_nonpos (by linarith)]; ring
  have hd2 : ((m * absd * 2 : Nat) : ℚ) = (|X - dval m k| * 2) * (m * C) := by push_cast; rw [habs]; ring
  have hyv : (y : ℚ) = 2 ^ k * (m * C) := by rw [hye]; unfold dval; ring
  have hmc : 0 < (m : ℚ) * C := mul_pos hmp hCp
  have d_lt : m * absd * 2 < y ↔ |X - dval m k| * 2 < 2 ^ k := by
    rw [← Nat.cast_lt (α := ℚ), hd2, hyv, mul_lt_mul_iff_left₀ hmc]
  have d_eq : m * absd * 2 = y ↔ |X - dval m k| * 2 = 2 ^ k := by
    rw [← Nat.cast_inj (R := ℚ), hd2, hyv, mul_left_inj' hmc.ne']
  have d_lt2 : y < m * absd * 2 * 2 ↔ 2 ^ k < |X - dval m k| * 2 * 2 := by
    rw [← Nat.cast_lt (α := ℚ), Nat.cast_mul, hd2, hyv,
      show |X - dval m k| * 2 * ((m : ℚ) * C) * ((2 : Nat) : ℚ) = |X - dval m k| * 2 * 2 * (m * C) by push_cast; ring,
      mul_lt_mul_iff_left₀ hmc]
  have e0 : compareR ⟨m, k, x, y, kp⟩ =
      (if |X - dval m k| * 2 < 2 ^ k then
        (if m = 2 ^ 52 ∧ X < dval m k ∧ -1074 < k ∧ 2 ^ k < |X - dval m k| * 2 * 2 then .prev else .done)
      else if |X - dval m k| * 2 = 2 ^ k then
        (if m % 2 = 0 then (if m = 2 ^ 52 ∧ X < dval m k then .prev else .done)
        else if X < dval m k then .prev else .next)
      else if X < dval m k then .prev else .next) := by
    simp only [compareR, hd, d_lt, d_eq, d_lt2, hlt]
  rw [e0]
  have hlow := low_pos m k
  have hlow' := low_le m k
  have hnu : ∀ {P : Prop}, (P → RU X m k → False) → P → ¬ RU X m k := fun h p r => h p r
  by_cases c1 : |X - dval m k| * 2 < 2 ^ k
  · rw [if_pos c1]
    obtain ⟨a1, a2⟩ := abs_lt.1 (show |X - dval m k| < 2 ^ k / 2 by linarith)
    by_cases c2 : m = 2 ^ 52 ∧ X < dval m k ∧ -1074 < k ∧ 2 ^ k < |X - dval m k| * 2 * 2
    · rw [if_pos c2]
      refine ⟨c2.2.1, by omega, fun h => ?_⟩
      exfalso
      have hl : low m k = 2 ^ k / 2 := by unfold low; rw [if_pos ⟨c2.1, c2.2.2.1⟩]
      rw [abs_of_neg (by linarith [c2.2.1])] at c2
      rcases h.2.2 with h | ⟨h, _⟩ <;> rw [hl] at h <;> linarith [c2.2.2.2]
    · rw [if_neg c2]
      right
      refine ⟨hc, Or.inl (by linarith), ?_⟩
      by_cases hl : m = 2 ^ 52 ∧ -1074 < k
      · have hlw : low m k = 2 ^ k / 2 := by unfold low; rw [if_pos hl]
        rw [hlw]
        by_cases hxl : X < dval m k
        · have h4 : |X - dval m k| * 2 * 2 ≤ 2 ^ k := by
            rcases lt_or_ge (2 ^ k) (|X - dval m k| * 2 * 2) with h | h
            · exact absurd ⟨hl.1, hxl, hl.2, h⟩ c2
            · exact h
          rw [abs_of_neg (by linarith)] at h4
          rcases lt_or_eq_of_le (show dval m k - 2 ^ k / 2 / 2 ≤ X by linarith) with h | h
          · exact Or.inl h
          · exact Or.inr ⟨h.symm, by rw [hl.1]; norm_num⟩
        · left; linarith
      · have hlw : low m k = 2 ^ k := by unfold low; rw [if_neg hl]
        rw [hlw]; left; linarith
  · rw [if_neg c1]
    by_cases c3 : |X - dval m k| * 2 = 2 ^ k
    · rw [if_pos c3]
      by_cases hev : m % 2 = 0
      · rw [if_pos hev]
        by_cases c4 : m = 2 ^ 52 ∧ X < dval m k
        · rw [if_pos c4]
          refine ⟨c4.2, by omega, fun h => ?_⟩
          rw [abs_of_neg (by linarith [c4.2])] at c3
          by_cases hk : -1074 < k
          · exfalso
            have hl : low m k = 2 ^ k / 2 := by unfold low; rw [if_pos ⟨c4.1, hk⟩]
            rcases h.2.2 with h | ⟨h, _⟩ <;> rw [hl] at h <;> linarith
          · have hk' : k = -1074 := by have := hc.2.1; omega
            refine ⟨?_, c4.1, hk'⟩
            unfold Trap; rw [← c4.1, ← hk']; linarith
        · rw [if_neg c4]
          right
          refine ⟨hc, ?_, ?_⟩
          · by_cases hxl : X < dval m k
            · left; linarith
            · rw [abs_of_nonneg (by linarith)] at c3
              right; exact ⟨by linarith, hev⟩
          · by_cases hxl : X < dval m k
            · rw [abs_of_neg (by linarith)] at c3
              have hl : low m k = 2 ^ k := by unfold low; rw [if_neg]; intro hh; exact c4 ⟨hh.1, hxl⟩
              right; rw [hl]; exact ⟨by linarith, hev⟩
            · left; linarith
      · rw [if_neg hev]
        by_cases hxl : X < dval m k
        · rw [if_pos hxl]
          refine ⟨hxl, by omega, fun h => ?_⟩
          exfalso
          rw [abs_of_neg (by linarith)] at c3
          rcases h.2.2 with h | ⟨_, h⟩
          · linarith
          · exact hev h
        · rw [if_neg hxl]
          rw [abs_of_nonneg (by linarith)] at c3
          refine ⟨by linarith, fun h => ?_⟩
          rcases h.2.1 with h | ⟨_, h⟩
          · linarith
          · exact hev h
    · rw [if_neg c3]
      have c5 : 2 ^ k < |X - dval m k| * 2 := lt_of_le_of_ne (not_lt.1 c1) (Ne.symm c3)
      by_cases hxl : X < dval m k
      · rw [if_pos hxl]
        refine ⟨hxl, by omega, fun h => ?_⟩
        exfalso
        rw [abs_of_neg (by linarith)] at c5
        rcases h.2.2 with h | ⟨h, _⟩ <;> linarith
      · rw [if_neg hxl]
        rw [abs_of_nonneg (by linarith)] at c5
        refine ⟨by linarith, fun h => ?_⟩
        rcases h.2.1 with h | ⟨h, _⟩ <;> linarith

/-- The place of a double in the order of doubles. -/
def idx (m : Nat) (k : Int) : Int := (k + 1074) * 2 ^ 52 + m

theorem below_idx {m m' : Nat} {k k' : Int} (h : CanonU m k) (h' : CanonU m' k') (hb : Below m k m' k') : idx m k < idx m' k' := by
  unfold idx
  obtain ⟨a1, a2, a3⟩ := h
  obtain ⟨b1, b2, b3⟩ := h'
  rcases hb with hk | ⟨rfl, hm⟩
  · have : 2 ^ 52 ≤ m' := by rcases b3 with b3 | b3; exact b3; omega
    omega
  · omega

theorem idx_inj {m m' : Nat} {k k' : Int} (h : CanonU m k) (h' : CanonU m' k') (hb : idx m k = idx m' k') : (m, k) = (m', k') := by
  rcases below_trichotomy m m' k k' with hb' | hb' | hb'
  · have := below_idx h h' hb'; omega
  · exact hb'
  · have := below_idx h' h hb'; omega

/-- What holds at the head of the loop; the number rounds to `M * 2^K`. -/
structure Inv (f : Nat) (e : Int) (M : Nat) (K : Int) (s : RState) : Prop where
  canon : CanonU s.m s.k
  good : Good f e s
  sign : 0 ≤ s.kprev ↔ 0 ≤ s.k
  down : s.k < s.kprev → idx M K < idx (2 ^ 52) s.kprev
  up : s.kprev < s.k → idx (2 ^ 53 - 1) s.kprev < idx M K
  zero : s.m = 0 → (M, K) = (s.m, s.k)

theorem Inv.retry {f : Nat} {e : Int} {M : Nat} {K : Int} {m : Nat} {k : Int} (h : CanonU m k) (hz : m = 0 → (M, K) = (m, k)) :
    Inv f e M K (retry f e m k) :=
  ⟨h, ⟨rfl, rfl⟩, Iff.rfl, fun h => absurd h (lt_irrefl _), fun h => absurd h (lt_irrefl _), hz⟩

/-- The values of `x` and `y` after a step. -/
theorem nextR_inv {f : Nat} {e : Int} {M : Nat} {K : Int} {s : RState} (h : Inv f e M K s) {m : Nat} {k : Int} (hc : CanonU m k)
    (hk : k = s.kprev → s.k = s.kprev) (hz : m = 0 → (M, K) = (m, k))
    (hd : k < s.kprev → idx M K < idx (2 ^ 52) s.kprev) (hu : s.kprev < k → idx (2 ^ 53 - 1) s.kprev < idx M K) :
    Inv f e M K (nextR f e s m k) ∧ (nextR f e s m k).m = m ∧ (nextR f e s m k).k = k := by
  obtain ⟨hx, hy⟩ := h.good
  unfold nextR
  by_cases hp : 0 ≤ s.kprev
  · have hsk : 0 ≤ s.k := h.sign.1 hp
    rw [if_pos hp]
    by_cases hk0 : 0 ≤ k
    · rw [if_pos hk0]
      refine ⟨⟨hc, ⟨?_, ?_⟩, by simp [hp, hk0], hd, hu, hz⟩, rfl, rfl⟩
      · simp only [hx, xOf, hsk, hk0, if_true]
      · simp only [yOf, hk0, if_true]
    · rw [if_neg hk0]; exact ⟨Inv.retry hc hz, rfl, rfl⟩
  · have hsk : ¬ 0 ≤ s.k := fun hh => hp (h.sign.2 hh)
    rw [if_neg hp]
    by_cases hk0 : k < 0
    · rw [if_pos hk0]
      have hx' : k = s.kprev → s.x = xOf f e k := by
        intro hh; rw [hx, hk hh, hh]
      by_cases he : 0 ≤ e
      · rw [if_pos he]
        refine ⟨⟨hc, ⟨?_, ?_⟩, ?_, hd, hu, hz⟩, rfl, rfl⟩
        · simp only []
          by_cases hkk : k = s.kprev
          · rw [if_neg (not_not.2 hkk)]; exact hx' hkk
          · rw [if_pos hkk]; simp only [xOf, he, show ¬ 0 ≤ k by omega, if_true, if_false]
        · simp only [yOf, he, show ¬ 0 ≤ k by omega, if_true, if_false]
        · simp only []; omega
      · rw [if_neg he]
        refine ⟨⟨hc, ⟨?_, ?_⟩, ?_, hd, hu, hz⟩, rfl, rfl⟩
        · simp only []
          by_cases hkk : k = s.kprev
          · rw [if_neg (not_not.2 hkk)]; exact hx' hkk
          · rw [if_pos hkk]; simp only [xOf, he, show ¬ 0 ≤ k by omega, if_false]
        · simp only [yOf, he, show ¬ 0 ≤ k by omega, if_false]
        · simp only []; omega
    · rw [if_neg hk0]; exact ⟨Inv.retry hc hz, rfl, rfl⟩

theorem step_prev {f : Nat} {e : Int} {M : Nat} {K : Int} (hT : RU (target f e) M K) {s : RState} (h : Inv f e M K s)
    (hs : compareR s = .prev) (htr : RU (target f e) s.m s.k → s.k = -1074) : let p := prevFloat s.m s.k
    Inv f e M K (nextR f e s p.1 p.2) ∧ (nextR f e s p.1 p.2).m = p.1 ∧ (nextR f e s p.1 p.2).k = p.2 ∧ CanonU p.1 p.2 ∧
      (idx p.1 p.2 = idx s.m s.k - 1 ∨ idx p.1 p.2 = idx s.m s.k - 2) := by
  intro p
  have hc := h.canon
  have sp := compareR_spec h.good hc
  rw [hs] at sp
  obtain ⟨hX, hm0, hR⟩ := sp
  obtain ⟨c1, c2, c3⟩ := hc
  have hT' : s.k ≠ -1074 → idx M K < idx s.m s.k := by
    intro hk
    refine below_idx hT.1 h.canon (RU_below hT h.canon hX ?_)
    intro hh
    injection hh with h1 h2
    subst h1; subst h2
    exact hk (htr hT)
  by_cases hb : -1074 < s.k ∧ s.m - 1 < 2 ^ 52
  · have hm : s.m = 2 ^ 52 := by rcases c3 with c3 | c3 <;> omega
    have hp : p = (2 ^ 53 - 2, s.k - 1) := by
      simp only [p, prevFloat]; rw [if_pos hb, hm]; norm_num
    have hcan : CanonU p.1 p.2 := by rw [hp]; exact ⟨by norm_num, by simp; omega, Or.inl (by norm_num)⟩
    have hlt := hT' (by omega)
    rw [hm] at hlt
    obtain ⟨g1, g2, g3⟩ := nextR_inv (m := p.1) (k := p.2) h hcan
      (by
        rw [hp]; simp only []
        intro hk
        exfalso
        have hu := h.up (by omega)
        unfold idx at hu hlt
        rw [show s.kprev = s.k - 1 by omega] at hu
        omega)
      (by rw [hp]; intro hh; simp at hh)
      (by
        rw [hp]; simp only []
        intro hk
        by_cases hkk : s.k < s.kprev
        · exact h.down hkk
        · rw [show s.kprev = s.k by omega]; exact hlt)
      (by
        rw [hp]; simp only []
        intro hk
        exact h.up (by omega))
    refine ⟨g1, g2, g3, hcan, Or.inr ?_⟩
    rw [hp, hm]; unfold idx; simp only []; omega
  · have hp : p = (s.m - 1, s.k) := by simp only [p, prevFloat]; rw [if_neg hb]
    have hcan : CanonU p.1 p.2 := by rw [hp]; exact ⟨by simp only []; omega, c2, by simp only []; omega⟩
    have hidx : idx p.1 p.2 = idx s.m s.k - 1 := by rw [hp]; unfold idx; simp only []; omega
    obtain ⟨g1, g2, g3⟩ := nextR_inv (m := p.1) (k := p.2) h hcan
      (by rw [hp]; exact id)
      (by
        intro hz
        have hm1 : s.m = 1 := by rw [hp] at hz; simp only [] at hz; omega
        have hk : s.k = -1074 := by rcases c3 with c3 | c3 <;> omega
        -- the number is below 1 * 2^-1074 and does not round to it
        have hb : Below M K s.m s.k := by
          refine RU_below hT h.canon hX ?_
          intro hh
          injection hh with h1 h2
          subst h1; subst h2
          have := (hR hT).2.1
          omega
        have := below_idx hT.1 h.canon hb
        apply idx_inj hT.1 hcan
        rw [hidx]
        have h0 : 0 ≤ idx M K := by
          unfold idx
          obtain ⟨t1, t2, t3⟩ := hT.1
          omega
        have h1 : idx s.m s.k = 1 := by rw [hm1, hk]; unfold idx; norm_num
        omega)
      (by rw [hp]; exact h.down) (by rw [hp]; exact h.up)
    exact ⟨g1, g2, g3, hcan, Or.inl hidx⟩

theorem step_next {f : Nat} {e : Int} {M : Nat} {K : Int} (hT : RU (target f e) M K) {s : RState} (h : Inv f e M K s)
    (hs : compareR s = .next) : let p := nextFloat s.m s.k
    Inv f e M K (nextR f e s p.1 p.2) ∧ (nextR f e s p.1 p.2).m = p.1 ∧ (nextR f e s p.1 p.2).k = p.2 ∧ CanonU p.1 p.2 ∧
      idx p.1 p.2 = idx s.m s.k + 1 ∧ idx s.m s.k < idx M K := by
  intro p
  have hc := h.canon
  have sp := compareR_spec h.good hc
  rw [hs] at sp
  obtain ⟨hX, hR⟩ := sp
  obtain ⟨c1, c2, c3⟩ := hc
  have hlt : idx s.m s.k < idx M K := by
    refine below_idx h.canon hT.1 (RU_above hT h.canon hX ?_)
    intro hh
    injection hh with h1 h2
    subst h1; subst h2
    exact hR hT
  by_cases hb : 2 ^ 53 ≤ s.m + 1
  · have hm : s.m = 2 ^ 53 - 1 := by omega
    have hp : p = (2 ^ 52, s.k + 1) := by
      simp only [p, nextFloat]; rw [if_pos hb, hm]; norm_num
    have hcan : CanonU p.1 p.2 := by rw [hp]; exact ⟨by norm_num, by simp; omega, Or.inl (by norm_num)⟩
    rw [hm] at hlt
    obtain ⟨g1, g2, g3⟩ := nextR_inv (m := p.1) (k := p.2) h hcan
      (by
        rw [hp]; simp only []
        intro hk
        exfalso
        have hu := h.down (by omega)
        unfold idx at hu hlt
        rw [← hk] at hu
        omega)
      (by rw [hp]; intro hh; simp at hh)
      (by
        rw [hp]; simp only []
        intro hk
        exact h.down (by omega))
      (by
        rw [hp]; simp only []
        intro hk
        by_cases hkk : s.kprev < s.k
        · exact h.up hkk
        · rw [show s.kprev = s.k by omega]; exact hlt)
    refine ⟨g1, g2, g3, hcan, ?_, by rw [hm]; exact hlt⟩
    rw [hp, hm]; unfold idx; simp only []; omega
  · have hp : p = (s.m + 1, s.k) := by simp only [p, nextFloat]; rw [if_neg hb]
    have hcan : CanonU p.1 p.2 := by rw [hp]; exact ⟨by simp only []; omega, c2, by simp only []; omega⟩
    obtain ⟨g1, g2, g3⟩ := nextR_inv (m := p.1) (k := p.2) h hcan
      (by rw [hp]; exact id) (by rw [hp]; simp only []; omega) (by rw [hp]; exact h.down) (by rw [hp]; exact h.up)
    refine ⟨g1, g2, g3, hcan, ?_, hlt⟩
    rw [hp]; unfold idx; simp only []; omega

/-- The distance still to go. -/
def dist (T i : Int) : Nat := if T ≤ i then 2 * (i - T).toNat else (T - i).toNat

theorem loopR_spec {f : Nat} {e : Int} {M : Nat} {K : Int} (hT : RU (target f e) M K) (htr : ¬ Trap (target f e)) :
    ∀ (fuel : Nat) (s : RState), Inv f e M K s → dist (idx M K) (idx s.m s.k) < fuel → loopR f e fuel s = some (clip M K) := by
  intro fuel
  induction fuel with
  | zero => intro s _ h; omega
  | succ fuel ih =>
    intro s h hd
    unfold loopR
    have sp := compareR_spec h.good h.canon
    cases hcmp : compareR s with
    | done =>
      rw [hcmp] at sp
      simp only [] at sp ⊢
      rcases sp with hz | hR
      · have := h.zero hz
        injection this with h1 h2
        rw [h1, h2]
      · have := RU_unique hT hR
        injection this with h1 h2
        rw [h1, h2]
    | prev =>
      rw [hcmp] at sp
      simp only [] at sp ⊢
      have hnR : ¬ RU (target f e) s.m s.k := fun hh => htr (sp.2.2 hh).1
      obtain ⟨g1, g2, g3, g4, g5⟩ := step_prev hT h hcmp (fun hh => absurd hh hnR)
      refine ih _ g1 ?_
      rw [g2, g3]
      have hlt : idx M K < idx s.m s.k := by
        refine below_idx hT.1 h.canon (RU_below hT h.canon sp.1 ?_)
        intro hh
        injection hh with h1 h2
        subst h1; subst h2
        exact hnR hT
      unfold dist at hd ⊢
      rw [if_pos (by omega)] at hd
      split <;> omega
    | next =>
      simp only []
      obtain ⟨g1, g2, g3, g4, g5, g6⟩ := step_next hT h hcmp
      refine ih _ g1 ?_
      rw [g2, g3]
      unfold dist at hd ⊢
      rw [if_neg (by omega)] at hd
      split <;> omega

/-- In the trap the loop never ends. -/
theorem loopR_trap {f : Nat} {e : Int} {M : Nat} {K : Int} (hT : RU (target f e) M K) (htr : Trap (target f e)) :
    ∀ (fuel : Nat) (s : RState), Inv f e M K s → loopR f e fuel s = none := by
  have hM : (2 ^ 52, -1074) = (M, K) := by
    refine RU_unique (x := target f e) ?_ hT
    rw [htr]
    have hl : low (2 ^ 52) (-1074) = 2 ^ (-1074 : Int) := by unfold low; rw [if_neg]; omega
    have := two_pos (-1074)
    refine ⟨⟨by norm_num, le_refl _, Or.inr rfl⟩, Or.inl (by linarith), Or.inr ⟨by rw [hl], by norm_num⟩⟩
  injection hM with hM1 hM2
  subst hM1; subst hM2
  intro fuel
  induction fuel with
  | zero => intro s _; rfl
  | succ fuel ih =>
    intro s h
    unfold loopR
    have sp := compareR_spec h.good h.canon
    cases hcmp : compareR s with
    | done =>
      exfalso
      rw [hcmp] at sp
      simp only [] at sp
      have hs : (2 ^ 52, -1074) = (s.m, s.k) := by
        rcases sp with hz | hR
        · exact h.zero hz
        · exact RU_unique hT hR
      injection hs with h1 h2
      -- at the least normal double the comparison goes back
      have := h.good
      obtain ⟨m, k, x, y, kp⟩ := s
      simp only at h1 h2 hcmp
      subst h1; subst h2
      obtain ⟨hx, hy⟩ := this
      simp only at hx hy
      have hxe := xOf_eq f e (-1074)
      have hye := yOf_eq (2 ^ 52) e (-1074)
      rw [← hx, htr] at hxe
      rw [← hy] at hye
      have hC := scaleR_pos e (-1074)
      have hu := two_pos (-1074)
      have hv : dval (2 ^ 52) (-1074) = 2 ^ 52 * 2 ^ (-1074 : Int) := by unfold dval; push_cast; ring
      have hlt : x < y := by
        have : (x : ℚ) < y := by rw [hxe, hye]; nlinarith
        exact_mod_cast this
      have hd : 2 ^ 52 * (y - x) * 2 = y := by
        have : (((2 ^ 52 * (y - x) * 2 : Nat)) : ℚ) = y := by
          rw [Nat.cast_mul, Nat.cast_mul, Nat.cast_sub hlt.le, hxe, hye, hv]; push_cast; ring
        exact_mod_cast this
      unfold compareR at hcmp
      simp only [if_neg (show ¬ x > y by omega), hd, lt_irrefl, if_false, if_true, hlt] at hcmp
      simp at hcmp
    | prev =>
      rw [hcmp] at sp
      simp only [] at sp ⊢
      exact ih _ (step_prev hT h hcmp (fun hh => (sp.2.2 hh).2.2)).1
    | next =>
      simp only []
      exact ih _ (step_next hT h hcmp).1

/-- `algorithmR` finds the rounded number, from any positive start, unless the number is the trap. -/
theorem algorithmR_spec (f : Nat) (e : Int) {m : Nat} {k : Int} (hc : FinDbl m k) (hm : 0 < m) (htr : ¬ Trap (target f e)) :
    ∃ N d, Rounds (target f e) d ∧ ∀ fuel, N ≤ fuel → algorithmR fuel f e m k = some d := by
  have hx : 0 ≤ target f e := by unfold target; positivity
  obtain ⟨M, K, hT⟩ := RU_exists (target f e) hx
  refine ⟨dist (idx M K) (idx m k) + 1, clip M K, rounds_clip hT, fun fuel hf => ?_⟩
  exact loopR_spec hT htr fuel _ (Inv.retry (canonU_of hc) (fun h => by omega)) (by simp only [retry]; omega)

theorem algorithmR_trap (f : Nat) (e : Int) {m : Nat} {k : Int} (hc : FinDbl m k) (hm : 0 < m) (htr : Trap (target f e)) (fuel : Nat) :
    algorithmR fuel f e m k = none := by
  have hx : 0 ≤ target f e := by unfold target; positivity
  obtain ⟨M, K, hT⟩ := RU_exists (target f e) hx
  exact loopR_trap hT htr fuel _ (Inv.retry (canonU_of hc) (fun h => by omega))

end Gauche.Flonum

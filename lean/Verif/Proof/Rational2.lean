import Verif.Proof.Rational
/-
Powers, comparison and rounding of exact rationals.
-/
namespace Gauche.Rational
open Gauche.Bignum Gauche.Integer

theorem one_isInt : (makeInt 1).IsInt 1 := makeInt_isInt (by omega) (by omega)

/-! ### powers -/

theorem qMul_pow {r x : Q} {b : ℚ} {i j : Nat} (hr : r.IsRat (b ^ i)) (hx : x.IsRat (b ^ j)) :
    ∃ z, qMul r x = .ok z ∧ z.IsRat (b ^ (i + j)) := by
  obtain ⟨z, z1, z2⟩ := qMul_spec hr.1 hx.1 (by
    rw [hr.2, hx.2, Rat.num_pow, Rat.num_pow, Rat.den_pow, Rat.den_pow]
    apply coprime_pow2
    rw [← pow_add, ← Nat.cast_mul, ← pow_add]
    show Nat.gcd (b.num ^ (i + j)).natAbs (Int.natAbs ((b.den ^ (i + j) : Nat) : Int)) = 1
    rw [Int.natAbs_pow, Int.natAbs_natCast]
    exact Nat.Coprime.pow _ _ b.reduced)
  rw [hr.2, hx.2, ← pow_add] at z2
  exact ⟨z, z1, z2⟩

theorem exptLoopQ_spec (b : ℚ) (n : Nat) : ∀ (r x : Q) (i j : Nat), r.IsRat (b ^ i) → x.IsRat (b ^ j) →
    ∃ z, exptLoopQ r x n = .ok z ∧ z.IsRat (b ^ (i + j * n)) := by
  induction n using Nat.strong_induction_on with
  | _ n ih =>
    intro r x i j hr hx
    unfold exptLoopQ
    by_cases h0 : n = 0
    · rw [if_pos h0]; subst h0; exact ⟨r, rfl, hr⟩
    rw [if_neg h0]
    by_cases h1 : n = 1
    · rw [if_pos h1]; subst h1; rw [Nat.mul_one]; exact qMul_pow hr hx
    rw [if_neg h1]
    obtain ⟨x2, x21, x22⟩ := qMul_pow hx hx
    by_cases h2 : n % 2 = 1
    · rw [if_pos h2]
      obtain ⟨r2, r21, r22⟩ := qMul_pow hr hx
      rw [r21]
      simp only [Res.bind]
      rw [x21]
      dsimp only
      obtain ⟨z, z1, z2⟩ := ih (n / 2) (by omega) r2 x2 _ _ r22 x22
      refine ⟨z, z1, ?_⟩
      have : i + j + (j + j) * (n / 2) = i + j * n := by
        conv_rhs => rw [show n = 2 * (n / 2) + 1 by omega]
        ring
      rw [this] at z2; exact z2
    · rw [if_neg h2]
      simp only [Res.bind]
      rw [x21]
      dsimp only
      obtain ⟨z, z1, z2⟩ := ih (n / 2) (by omega) r x2 _ _ hr x22
      refine ⟨z, z1, ?_⟩
      have : i + (j + j) * (n / 2) = i + j * n := by
        conv_rhs => rw [show n = 2 * (n / 2) by omega]
        ring
      rw [this] at z2; exact z2

theorem eq_int_fix {x : Q} (hx : x.Canonical) {n : Int} (hn : -10 ≤ n ∧ n ≤ 10) : x = .int (.fix n) ↔ x.val = n := by
  constructor
  · intro h; rw [h]; rfl
  · intro h
    exact canonQ_unique hx (y := .int (.fix n)) (fix_small hn) (by rw [h]; rfl)

theorem isRat_int {r : Num} {z : Int} (h : r.IsInt z) : (Q.int r).IsRat z := ⟨h.1, by show (r.toInt : ℚ) = z; rw [h.2]⟩

theorem neg_one_zpow' (n : Int) : (-1 : ℚ) ^ n = if n % 2 = 1 then -1 else 1 := by
  rcases Int.even_or_odd n with h | h
  · rw [h.neg_one_zpow, if_neg]; obtain ⟨k, hk⟩ := h; omega
  · rw [h.neg_one_zpow, if_pos]; obtain ⟨k, hk⟩ := h; omega

/-- `Scm_ExactIntegerExpt` of an exact rational. -/
theorem exactExptQ_spec {x : Q} {y : Num} (hx : x.Canonical) (hy : y.Canonical) (h0 : y.toInt < 0 → x.val ≠ 0)
    (hc : (FIXMIN ≤ y.toInt ∧ y.toInt ≤ FIXMAX) ∨ x.val = 1 ∨ x.val = -1) (h2 : x.val = 2 → y.toInt < 268435456) :
    ∃ r, exactExptQ x y = .ok r ∧ r.IsRat (x.val ^ y.toInt) := by
  unfold exactExptQ
  dsimp only
  rw [scmSign_eq hy]
  by_cases hy0 : y.toInt = 0
  · rw [if_pos (by rw [hy0]; rfl)]
    refine ⟨_, rfl, ?_⟩
    rw [hy0, zpow_zero]
    exact_mod_cast isRat_int one_isInt
  rw [if_neg (by rw [Int.sign_eq_zero_iff_zero]; exact hy0)]
  by_cases h1 : x = .int (.fix 1)
  · rw [if_pos h1]
    refine ⟨_, rfl, ?_⟩
    rw [eq_int_fix hx (by omega)] at h1
    rw [h1, Int.cast_one, one_zpow]
    exact_mod_cast isRat_int one_isInt
  rw [if_neg h1]
  by_cases hm1 : x = .int (.fix (-1))
  · rw [if_pos hm1]
    refine ⟨_, rfl, ?_⟩
    rw [eq_int_fix hx (by omega)] at hm1
    rw [hm1, show (((-1 : Int)) : ℚ) = -1 by simp, neg_one_zpow', scmOddP_spec hy]
    by_cases h : y.toInt % 2 = 1
    · rw [if_pos h, if_pos (by simpa using h)]
      have := isRat_int (makeInt_isInt (n := -1) (by omega) (by omega))
      exact_mod_cast this
    · rw [if_neg h, if_neg (by simpa using h)]
      exact_mod_cast isRat_int one_isInt
  rw [if_neg hm1]
  have h1' : x.val ≠ 1 := fun h => h1 ((eq_int_fix hx (by omega)).2 (by rw [h]; simp))
  have hm1' : x.val ≠ -1 := fun h => hm1 ((eq_int_fix hx (by omega)).2 (by rw [h]; simp))
  cases y with
  | big b =>
    exfalso
    have hr := hy.2.2.2
    have : (Num.big b).toInt = b.toInt := rfl
    simp only [h1', hm1', or_false] at hc
    omega
  | fix iy =>
    dsimp only
    have e : (Num.fix iy).toInt = iy := rfl
    rw [e] at h0 hc h2 hy0 ⊢
    have key : ∃ r, (if x = .int (.fix 10) ∧ iy > 0 ∧ iy < 341 then Res.ok (Q.int (iexpt10 iy.toNat))
       else if x = .int (.fix 2) ∧ iy > 0 then (scmAsh (makeInt 1) iy).bind fun r => .ok (.int r)
       else exptLoopQ (.int (makeInt 1)) x iy.natAbs) = .ok r ∧ r.IsRat (x.val ^ iy.natAbs) := by
      by_cases h10 : x = .int (.fix 10) ∧ iy > 0 ∧ iy < 341
      · rw [if_pos h10]
        refine ⟨_, rfl, ?_⟩
        rw [(eq_int_fix hx (by omega)).1 h10.1, show iy.toNat = iy.natAbs by omega]
        exact_mod_cast isRat_int (iexpt10_spec iy.natAbs)
      rw [if_neg h10]
      by_cases hx2 : x = .int (.fix 2) ∧ iy > 0
      · rw [if_pos hx2]
        have h2' := (eq_int_fix hx (by omega)).1 hx2.1
        obtain ⟨r, r1, r2⟩ := scmAsh_left one_isInt.1 (n := iy.natAbs) (by have := h2 (by rw [h2']; simp); omega) (by omega)
        rw [show ((iy.natAbs : Nat) : Int) = iy by omega] at r1
        rw [r1]
        refine ⟨_, rfl, ?_⟩
        rw [one_isInt.2, Int.one_mul] at r2
        rw [h2']
        exact_mod_cast isRat_int r2
      rw [if_neg hx2]
      obtain ⟨z, z1, z2⟩ := exptLoopQ_spec x.val iy.natAbs (.int (makeInt 1)) x 0 1 (by
        rw [pow_zero]; exact_mod_cast isRat_int one_isInt) ⟨hx, by simp⟩
      rw [Nat.zero_add, Nat.one_mul] at z2
      exact ⟨z, z1, z2⟩
    obtain ⟨r, r1, r2⟩ := key
    rw [r1]
    simp only [Res.bind]
    by_cases hs : iy < 0
    · rw [if_pos (sign_lt.2 hs)]
      have hne : r.val ≠ 0 := by rw [r2.2]; exact pow_ne_zero _ (h0 hs)
      obtain ⟨z, z1, z2⟩ := reciprocal_spec r2.1 hne
      refine ⟨z, z1, ?_⟩
      rw [r2.2] at z2
      have : x.val ^ iy = (x.val ^ iy.natAbs)⁻¹ := by
        rw [← zpow_natCast, ← zpow_neg]; congr 1; omega
      rw [this]; exact z2
    · rw [if_neg (by rw [sign_lt]; exact hs)]
      refine ⟨r, rfl, ?_⟩
      have : x.val ^ iy = x.val ^ iy.natAbs := by
        rw [← zpow_natCast]; congr 1; omega
      rw [this]; exact r2

/-! ### comparison -/

/-- `c` is the three-way comparison of `u` and `v`. -/
def IsCmp (c : Int) (u v : ℚ) : Prop := (c = -1 ∧ u < v) ∨ (c = 0 ∧ u = v) ∨ (c = 1 ∧ v < u)

theorem IsCmp.neg {c : Int} {u v : ℚ} (h : IsCmp c u v) : IsCmp (-c) v u := by
  rcases h with ⟨rfl, h⟩ | ⟨rfl, h⟩ | ⟨rfl, h⟩
  · exact Or.inr (Or.inr ⟨rfl, h⟩)
  · exact Or.inr (Or.inl ⟨rfl, h.symm⟩)
  · exact Or.inl ⟨rfl, h⟩

theorem cmp_int {x y : Num} (hx : x.Canonical) (hy : y.Canonical) : IsCmp (scmNumCmp x y) x.toInt y.toInt := by
  rcases scmNumCmp_spec hx hy with ⟨h1, h2⟩ | ⟨h1, h2⟩ | ⟨h1, h2⟩
  · exact Or.inl ⟨h1, by exact_mod_cast h2⟩
  · exact Or.inr (Or.inl ⟨h1, by exact_mod_cast h2⟩)
  · exact Or.inr (Or.inr ⟨h1, by exact_mod_cast h2⟩)

theorem cmp_scale {c : Int} {u v k : ℚ} (hk : 0 < k) (h : IsCmp c (u * k) (v * k)) : IsCmp c u v := by
  rcases h with ⟨h1, h2⟩ | ⟨h1, h2⟩ | ⟨h1, h2⟩
  · exact Or.inl ⟨h1, lt_of_mul_lt_mul_right h2 hk.le⟩
  · exact Or.inr (Or.inl ⟨h1, mul_right_cancel₀ hk.ne' h2⟩)
  · exact Or.inr (Or.inr ⟨h1, lt_of_mul_lt_mul_right h2 hk.le⟩)

theorem cmp_cross {a n d : Num} (ha : a.Canonical) (hy : (Q.rat n d).Canonical) :
    IsCmp (scmNumCmp (scmMul a d) n) a.toInt (Q.rat n d).val := by
  obtain ⟨h1, h2, h3, h4⟩ := hy
  have hd : (0 : ℚ) < d.toInt := by exact_mod_cast (by omega : 0 < d.toInt)
  have := scmMul_isInt ha h2
  have hc := cmp_int this.1 h1
  rw [this.2] at hc
  apply cmp_scale hd
  show IsCmp _ _ ((n.toInt : ℚ) / d.toInt * d.toInt)
  rw [div_mul_cancel₀ _ hd.ne']
  push_cast at hc
  exact hc

/-- The screen never contradicts the order (0 means no decision). -/
def ScreenOK (screen : Int → Num → Num → Int) (a : Int) (n d : Num) : Prop :=
  screen a n d ≠ 0 → IsCmp (screen a n d) a ((n.toInt : ℚ) / d.toInt)

theorem qCmp_spec {screen : Int → Num → Num → Int} {x y : Q} (hx : x.Canonical) (hy : y.Canonical)
    (hs1 : ∀ a n d, x = .int (.fix a) → y = .rat n d → ScreenOK screen a n d)
    (hs2 : ∀ a n d, y = .int (.fix a) → x = .rat n d → ScreenOK screen a n d) :
    IsCmp (qCmp screen x y) x.val y.val := by
  cases x with
  | int a =>
    cases y with
    | int b => exact cmp_int hx hy
    | rat n d =>
      cases a with
      | fix a =>
        unfold qCmp
        dsimp only
        by_cases h : screen a n d ≠ 0
        · rw [if_pos h]; exact hs1 a n d rfl rfl h
        · rw [if_neg h]; exact cmp_cross hx hy
      | big a => exact cmp_cross hx hy
  | rat n d =>
    cases y with
    | int a =>
      cases a with
      | fix a =>
        unfold qCmp
        dsimp only
        apply IsCmp.neg
        by_cases h : screen a n d ≠ 0
        · rw [if_pos h]; exact hs2 a n d rfl rfl h
        · rw [if_neg h]; exact cmp_cross hy hx
      | big a =>
        have hy' : (Num.big a).Canonical := hy
        exact (cmp_cross hy' hx).neg
    | rat m e =>
      obtain ⟨h1, h2, h3, h4⟩ := hx
      obtain ⟨k1, k2, k3, k4⟩ := hy
      unfold qCmp
      dsimp only
      show IsCmp _ ((n.toInt : ℚ) / d.toInt) ((m.toInt : ℚ) / e.toInt)
      rw [scmSign_eq h1, scmSign_eq k1]
      have cn := cmp_int h1 k1
      have cd := cmp_int h2 k2
      have cross : IsCmp (scmNumCmp (scmMul n e) (scmMul m d)) ((n.toInt : ℚ) / d.toInt) ((m.toInt : ℚ) / e.toInt) := by
        have a1 := scmMul_isInt h1 k2
        have a2 := scmMul_isInt k1 h2
        have := cmp_int a1.1 a2.1
        rw [a1.2, a2.2] at this
        have hd : (0 : ℚ) < d.toInt := by exact_mod_cast (by omega : 0 < d.toInt)
        have he : (0 : ℚ) < e.toInt := by exact_mod_cast (by omega : 0 < e.toInt)
        apply cmp_scale (mul_pos hd he)
        push_cast at this
        rw [show (n.toInt : ℚ) / d.toInt * (d.toInt * e.toInt) = n.toInt * e.toInt by field_simp,
          show (m.toInt : ℚ) / e.toInt * (d.toInt * e.toInt) = m.toInt * d.toInt by field_simp]
        exact this
      generalize scmNumCmp (scmMul n e) (scmMul m d) = cc at *
      generalize scmNumCmp n m = cN at *
      generalize scmNumCmp d e = cD at *
      have hdp : 0 < d.toInt := by omega
      have hep : 0 < e.toInt := by omega
      generalize n.toInt = N at *
      generalize m.toInt = M at *
      generalize d.toInt = D at *
      generalize e.toInt = E at *
      have hd : (0 : ℚ) < D := by exact_mod_cast hdp
      have he : (0 : ℚ) < E := by exact_mod_cast hep
      have hlt : ∀ A B : Int, A.sign < B.sign → (A < 0 ∧ 0 ≤ B) ∨ (A ≤ 0 ∧ 0 < B) := by
        intro A B h
        rcases Int.lt_trichotomy A 0 with a | a | a <;> rcases Int.lt_trichotomy B 0 with b | b | b <;>
          simp_all [Int.sign_eq_neg_one_of_neg, Int.sign_eq_one_of_pos] <;> omega
      have sgn : ∀ {A B C F : Int}, 0 < C → 0 < F → A.sign < B.sign → (A : ℚ) / C < B / F := by
        intro A B C F hC hF h
        have hC : (0 : ℚ) < C := by exact_mod_cast hC
        have hF : (0 : ℚ) < F := by exact_mod_cast hF
        rcases hlt A B h with ⟨a, b⟩ | ⟨a, b⟩
        · exact lt_of_lt_of_le (div_neg_of_neg_of_pos (by exact_mod_cast a) hC) (div_nonneg (by exact_mod_cast b) hF.le)
        · exact lt_of_le_of_lt (div_nonpos_of_nonpos_of_nonneg (by exact_mod_cast a) hC.le) (div_pos (by exact_mod_cast b) hF)
      by_cases s1 : N.sign < M.sign
      · rw [if_pos s1]; exact Or.inl ⟨rfl, sgn hdp hep s1⟩
      rw [if_neg s1]
      by_cases s2 : N.sign > M.sign
      · rw [if_pos s2]; exact Or.inr (Or.inr ⟨rfl, sgn hep hdp s2⟩)
      rw [if_neg s2]
      have se : N.sign = M.sign := by omega
      by_cases hcd : cD = 0
      · rw [if_pos hcd]
        have hDE : (D : ℚ) = E := by
          rcases cd with ⟨a, -⟩ | ⟨-, a⟩ | ⟨a, -⟩
          · omega
          · exact a
          · omega
        apply cmp_scale he
        rw [div_mul_cancel₀ _ he.ne', ← hDE, div_mul_cancel₀ _ hd.ne']
        exact cn
      rw [if_neg hcd]
      -- the two screens
      by_cases t1 : ((N.sign > 0 ∧ M.sign > 0) ∨ (N.sign < 0 ∧ M.sign < 0)) ∧ cD > 0 ∧ cN * N.sign ≤ 0
      · rw [if_pos t1]
        obtain ⟨t, tD, tN⟩ := t1
        have hED : (E : ℚ) < D := by
          rcases cd with ⟨a, -⟩ | ⟨a, -⟩ | ⟨-, a⟩
          · omega
          · omega
          · exact a
        rw [← se] at t
        rcases t with ⟨t, -⟩ | ⟨t, -⟩
        · have hN : 0 < N := Int.sign_pos_iff.mp t
          have hM : 0 < M := Int.sign_pos_iff.mp (se ▸ t)
          rw [Int.sign_eq_one_of_pos hN] at tN ⊢
          have hNM : (N : ℚ) ≤ M := by
            rcases cn with ⟨-, a⟩ | ⟨-, a⟩ | ⟨a, -⟩
            · exact a.le
            · exact a.le
            · omega
          refine Or.inl ⟨rfl, ?_⟩
          rw [div_lt_div_iff₀ hd he]
          have hM' : (0 : ℚ) < M := by exact_mod_cast hM
          nlinarith
        · have hN : N < 0 := sign_lt.mp t
          have hM : M < 0 := sign_lt.mp (se ▸ t)
          rw [Int.sign_eq_neg_one_of_neg hN] at tN ⊢
          have hNM : (M : ℚ) ≤ N := by
            rcases cn with ⟨a, -⟩ | ⟨-, a⟩ | ⟨-, a⟩
            · omega
            · exact a.symm.le
            · exact a.le
          refine Or.inr (Or.inr ⟨rfl, ?_⟩)
          rw [div_lt_div_iff₀ he hd]
          have hM' : (M : ℚ) < 0 := by exact_mod_cast hM
          nlinarith
      rw [if_neg t1]
      by_cases t2 : ((N.sign > 0 ∧ M.sign > 0) ∨ (N.sign < 0 ∧ M.sign < 0)) ∧ cD < 0 ∧ cN * N.sign ≥ 0
      · rw [if_pos t2]
        obtain ⟨t, tD, tN⟩ := t2
        have hED : (D : ℚ) < E := by
          rcases cd with ⟨-, a⟩ | ⟨a, -⟩ | ⟨a, -⟩
          · exact a
          · omega
          · omega
        rw [← se] at t
        rcases t with ⟨t, -⟩ | ⟨t, -⟩
        · have hN : 0 < N := Int.sign_pos_iff.mp t
          have hM : 0 < M := Int.sign_pos_iff.mp (se ▸ t)
          rw [Int.sign_eq_one_of_pos hN] at tN ⊢
          have hNM : (M : ℚ) ≤ N := by
            rcases cn with ⟨a, -⟩ | ⟨-, a⟩ | ⟨-, a⟩
            · omega
            · exact a.symm.le
            · exact a.le
          refine Or.inr (Or.inr ⟨rfl, ?_⟩)
          rw [div_lt_div_iff₀ he hd]
          have hM' : (0 : ℚ) < M := by exact_mod_cast hM
          nlinarith
        · have hN : N < 0 := sign_lt.mp t
          have hM : M < 0 := sign_lt.mp (se ▸ t)
          rw [Int.sign_eq_neg_one_of_neg hN] at tN ⊢
          have hNM : (N : ℚ) ≤ M := by
            rcases cn with ⟨-, a⟩ | ⟨-, a⟩ | ⟨a, -⟩
            · exact a.le
            · exact a.le
            · omega
          refine Or.inl ⟨rfl, ?_⟩
          rw [div_lt_div_iff₀ hd he]
          have hM' : (M : ℚ) < 0 := by exact_mod_cast hM
          nlinarith
      rw [if_neg t2]
      exact cross

/-- A canonical ratnum is not an integer. -/
theorem rat_ne_int {n d : Num} (h : (Q.rat n d).Canonical) (a : Int) : (a : ℚ) ≠ (Q.rat n d).val := by
  intro e
  obtain ⟨-, h2, -⟩ := num_den h
  have h2 : d.toInt = _ := h2.2
  rw [← e, Rat.den_intCast] at h2
  have := h.2.2.1
  omega

/-- The floating-point estimate is sound when the double of the ratnum is not negative and the conversions are monotone. -/
theorem screen_pos {a : Int} {n d : Num} (h : (Q.rat n d).Canonical) {x y : ℚ} (hy : 0 ≤ y)
    (m1 : (a : ℚ) < (Q.rat n d).val → x ≤ y) (m2 : (Q.rat n d).val < a → y ≤ x) (h0 : fixRatScreen x y ≠ 0) :
    IsCmp (fixRatScreen x y) a (Q.rat n d).val := by
  have hne := rat_ne_int h a
  generalize (Q.rat n d).val = v at *
  unfold fixRatScreen at *
  dsimp only at *
  have he : 0 ≤ y * (2 / 10 ^ 52 : ℚ) := by positivity
  generalize y * (2 / 10 ^ 52 : ℚ) = err at *
  by_cases c1 : x - y < -err
  · rw [if_pos c1]
    refine Or.inl ⟨rfl, ?_⟩
    rcases lt_trichotomy (a : ℚ) v with t | t | t
    · exact t
    · exact absurd t hne
    · have := m2 t; linarith
  rw [if_neg c1] at h0 ⊢
  by_cases c2 : x - y > err
  · rw [if_pos c2]
    refine Or.inr (Or.inr ⟨rfl, ?_⟩)
    rcases lt_trichotomy (a : ℚ) v with t | t | t
    · have := m1 t; linarith
    · exact absurd t hne
    · exact t
  · rw [if_neg c2] at h0; exact absurd rfl h0

/-- With a negative double, the estimate is sound when the two doubles differ by more than the (tiny) margin. -/
theorem screen_neg {a : Int} {n d : Num} (h : (Q.rat n d).Canonical) {x y : ℚ} (hy : y < 0)
    (m1 : (a : ℚ) < (Q.rat n d).val → x ≤ y) (m2 : (Q.rat n d).val < a → y ≤ x) (hgap : |y| * (2 / 10 ^ 52) < |x - y|) :
    IsCmp (fixRatScreen x y) a (Q.rat n d).val := by
  have hne := rat_ne_int h a
  generalize (Q.rat n d).val = v at *
  unfold fixRatScreen at *
  dsimp only at *
  rw [abs_of_neg hy] at hgap
  have he : 0 < -y * (2 / 10 ^ 52 : ℚ) := by
    apply mul_pos (by linarith); positivity
  rw [neg_mul] at hgap he
  generalize y * (2 / 10 ^ 52 : ℚ) = err at *
  rcases lt_trichotomy (a : ℚ) v with t | t | t
  · have := m1 t
    rw [abs_of_nonpos (by linarith)] at hgap
    rw [if_pos (by linarith)]
    exact Or.inl ⟨rfl, t⟩
  · exact absurd t hne
  · have := m2 t
    rw [abs_of_nonneg (by linarith)] at hgap
    rw [if_neg (by linarith), if_pos (by linarith)]
    exact Or.inr (Or.inr ⟨rfl, t⟩)

/-! ### rounding -/

theorem abs_lt_of_natAbs {a b : Int} (h : a.natAbs < b.natAbs) (hb : 0 < b) : -b < a ∧ a < b := by omega

theorem qRound_spec {x : Q} (hx : x.Canonical) (mode : Mode) :
    ∃ r, qRound mode x = .ok r ∧ r.Canonical ∧
      match mode with
      | .floor => r.toInt = ⌊x.val⌋
      | .ceil => r.toInt = ⌈x.val⌉
      | .trunc => r.toInt = if 0 ≤ x.val then ⌊x.val⌋ else ⌈x.val⌉
      | .round => |x.val - r.toInt| ≤ 1 / 2 ∧ (|x.val - r.toInt| = 1 / 2 → r.toInt % 2 = 0) := by
  cases x with
  | int a =>
    refine ⟨a, rfl, hx, ?_⟩
    cases mode
    · exact (Int.floor_intCast _).symm
    · exact (Int.ceil_intCast _).symm
    · show a.toInt = if _ then ⌊(a.toInt : ℚ)⌋ else ⌈(a.toInt : ℚ)⌉
      rw [Int.floor_intCast, Int.ceil_intCast, ite_self]
    · show |(a.toInt : ℚ) - a.toInt| ≤ 1 / 2 ∧ (|(a.toInt : ℚ) - a.toInt| = 1 / 2 → _)
      rw [sub_self, abs_zero]
      norm_num
  | rat n d =>
    have hne := rat_ne_int hx
    obtain ⟨h1, h2, h3, h4⟩ := hx
    obtain ⟨q, r, e1, q2, r2⟩ := quotient_isInt h1 h2 (by omega) (by
      rintro ⟨a1, a2 | a2⟩
      · omega
      · exact coprime_pow2 h4 ⟨a1, by rw [a2]⟩)
    obtain ⟨t1, t2, t3, t4⟩ := tmod_bounds n.toInt d.toInt (by omega)
    unfold qRound
    dsimp only
    rw [e1]
    simp only [Res.bind]
    have hv : (Q.rat n d).val = (n.toInt : ℚ) / d.toInt := rfl
    rw [hv] at hne ⊢
    rw [← q2.2, ← r2.2] at t1
    rw [← r2.2] at t2 t3 t4
    have hd : (0 : ℚ) < d.toInt := by exact_mod_cast (by omega : 0 < d.toInt)
    have hval : (n.toInt : ℚ) / d.toInt = q.toInt + r.toInt / d.toInt := by
      rw [t1]; push_cast; field_simp; ring
    have hr0 : r.toInt ≠ 0 := by
      intro h
      apply hne q.toInt
      rw [hval, h]; simp
    rw [if_neg (by rw [eq_fix' r2.1 (by omega)]; exact hr0)]
    rw [scmSign_eq h1]
    have hoff : ∀ o : Int, -1 ≤ o ∧ o ≤ 1 → ∃ z, (if o = 0 then Res.ok q else .ok (scmAdd q (makeInt o))) = .ok z ∧ z.IsInt (q.toInt + o) := by
      intro o ho
      by_cases h : o = 0
      · rw [if_pos h]; exact ⟨q, rfl, q2.1, by omega⟩
      · rw [if_neg h]
        have := makeInt_isInt (n := o) (by omega) (by omega)
        have ha := scmAdd_isInt q2.1 this.1
        rw [this.2] at ha
        exact ⟨_, rfl, ha⟩
    have hsg : n.toInt.sign < 0 ↔ r.toInt < 0 := by rw [sign_lt]; omega
    have hfrac : -(d.toInt : ℚ) < r.toInt ∧ (r.toInt : ℚ) < d.toInt := by
      have := abs_lt_of_natAbs t2 (by omega)
      constructor
      · exact_mod_cast this.1
      · exact_mod_cast this.2
    have hfl : ⌊(n.toInt : ℚ) / d.toInt⌋ = q.toInt + if r.toInt < 0 then -1 else 0 := by
      rw [Int.floor_eq_iff, hval]
      by_cases h : r.toInt < 0
      · rw [if_pos h]
        have h' : (r.toInt : ℚ) < 0 := by exact_mod_cast h
        have : -1 < (r.toInt : ℚ) / d.toInt := by rw [lt_div_iff₀ hd]; linarith
        have : (r.toInt : ℚ) / d.toInt < 0 := div_neg_of_neg_of_pos h' hd
        push_cast
        constructor <;> linarith
      · rw [if_neg h]
        have h' : (0 : ℚ) ≤ r.toInt := by exact_mod_cast (by omega : 0 ≤ r.toInt)
        have : (r.toInt : ℚ) / d.toInt < 1 := by rw [div_lt_iff₀ hd]; linarith
        have : 0 ≤ (r.toInt : ℚ) / d.toInt := div_nonneg h' hd.le
        push_cast
        constructor <;> linarith
    have hce : ⌈(n.toInt : ℚ) / d.toInt⌉ = q.toInt + if r.toInt < 0 then 0 else 1 := by
      rw [Int.ceil_eq_iff, hval]
      by_cases h : r.toInt < 0
      · rw [if_pos h]
        have h' : (r.toInt : ℚ) < 0 := by exact_mod_cast h
        have : -1 < (r.toInt : ℚ) / d.toInt := by rw [lt_div_iff₀ hd]; linarith
        have : (r.toInt : ℚ) / d.toInt < 0 := div_neg_of_neg_of_pos h' hd
        push_cast
        constructor <;> linarith
      · rw [if_neg h]
        have h' : (0 : ℚ) < r.toInt := by exact_mod_cast (by omega : 0 < r.toInt)
        have : (r.toInt : ℚ) / d.toInt < 1 := by rw [div_lt_iff₀ hd]; linarith
        have : 0 < (r.toInt : ℚ) / d.toInt := div_pos h' hd
        push_cast
        constructor <;> linarith
    cases mode with
    | floor =>
      dsimp only
      obtain ⟨z, z1, z2⟩ := hoff (if n.toInt.sign < 0 then -1 else 0) (by split <;> omega)
      refine ⟨z, z1, z2.1, ?_⟩
      rw [z2.2, hfl]
      simp only [hsg]
    | ceil =>
      dsimp only
      obtain ⟨z, z1, z2⟩ := hoff (if n.toInt.sign < 0 then 0 else 1) (by split <;> omega)
      refine ⟨z, z1, z2.1, ?_⟩
      rw [z2.2, hce]
      simp only [hsg]
    | trunc =>
      dsimp only
      rw [if_pos rfl]
      refine ⟨q, rfl, q2.1, ?_⟩
      by_cases h : r.toInt < 0
      · have : (n.toInt : ℚ) / d.toInt < 0 := div_neg_of_neg_of_pos (by exact_mod_cast (by omega : n.toInt < 0)) hd
        rw [if_neg (by linarith), hce, if_pos h]; omega
      · have : 0 ≤ (n.toInt : ℚ) / d.toInt := div_nonneg (by exact_mod_cast (by omega : 0 ≤ n.toInt)) hd.le
        rw [if_pos this, hfl, if_neg h]; omega
    | round =>
      dsimp only
      have h2i : (makeInt 2).IsInt 2 := makeInt_isInt (by omega) (by omega)
      have ab := scmAbs_isInt r2.1
      have mm := scmMul_isInt ab.1 h2i.1
      rw [ab.2, h2i.2] at mm
      have hcmp := scmNumCmp_spec h2 mm.1
      rw [mm.2] at hcmp
      generalize scmNumCmp d (scmMul (scmAbs r) (makeInt 2)) = c at *
      rw [scmOddP_spec q2.1]
      have hofs : ∃ o : Int, (if c > 0 then (0 : Int) else if c < 0 then (if n.toInt.sign < 0 then -1 else 1)
            else if decide (q.toInt % 2 = 1) = true then (if n.toInt.sign < 0 then -1 else 1) else 0) = o ∧ -1 ≤ o ∧ o ≤ 1 ∧
          ((o = 0 ∧ (2 * r.toInt.natAbs < d.toInt ∨ (2 * r.toInt.natAbs = d.toInt ∧ q.toInt % 2 = 0))) ∨
           (o = (if r.toInt < 0 then -1 else 1) ∧ (d.toInt < 2 * r.toInt.natAbs ∨ (2 * r.toInt.natAbs = d.toInt ∧ q.toInt % 2 = 1)))) := by
        refine ⟨_, rfl, ?_⟩
        simp only [hsg, decide_eq_true_eq]
        by_cases c1 : c > 0
        · rw [if_pos c1]; omega
        rw [if_neg c1]
        by_cases c2 : c < 0
        · rw [if_pos c2]; split <;> omega
        rw [if_neg c2]
        by_cases c3 : q.toInt % 2 = 1
        · rw [if_pos c3]; split <;> omega
        · rw [if_neg c3]; omega
      obtain ⟨o, ho, o1, o2, o3⟩ := hofs
      rw [ho]
      obtain ⟨z, z1, z2⟩ := hoff o ⟨o1, o2⟩
      refine ⟨z, z1, z2.1, ?_⟩
      rw [z2.2, hval]
      push_cast
      rw [show (q.toInt : ℚ) + r.toInt / d.toInt - (q.toInt + o) = (r.toInt - o * d.toInt) / d.toInt by field_simp; ring,
        abs_div, abs_of_pos hd, div_le_div_iff₀ hd (by norm_num), div_eq_div_iff hd.ne' (by norm_num)]
      rw [show |(r.toInt : ℚ) - o * d.toInt| = ((r.toInt - o * d.toInt).natAbs : ℚ) by
        rw [Nat.cast_natAbs]; push_cast; rfl]
      have cast1 : ∀ k : Nat, ((k : ℚ) * 2 ≤ 1 * d.toInt ↔ (k : Int) * 2 ≤ d.toInt) := by
        intro k; rw [one_mul]; exact_mod_cast Iff.rfl
      have cast2 : ∀ k : Nat, ((k : ℚ) * 2 = 1 * d.toInt ↔ (k : Int) * 2 = d.toInt) := by
        intro k; rw [one_mul]; exact_mod_cast Iff.rfl
      rw [cast1, cast2]
      rcases o3 with ⟨rfl, h⟩ | ⟨rfl, h⟩
      · rw [Int.zero_mul]; omega
      · by_cases hr : r.toInt < 0
        · rw [if_pos hr]; omega
        · rw [if_neg hr]; omega

end Gauche.Rational

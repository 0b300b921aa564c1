import Verif.Proof.IntCanon
import Verif.Spec.Rational
/-
Proofs about the exact rationals.
-/
namespace Gauche.Rational
open Gauche.Bignum Gauche.Integer

theorem sign_lt {z : Int} : z.sign < 0 ↔ z < 0 := by
  rcases Int.lt_trichotomy z 0 with h | h | h
  · rw [Int.sign_eq_neg_one_of_neg h]; omega
  · subst h; simp
  · rw [Int.sign_eq_one_of_pos h]; omega

theorem eq_fix {x : Num} (hx : x.Canonical) {n : Int} (hn : FIXMIN ≤ n ∧ n ≤ FIXMAX) : x = .fix n ↔ x.toInt = n :=
  ⟨fun h => by rw [h]; rfl, fun h => canon_unique hx (y := .fix n) hn h⟩

theorem fix_small {n : Int} (h : -10 ≤ n ∧ n ≤ 10) : FIXMIN ≤ n ∧ n ≤ FIXMAX := by
  have h1 : FIXMIN = -2305843009213693952 := rfl
  have h2 : FIXMAX = 2305843009213693951 := rfl
  omega

theorem eq_fix' {x : Num} (hx : x.Canonical) {n : Int} (hn : -10 ≤ n ∧ n ≤ 10) : x = .fix n ↔ x.toInt = n := eq_fix hx (fix_small hn)

theorem cmp_eq {x y : Num} (hx : x.Canonical) (hy : y.Canonical) : scmNumCmp x y = 0 ↔ x.toInt = y.toInt := by
  rcases scmNumCmp_spec hx hy with h | h | h <;> omega

theorem gcd_isInt {x y : Num} (hx : x.Canonical) (hy : y.Canonical) (h0 : x.toInt ≠ 0) (h1 : y.toInt ≠ 0) :
    ∃ g, gcd x y = .ok g ∧ g.IsInt (Int.gcd x.toInt y.toInt) :=
  scmGcd_signed hx hy (Or.inl ⟨h0, h1⟩) (by omega)

/-- `Scm_MakeRational` with a positive denominator or after sign normalisation. -/
theorem makeRational_spec {n d : Num} (hn : n.Canonical) (hd : d.Canonical) (h0 : d.toInt ≠ 0)
    (hc : ¬ (n.toInt * d.toInt.sign = FIXMIN ∧ (FIXMAX + 1) ∣ d.toInt)) :
    ∃ r, makeRational n d = .ok r ∧ r.IsRat ((n.toInt : ℚ) / d.toInt) := by
  unfold makeRational
  rw [if_neg (by rw [eq_fix' hd (by omega)]; exact h0)]
  by_cases h1 : d = .fix 1
  · rw [if_pos h1]
    refine ⟨_, rfl, hn, ?_⟩
    subst h1
    show (n.toInt : ℚ) = n.toInt / ((1 : Int) : ℚ)
    simp
  rw [if_neg h1]
  by_cases h2 : n = .fix 0
  · rw [if_pos h2]
    subst h2
    refine ⟨_, rfl, fix0_canonical, ?_⟩
    show ((0 : Int) : ℚ) = ((0 : Int) : ℚ) / d.toInt
    simp
  rw [if_neg h2]
  have hn0 : n.toInt ≠ 0 := by rw [eq_fix' hn (by omega)] at h2; exact h2
  -- sign normalisation
  obtain ⟨n', d', e, cn, cd, ev, hpos, hn', hc', hnd⟩ : ∃ n' d', (if scmSign d < 0 then (scmNegate n, scmNegate d) else (n, d)) = (n', d') ∧
      n'.Canonical ∧ d'.Canonical ∧ (n.toInt : ℚ) / d.toInt = n'.toInt / d'.toInt ∧ 0 < d'.toInt ∧ n'.toInt ≠ 0 ∧
      ¬ (n'.toInt = FIXMIN ∧ (FIXMAX + 1) ∣ d'.toInt) ∧ True := by
    by_cases hs : scmSign d < 0
    · rw [if_pos hs]
      rw [scmSign_eq hd, sign_lt] at hs
      have i1 := scmNegate_isInt hn
      have i2 := scmNegate_isInt hd
      refine ⟨_, _, rfl, i1.1, i2.1, ?_, by rw [i2.2]; omega, by rw [i1.2]; omega, ?_, trivial⟩
      · rw [i1.2, i2.2]; push_cast; rw [neg_div_neg_eq]
      · rw [i1.2, i2.2, Int.dvd_neg]
        rw [Int.sign_eq_neg_one_of_neg hs] at hc
        rwa [← Int.mul_neg_one]
    · rw [if_neg hs]
      rw [scmSign_eq hd, sign_lt] at hs
      have hp : 0 < d.toInt := by omega
      refine ⟨_, _, rfl, hn, hd, rfl, hp, hn0, ?_, trivial⟩
      rw [Int.sign_eq_one_of_pos hp, Int.mul_one] at hc
      exact hc
  unfold reduceRational
  dsimp only
  rw [e, ev]
  dsimp only
  by_cases h3 : d' = .fix 1
  · rw [if_pos h3]
    refine ⟨_, rfl, cn, ?_⟩
    subst h3
    show (n'.toInt : ℚ) = n'.toInt / ((1 : Int) : ℚ)
    simp
  rw [if_neg h3, if_neg (by rw [eq_fix' cd (by omega)]; omega)]
  have h3' : d'.toInt ≠ 1 := by rw [eq_fix' cd (by omega)] at h3; exact h3
  obtain ⟨g, g1, g2⟩ := gcd_isInt cn cd hn' (by omega)
  rw [g1]
  simp only [Res.bind]
  by_cases h4 : g = .fix 1
  · rw [if_pos h4]
    refine ⟨_, rfl, ⟨cn, cd, by omega, ?_⟩, rfl⟩
    subst h4
    have : (1 : Int) = Int.gcd n'.toInt d'.toInt := g2.2
    omega
  rw [if_neg h4]
  have hgpos : 0 < Int.gcd n'.toInt d'.toInt := Int.gcd_pos_of_ne_zero_left _ hn'
  have hg0 : g.toInt ≠ 0 := by rw [g2.2]; omega
  have hdn : (Int.gcd n'.toInt d'.toInt : Int) ∣ n'.toInt := Int.gcd_dvd_left _ _
  have hdd : (Int.gcd n'.toInt d'.toInt : Int) ∣ d'.toInt := Int.gcd_dvd_right _ _
  obtain ⟨qn, rn, q1, q2, -⟩ := quotient_isInt cn g2.1 hg0 (by
    rintro ⟨a1, a2 | a2⟩
    · rw [g2.2] at a2; omega
    · apply hc'
      refine ⟨a1, ?_⟩
      rw [← a2, g2.2]; exact hdd)
  obtain ⟨qd, rd, p1, p2, -⟩ := quotient_isInt cd g2.1 hg0 (by
    rintro ⟨a1, -⟩
    have : FIXMIN = -2305843009213693952 := rfl
    omega)
  rw [q1]
  dsimp only
  rw [p1]
  dsimp only
  rw [g2.2] at q2 p2
  generalize hG : Int.gcd n'.toInt d'.toInt = G at *
  obtain ⟨a, ha⟩ := hdn
  obtain ⟨b, hb⟩ := hdd
  have hGz : (G : Int) ≠ 0 := by omega
  rw [ha, Int.mul_tdiv_cancel_left _ hGz] at q2
  rw [hb, Int.mul_tdiv_cancel_left _ hGz] at p2
  have hb0 : 0 < b := by
    rw [hb] at hpos
    exact Int.pos_of_mul_pos_right hpos (by omega)
  have hGq : (G : ℚ) ≠ 0 := by exact_mod_cast hGz
  have hbq : (b : ℚ) ≠ 0 := by exact_mod_cast (by omega : b ≠ 0)
  have hv : (n'.toInt : ℚ) / d'.toInt = a / b := by
    rw [ha, hb]; push_cast
    rw [mul_div_mul_left _ _ hGq]
  have hco : Int.gcd a b = 1 := by
    rw [ha, hb, Int.gcd_mul_left, Int.natAbs_natCast] at hG
    have : G * Int.gcd a b = G * 1 := by omega
    exact Nat.eq_of_mul_eq_mul_left hgpos this
  by_cases h5 : qd = .fix 1
  · rw [if_pos h5]
    refine ⟨_, rfl, q2.1, ?_⟩
    have : b = 1 := by rw [← p2.2, h5]; rfl
    rw [hv, this]
    show (qn.toInt : ℚ) = _
    rw [q2.2]; simp
  · rw [if_neg h5]
    have hb1 : b ≠ 1 := by
      intro hb1
      apply h5
      rw [eq_fix' p2.1 (by omega), p2.2, hb1]
    refine ⟨_, rfl, ⟨q2.1, p2.1, by rw [p2.2]; omega, by rw [q2.2, p2.2]; exact hco⟩, ?_⟩
    show (qn.toInt : ℚ) / qd.toInt = _
    rw [hv, q2.2, p2.2]

theorem makeRational_zero (n : Num) : makeRational n (.fix 0) = .err := by
  unfold makeRational; rw [if_pos rfl]

/-! ### numerator and denominator of canonical objects -/

theorem num_den {x : Q} (hx : x.Canonical) :
    (numerator x).IsInt x.val.num ∧ (denominator x).IsInt x.val.den ∧ x.val = (numerator x).toInt / (denominator x).toInt := by
  cases x with
  | int n =>
    refine ⟨⟨hx, ?_⟩, ?_, ?_⟩
    · show n.toInt = ((n.toInt : Int) : ℚ).num
      simp
    · have : (Q.int n).val.den = 1 := Rat.den_intCast _
      rw [this]
      exact makeInt_isInt (by decide +kernel) (by decide +kernel)
    · show (n.toInt : ℚ) = n.toInt / ((makeInt 1).toInt : ℚ)
      have : (makeInt 1).toInt = 1 := by decide +kernel
      rw [this]; simp
  | rat n d =>
    obtain ⟨h1, h2, h3, h4⟩ := hx
    have hd : 0 < d.toInt := by omega
    have hcop : n.toInt.natAbs.Coprime d.toInt.natAbs := h4
    have e : (Q.rat n d).val = (n.toInt : ℚ) / d.toInt := rfl
    refine ⟨⟨h1, ?_⟩, ⟨h2, ?_⟩, rfl⟩
    · show n.toInt = _
      rw [e, Rat.num_div_eq_of_coprime hd hcop]
    · show d.toInt = _
      rw [e]
      exact (Rat.den_div_eq_of_coprime hd hcop).symm

theorem canonQ_unique {x y : Q} (hx : x.Canonical) (hy : y.Canonical) (h : x.val = y.val) : x = y := by
  obtain ⟨a1, a2, -⟩ := num_den hx
  obtain ⟨b1, b2, -⟩ := num_den hy
  rw [← h] at b1 b2
  have e1 : numerator x = numerator y := canon_unique a1.1 b1.1 (by rw [a1.2, b1.2])
  have e2 : denominator x = denominator y := canon_unique a2.1 b2.1 (by rw [a2.2, b2.2])
  have hone : (makeInt 1).toInt = 1 := by decide +kernel
  cases x with
  | int n =>
    cases y with
    | int m => exact congrArg _ e1
    | rat m d =>
      have : (makeInt 1).toInt = d.toInt := congrArg Num.toInt e2
      have := hy.2.2.1
      omega
  | rat n d =>
    cases y with
    | int m =>
      have : d.toInt = (makeInt 1).toInt := congrArg Num.toInt e2
      have := hx.2.2.1
      omega
    | rat m e =>
      have e1 : n = m := e1
      have e2 : d = e := e2
      rw [e1, e2]

/-! ### addition and subtraction -/

theorem addSubFinish_spec {nx ny dr : Num} (s : Bool) (h1 : nx.Canonical) (h2 : ny.Canonical) (h3 : dr.Canonical) (hd : 0 < dr.toInt)
    (hc : ¬ ((if s then nx.toInt - ny.toInt else nx.toInt + ny.toInt) = FIXMIN ∧ (FIXMAX + 1) ∣ dr.toInt)) :
    ∃ r, addSubFinish nx ny dr s = .ok r ∧ r.IsRat (((if s then nx.toInt - ny.toInt else nx.toInt + ny.toInt : Int) : ℚ) / dr.toInt) := by
  unfold addSubFinish
  have : (if s then scmSub nx ny else scmAdd nx ny).IsInt (if s then nx.toInt - ny.toInt else nx.toInt + ny.toInt) := by
    cases s
    · exact scmAdd_isInt h1 h2
    · exact scmSub_isInt h1 h2
  have := makeRational_spec this.1 h3 (by omega) (by rw [this.2, Int.sign_eq_one_of_pos hd, Int.mul_one]; exact hc)
  rename_i t
  rw [t.2] at this
  exact this

/-- The result of an addition or subtraction brought to the denominator `L`. -/
theorem addSub_of {nx ny dr : Num} (s : Bool) {x y : ℚ} {L : Int} (hL : 0 < L) (h1 : nx.Canonical) (e1 : (nx.toInt : ℚ) = x * L)
    (h2 : ny.Canonical) (e2 : (ny.toInt : ℚ) = y * L) (h3 : dr.IsInt L)
    (hc : ¬ ((if s then x - y else x + y) * L = FIXMIN ∧ (FIXMAX + 1) ∣ L)) :
    ∃ r, addSubFinish nx ny dr s = .ok r ∧ r.IsRat (if s then x - y else x + y) := by
  have key : (((if s then nx.toInt - ny.toInt else nx.toInt + ny.toInt : Int)) : ℚ) = (if s then x - y else x + y) * L := by
    cases s
    · simp only [Bool.false_eq_true, if_false]; push_cast; rw [e1, e2]; ring
    · simp only [if_true]; push_cast; rw [e1, e2]; ring
  obtain ⟨r, r1, r2⟩ := addSubFinish_spec s h1 h2 h3.1 (by rw [h3.2]; exact hL) (by
    rw [h3.2]
    rintro ⟨a1, a2⟩
    refine hc ⟨?_, a2⟩
    rw [← key, a1])
  refine ⟨r, r1, ?_⟩
  rw [key, h3.2, mul_div_assoc, div_self (by exact_mod_cast (by omega : L ≠ 0)), mul_one] at r2
  exact r2

/-- `n/d` brought to the denominator `k*d`. -/
theorem scale {n d : Int} (hd : d ≠ 0) {x : ℚ} (hx : x = n / d) (k : Int) : ((k * n : Int) : ℚ) = x * (k * d : Int) := by
  have : (d : ℚ) ≠ 0 := by exact_mod_cast hd
  rw [hx]; push_cast; field_simp

theorem ratnumAddSub_spec {x y : Q} (hx : x.Canonical) (hy : y.Canonical) (s : Bool)
    (hc : ¬ ((if s then x.val - y.val else x.val + y.val) * (Nat.lcm x.val.den y.val.den : Int) = FIXMIN ∧
      (FIXMAX + 1) ∣ (Nat.lcm x.val.den y.val.den : Int))) :
    ∃ r, ratnumAddSub x y s = .ok r ∧ r.IsRat (if s then x.val - y.val else x.val + y.val) := by
  obtain ⟨nx1, dx1, vx⟩ := num_den hx
  obtain ⟨ny1, dy1, vy⟩ := num_den hy
  unfold ratnumAddSub
  dsimp only
  generalize numerator x = nx at *
  generalize numerator y = ny at *
  generalize denominator x = dx at *
  generalize denominator y = dy at *
  have hdx := x.val.den_pos
  have hdy := y.val.den_pos
  generalize x.val = u at *
  generalize y.val = v at *
  have hdx0 : 0 < dx.toInt := by rw [dx1.2]; omega
  have hdy0 : 0 < dy.toInt := by rw [dy1.2]; omega
  by_cases h1 : scmNumCmp dx dy = 0
  · rw [if_pos h1]
    rw [cmp_eq dx1.1 dy1.1] at h1
    have hdd : u.den = v.den := by rw [dx1.2, dy1.2] at h1; omega
    rw [hdd, Nat.lcm_self] at hc
    have e1 := scale (by omega) vx 1
    have e2 := scale (by omega) vy 1
    rw [Int.one_mul, Int.one_mul] at e1 e2
    refine addSub_of s (L := v.den) (by omega) nx1.1 ?_ ny1.1 ?_ (by rw [← hdd]; exact dx1) hc
    · rw [e1, dx1.2, hdd]
    · rw [e2, dy1.2]
  rw [if_neg h1]
  rw [cmp_eq dx1.1 dy1.1] at h1
  have hG : ∃ g, (if dx = .fix 1 ∨ dx = .fix 1 then Res.ok (makeInt 1) else gcd dx dy) = .ok g ∧ g.IsInt (Nat.gcd u.den v.den) := by
    by_cases h2 : dx = .fix 1
    · rw [if_pos (Or.inl h2)]
      have : u.den = 1 := by
        have h3 := dx1.2
        rw [h2] at h3
        have h3 : (1 : Int) = u.den := h3
        omega
      rw [this, Nat.gcd_one_left]
      exact ⟨_, rfl, makeInt_isInt (by decide +kernel) (by decide +kernel)⟩
    · rw [if_neg (by simp [h2])]
      obtain ⟨g, g1, g2⟩ := gcd_isInt dx1.1 dy1.1 (by omega) (by omega)
      refine ⟨g, g1, ?_⟩
      rw [dx1.2, dy1.2, Int.gcd_natCast_natCast] at g2
      exact g2
  obtain ⟨g, g1, g2⟩ := hG
  rw [g1]
  simp only [Res.bind]
  have hgpos : 0 < Nat.gcd u.den v.den := Nat.gcd_pos_of_pos_left _ hdx
  have hm : ∀ z : Int, 0 < z → ¬ (z = FIXMIN ∧ (g.toInt = -1 ∨ g.toInt = FIXMAX + 1)) := by
    intro z hz h
    have : FIXMIN = -2305843009213693952 := rfl
    omega
  by_cases h3 : scmNumCmp dx g = 0
  · rw [if_pos h3]
    rw [cmp_eq dx1.1 g2.1, dx1.2, g2.2] at h3
    have hdvd : u.den ∣ v.den := by
      have : u.den = Nat.gcd u.den v.den := by omega
      rw [this]; exact Nat.gcd_dvd_right _ _
    obtain ⟨k, hk⟩ := hdvd
    obtain ⟨q, r, q1, q2, -⟩ := quotient_isInt dy1.1 dx1.1 (by omega) (by
      have : FIXMIN = -2305843009213693952 := rfl
      omega)
    rw [q1]
    dsimp only
    have hq : Int.tdiv dy.toInt dx.toInt = k := by
      rw [dy1.2, dx1.2, hk]; push_cast
      rw [Int.mul_tdiv_cancel_left _ (by omega)]
    rw [hq] at q2
    have hl : Nat.lcm u.den v.den = v.den := Nat.lcm_eq_right ⟨k, hk⟩
    rw [hl] at hc
    have m1 := scmMul_isInt q2.1 nx1.1
    have e1 := scale (by omega) vx k
    have e2 := scale (by omega) vy 1
    rw [Int.one_mul, Int.one_mul] at e2
    refine addSub_of s (L := v.den) (by omega) m1.1 ?_ ny1.1 ?_ dy1 hc
    · rw [m1.2, q2.2, e1, dx1.2, hk]; push_cast; ring
    · rw [e2, dy1.2]
  rw [if_neg h3]
  by_cases h4 : scmNumCmp dy g = 0
  · rw [if_pos h4]
    rw [cmp_eq dy1.1 g2.1, dy1.2, g2.2] at h4
    have hdvd : v.den ∣ u.den := by
      have : v.den = Nat.gcd u.den v.den := by omega
      rw [this]; exact Nat.gcd_dvd_left _ _
    obtain ⟨k, hk⟩ := hdvd
    obtain ⟨q, r, q1, q2, -⟩ := quotient_isInt dx1.1 dy1.1 (by omega) (by
      have : FIXMIN = -2305843009213693952 := rfl
      omega)
    rw [q1]
    dsimp only
    have hq : Int.tdiv dx.toInt dy.toInt = k := by
      rw [dy1.2, dx1.2, hk]; push_cast
      rw [Int.mul_tdiv_cancel_left _ (by omega)]
    rw [hq] at q2
    have hl : Nat.lcm u.den v.den = u.den := Nat.lcm_eq_left ⟨k, hk⟩
    rw [hl] at hc
    have m1 := scmMul_isInt q2.1 ny1.1
    have e1 := scale (by omega) vy k
    have e2 := scale (by omega) vx 1
    rw [Int.one_mul, Int.one_mul] at e2
    refine addSub_of s (L := u.den) (by omega) nx1.1 ?_ m1.1 ?_ dx1 hc
    · rw [e2, dx1.2]
    · rw [m1.2, q2.2, e1, dy1.2, hk]; push_cast; ring
  rw [if_neg h4]
  obtain ⟨fx, r, f1, f2, -⟩ := quotient_isInt dx1.1 g2.1 (by rw [g2.2]; omega) (hm _ hdx0)
  obtain ⟨fy, r', f3, f4, -⟩ := quotient_isInt dy1.1 g2.1 (by rw [g2.2]; omega) (hm _ hdy0)
  rw [f1]
  dsimp only
  rw [f3]
  dsimp only
  have hdx2 : Nat.gcd u.den v.den ∣ u.den := Nat.gcd_dvd_left _ _
  have hdy2 : Nat.gcd u.den v.den ∣ v.den := Nat.gcd_dvd_right _ _
  have hlcm : Nat.gcd u.den v.den * Nat.lcm u.den v.den = u.den * v.den := Nat.gcd_mul_lcm _ _
  generalize Nat.gcd u.den v.den = G at *
  obtain ⟨a, ha⟩ := hdx2
  obtain ⟨b, hb⟩ := hdy2
  rw [dx1.2, g2.2, ha] at f2
  rw [dy1.2, g2.2, hb] at f4
  push_cast at f2 f4
  rw [Int.mul_tdiv_cancel_left _ (by omega)] at f2 f4
  have hl1 : Nat.lcm u.den v.den = b * u.den := by
    apply Nat.eq_of_mul_eq_mul_left hgpos
    rw [hlcm]; conv_lhs => rw [hb]
    ring
  have hl2 : Nat.lcm u.den v.den = a * v.den := by
    apply Nat.eq_of_mul_eq_mul_left hgpos
    rw [hlcm]; conv_lhs => rw [ha]
    ring
  have hL : 0 < Nat.lcm u.den v.den := Nat.lcm_pos hdx hdy
  have m1 := scmMul_isInt nx1.1 f4.1
  have m2 := scmMul_isInt ny1.1 f2.1
  have m3 := scmMul_isInt dx1.1 f4.1
  rw [f4.2] at m1 m3
  rw [f2.2] at m2
  have e1 := scale (by omega) vx b
  have e2 := scale (by omega) vy a
  refine addSub_of s (L := (Nat.lcm u.den v.den : Nat)) (by omega) m1.1 ?_ m2.1 ?_ ⟨m3.1, ?_⟩ hc
  · rw [m1.2, Int.mul_comm, e1, dx1.2, hl1]; push_cast; ring
  · rw [m2.2, Int.mul_comm, e2, dy1.2, hl2]; push_cast; ring
  · rw [m3.2, dx1.2, hl1]; push_cast; ring

theorem qAdd_spec {x y : Q} (hx : x.Canonical) (hy : y.Canonical)
    (hc : ¬ ((x.val + y.val) * (Nat.lcm x.val.den y.val.den : Int) = FIXMIN ∧ (FIXMAX + 1) ∣ (Nat.lcm x.val.den y.val.den : Int))) :
    ∃ r, qAdd x y = .ok r ∧ r.IsRat (x.val + y.val) := by
  have key := ratnumAddSub_spec hx hy false hc
  simp only [Bool.false_eq_true, if_false] at key
  cases x with
  | int a =>
    cases y with
    | int b =>
      have := scmAdd_isInt hx hy
      refine ⟨_, rfl, this.1, ?_⟩
      show ((scmAdd a b).toInt : ℚ) = (a.toInt : ℚ) + b.toInt
      rw [this.2]; push_cast; rfl
    | rat n d =>
      unfold qAdd
      dsimp only
      by_cases h : a = .fix 0
      · rw [if_pos h]; subst h
        refine ⟨_, rfl, hy, ?_⟩
        show _ = (((0 : Int)) : ℚ) + _
        simp
      · rw [if_neg h]; exact key
  | rat n d =>
    cases y with
    | int a =>
      unfold qAdd
      dsimp only
      by_cases h : a = .fix 0
      · rw [if_pos h]; subst h
        refine ⟨_, rfl, hx, ?_⟩
        show _ = _ + (((0 : Int)) : ℚ)
        simp
      · rw [if_neg h]; exact key
    | rat m e => exact key

theorem qSub_spec {x y : Q} (hx : x.Canonical) (hy : y.Canonical)
    (hc : ¬ ((x.val - y.val) * (Nat.lcm x.val.den y.val.den : Int) = FIXMIN ∧ (FIXMAX + 1) ∣ (Nat.lcm x.val.den y.val.den : Int))) :
    ∃ r, qSub x y = .ok r ∧ r.IsRat (x.val - y.val) := by
  have key := ratnumAddSub_spec hx hy true hc
  simp only [if_true] at key
  cases x with
  | int a =>
    cases y with
    | int b =>
      have := scmSub_isInt hx hy
      refine ⟨_, rfl, this.1, ?_⟩
      show ((scmSub a b).toInt : ℚ) = (a.toInt : ℚ) - b.toInt
      rw [this.2]; push_cast; rfl
    | rat n d => exact key
  | rat n d =>
    cases y with
    | int a =>
      unfold qSub
      dsimp only
      by_cases h : a = .fix 0
      · rw [if_pos h]; subst h
        refine ⟨_, rfl, hx, ?_⟩
        show _ = _ - (((0 : Int)) : ℚ)
        simp
      · rw [if_neg h]; exact key
    | rat m e => exact key

/-! ### multiplication and division -/

theorem qMul_spec {x y : Q} (hx : x.Canonical) (hy : y.Canonical)
    (hc : ¬ (x.val.num * y.val.num = FIXMIN ∧ (FIXMAX + 1) ∣ (x.val.den * y.val.den : Int))) :
    ∃ r, qMul x y = .ok r ∧ r.IsRat (x.val * y.val) := by
  have key : ∃ r, ratnumMulDiv x y false = .ok r ∧ r.IsRat (x.val * y.val) := by
    obtain ⟨nx1, dx1, vx⟩ := num_den hx
    obtain ⟨ny1, dy1, vy⟩ := num_den hy
    have m1 := scmMul_isInt nx1.1 ny1.1
    have m2 := scmMul_isInt dx1.1 dy1.1
    have hdx := x.val.den_pos
    have hdy := y.val.den_pos
    rw [nx1.2, ny1.2] at m1
    rw [dx1.2, dy1.2] at m2
    have hp : (0 : Int) < x.val.den * y.val.den := by positivity
    obtain ⟨r, r1, r2⟩ := makeRational_spec m1.1 m2.1 (by rw [m2.2]; omega) (by
      rw [m2.2, m1.2, Int.sign_eq_one_of_pos hp, Int.mul_one]; exact hc)
    refine ⟨r, r1, ?_⟩
    rw [m1.2, m2.2] at r2
    have : x.val * y.val = ((x.val.num * y.val.num : Int) : ℚ) / ((x.val.den * y.val.den : Int) : ℚ) := by
      conv_lhs => rw [vx, vy, nx1.2, ny1.2, dx1.2, dy1.2]
      push_cast; rw [div_mul_div_comm]
    rw [this]; exact r2
  cases x with
  | int a =>
    cases y with
    | int b =>
      have := scmMul_isInt hx hy
      refine ⟨_, rfl, this.1, ?_⟩
      show ((scmMul a b).toInt : ℚ) = (a.toInt : ℚ) * b.toInt
      rw [this.2]; push_cast; rfl
    | rat n d =>
      unfold qMul
      dsimp only
      by_cases h : a = .fix 0
      · rw [if_pos h]; subst h
        refine ⟨_, rfl, hx, ?_⟩
        show ((0 : Int) : ℚ) = ((0 : Int) : ℚ) * _
        simp
      rw [if_neg h]
      by_cases h1 : a = .fix 1
      · rw [if_pos h1]; subst h1
        refine ⟨_, rfl, hy, ?_⟩
        show _ = ((1 : Int) : ℚ) * _
        simp
      · rw [if_neg h1]; exact key
  | rat n d =>
    cases y with
    | int a =>
      unfold qMul
      dsimp only
      by_cases h : a = .fix 0
      · rw [if_pos h]; subst h
        refine ⟨_, rfl, hy, ?_⟩
        show ((0 : Int) : ℚ) = _ * ((0 : Int) : ℚ)
        simp
      rw [if_neg h]
      by_cases h1 : a = .fix 1
      · rw [if_pos h1]; subst h1
        refine ⟨_, rfl, hx, ?_⟩
        show _ = _ * ((1 : Int) : ℚ)
        simp
      · rw [if_neg h1]; exact key
    | rat m e => exact key

/-- `MakeRational` applied to the numerator and denominator of a quotient. -/
theorem div_of {n d : Num} {x y : ℚ} (hn : n.IsInt (x.num * y.den)) (hd : d.IsInt (x.den * y.num)) (hy : y ≠ 0)
    (hc : ¬ (x.num * y.den * y.num.sign = FIXMIN ∧ (FIXMAX + 1) ∣ (x.den * y.num))) :
    ∃ r, makeRational n d = .ok r ∧ r.IsRat (x / y) := by
  have hdx : (0 : Int) < x.den := by have := x.den_pos; omega
  have hny : y.num ≠ 0 := Rat.num_ne_zero.mpr hy
  obtain ⟨r, r1, r2⟩ := makeRational_spec hn.1 hd.1 (by rw [hd.2]; exact mul_ne_zero (by omega) hny) (by
    rw [hn.2, hd.2, Int.sign_mul, Int.sign_eq_one_of_pos hdx, Int.one_mul]; exact hc)
  refine ⟨r, r1, ?_⟩
  rw [hn.2, hd.2] at r2
  have : x / y = ((x.num * y.den : Int) : ℚ) / ((x.den * y.num : Int) : ℚ) := by
    conv_lhs => rw [← Rat.num_div_den x, ← Rat.num_div_den y]
    push_cast; rw [div_div_div_eq]
  rw [this]; exact r2

theorem qDiv_spec {x y : Q} (hx : x.Canonical) (hy : y.Canonical) (h0 : y.val ≠ 0)
    (hc : ¬ (x.val.num * y.val.den * y.val.num.sign = FIXMIN ∧ (FIXMAX + 1) ∣ (x.val.den * y.val.num))) :
    ∃ r, qDiv x y = .ok r ∧ r.IsRat (x.val / y.val) := by
  obtain ⟨nx1, dx1, vx⟩ := num_den hx
  obtain ⟨ny1, dy1, vy⟩ := num_den hy
  have hz : ∀ {b : Int}, y = .int (.fix b) → b ≠ 0 := by
    rintro b rfl rfl
    exact h0 (by show ((0 : Int) : ℚ) = 0; simp)
  have hden1 : ∀ a : Num, (Q.int a).val.den = 1 := fun a => Rat.den_intCast _
  have hnum1 : ∀ a : Num, (Q.int a).val.num = a.toInt := fun a => Rat.num_intCast _
  have zero_case : ∀ {z : Q} {a : Int}, a = 0 → x = .int (.fix a) → ∃ r, Res.ok (Q.int (.fix a)) = .ok r ∧ r.IsRat (x.val / z.val) := by
    rintro z a rfl rfl
    refine ⟨_, rfl, hx, ?_⟩
    show ((0 : Int) : ℚ) = ((0 : Int) : ℚ) / _
    simp
  have one_case : ∀ {b : Int}, b = 1 → y = .int (.fix b) → ∃ r, Res.ok x = .ok r ∧ r.IsRat (x.val / y.val) := by
    rintro b rfl rfl
    refine ⟨_, rfl, hx, ?_⟩
    show _ = x.val / ((1 : Int) : ℚ)
    simp
  have ii : ∀ {a b : Num}, x = .int a → y = .int b → ∃ r, makeRational a b = .ok r ∧ r.IsRat (x.val / y.val) := by
    rintro a b rfl rfl
    refine div_of ⟨hx, ?_⟩ ⟨hy, ?_⟩ h0 hc
    · rw [hnum1, hden1]; simp
    · rw [hnum1, hden1]; simp
  have ir : ∀ {a n d : Num}, x = .int a → y = .rat n d → ∃ r, makeRational (scmMul a d) n = .ok r ∧ r.IsRat (x.val / y.val) := by
    rintro a n d rfl rfl
    have := scmMul_isInt hx hy.2.1
    refine div_of ⟨this.1, ?_⟩ ⟨hy.1, ?_⟩ h0 hc
    · rw [this.2, hnum1]
      exact congrArg _ dy1.2
    · rw [hden1, Nat.cast_one, Int.one_mul]; exact ny1.2
  have ri : ∀ {a n d : Num}, y = .int a → x = .rat n d → ∃ r, makeRational n (scmMul d a) = .ok r ∧ r.IsRat (x.val / y.val) := by
    rintro a n d rfl rfl
    have := scmMul_isInt hx.2.1 hy
    refine div_of ⟨hx.1, ?_⟩ ⟨this.1, ?_⟩ h0 hc
    · rw [hden1, Nat.cast_one, Int.mul_one]; exact nx1.2
    · rw [this.2, hnum1]
      exact congrArg (· * _) dx1.2
  cases x with
  | int a =>
    cases y with
    | int b =>
      cases a with
      | fix a =>
        cases b with
        | fix b =>
          unfold qDiv
          dsimp only
          rw [if_neg (hz rfl)]
          by_cases h : a = 0
          · rw [if_pos h]; exact zero_case h rfl
          rw [if_neg h]
          by_cases h1 : b = 1
          · rw [if_pos h1]; exact one_case h1 rfl
          · rw [if_neg h1]; exact ii rfl rfl
        | big b =>
          unfold qDiv
          dsimp only
          by_cases h : a = 0
          · rw [if_pos h]; exact zero_case h rfl
          · rw [if_neg h]; exact ii rfl rfl
      | big a =>
        cases b with
        | fix b =>
          unfold qDiv
          dsimp only
          rw [if_neg (hz rfl)]
          by_cases h1 : b = 1
          · rw [if_pos h1]; exact one_case h1 rfl
          · rw [if_neg h1]; exact ii rfl rfl
        | big b => exact ii rfl rfl
    | rat n d =>
      cases a with
      | fix a => exact ir rfl rfl
      | big a => exact ir rfl rfl
  | rat n d =>
    cases y with
    | int b =>
      cases b with
      | fix b =>
        unfold qDiv
        dsimp only
        rw [if_neg (hz rfl)]
        by_cases h1 : b = 1
        · rw [if_pos h1]; exact one_case h1 rfl
        · rw [if_neg h1]; exact ri rfl rfl
      | big b => exact ri rfl rfl
    | rat m e =>
      have m1 := scmMul_isInt nx1.1 dy1.1
      have m2 := scmMul_isInt dx1.1 ny1.1
      rw [nx1.2, dy1.2] at m1
      rw [dx1.2, ny1.2] at m2
      exact div_of m1 m2 h0 hc

theorem qDiv_zero {x : Q} (h : x.Canonical) : qDiv x (.int (.fix 0)) = .err := by
  cases x with
  | int a => cases a <;> rfl
  | rat n d => rfl

/-! ### unary operations -/

theorem coprime_pow2 {n d : Int} (h : Int.gcd n d = 1) : ¬ (n = FIXMIN ∧ (FIXMAX + 1) ∣ d) := by
  rintro ⟨h1, h2⟩
  have e : FIXMIN = -(FIXMAX + 1) := rfl
  have h3 : (FIXMAX + 1) ∣ n := by rw [h1, e]; exact Int.dvd_neg.mpr (Int.dvd_refl _)
  have := Int.dvd_coe_gcd h3 h2
  rw [h] at this
  have e1 : FIXMAX + 1 = 2305843009213693952 := rfl
  have := Int.le_of_dvd (by omega) this
  omega

theorem qNegate_spec {x : Q} (hx : x.Canonical) : ∃ r, qNegate x = .ok r ∧ r.IsRat (-x.val) := by
  cases x with
  | int a =>
    have := scmNegate_isInt hx
    refine ⟨_, rfl, this.1, ?_⟩
    show ((scmNegate a).toInt : ℚ) = -(a.toInt : ℚ)
    rw [this.2]; push_cast; rfl
  | rat n d =>
    obtain ⟨h1, h2, h3, h4⟩ := hx
    have := scmNegate_isInt h1
    obtain ⟨r, r1, r2⟩ := makeRational_spec this.1 h2 (by omega) (by
      rw [this.2, Int.sign_eq_one_of_pos (by omega), Int.mul_one]
      exact coprime_pow2 (by rw [Int.neg_gcd]; exact h4))
    refine ⟨r, r1, ?_⟩
    rw [this.2] at r2
    push_cast at r2
    rw [neg_div] at r2
    exact r2

theorem qAbs_spec {x : Q} (hx : x.Canonical) : ∃ r, qAbs x = .ok r ∧ r.IsRat |x.val| := by
  cases x with
  | int a =>
    have := scmAbs_isInt hx
    refine ⟨_, rfl, this.1, ?_⟩
    show ((scmAbs a).toInt : ℚ) = |(a.toInt : ℚ)|
    rw [this.2, Int.natCast_natAbs]; push_cast; rfl
  | rat n d =>
    have hx' := hx
    obtain ⟨h1, h2, h3, h4⟩ := hx
    have hd : (0 : ℚ) < d.toInt := by exact_mod_cast (by omega : 0 < d.toInt)
    unfold qAbs
    dsimp only
    by_cases hs : scmSign n < 0
    · rw [if_pos hs]
      rw [scmSign_eq h1, sign_lt] at hs
      obtain ⟨r, r1, r2⟩ := qNegate_spec hx'
      refine ⟨r, r1, ?_⟩
      rw [abs_of_neg]
      · exact r2
      · exact div_neg_of_neg_of_pos (by exact_mod_cast hs) hd
    · rw [if_neg hs]
      rw [scmSign_eq h1, sign_lt] at hs
      refine ⟨_, rfl, hx', ?_⟩
      rw [abs_of_nonneg]
      exact div_nonneg (by exact_mod_cast (by omega : 0 ≤ n.toInt)) hd.le

theorem reciprocal_spec {x : Q} (hx : x.Canonical) (h0 : x.val ≠ 0) : ∃ r, reciprocal x = .ok r ∧ r.IsRat (x.val)⁻¹ := by
  have hone : (makeInt 1).IsInt 1 := makeInt_isInt (by decide +kernel) (by decide +kernel)
  cases x with
  | int a =>
    have ha : a.toInt ≠ 0 := fun h => h0 (by show (a.toInt : ℚ) = 0; rw [h]; simp)
    obtain ⟨r, r1, r2⟩ := makeRational_spec hone.1 hx ha (by
      rw [hone.2]
      have : FIXMIN = -2305843009213693952 := rfl
      have := Int.natAbs_sign_of_ne_zero ha
      omega)
    refine ⟨r, r1, ?_⟩
    rw [hone.2, Int.cast_one, one_div] at r2
    exact r2
  | rat n d =>
    obtain ⟨h1, h2, h3, h4⟩ := hx
    have hn : n.toInt ≠ 0 := fun h => h0 (by show (n.toInt : ℚ) / _ = 0; rw [h]; simp)
    obtain ⟨r, r1, r2⟩ := makeRational_spec h2 h1 hn (by
      apply coprime_pow2
      rcases Int.lt_or_gt_of_ne hn with h | h
      · rw [Int.sign_eq_neg_one_of_neg h, Int.mul_neg_one, Int.neg_gcd, Int.gcd_comm]; exact h4
      · rw [Int.sign_eq_one_of_pos h, Int.mul_one, Int.gcd_comm]; exact h4)
    refine ⟨r, r1, ?_⟩
    show r.IsRat ((n.toInt : ℚ) / d.toInt)⁻¹
    rw [inv_div]; exact r2

end Gauche.Rational

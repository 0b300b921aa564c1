import Verif.Proof.Integer
/-
Exact integers: division, comparison, gcd, powers.
-/
namespace Gauche.Integer
open Gauche.Bignum

/-! ### quotient, remainder, modulo -/

theorem tdiv_lt_fix {a b : Int} (ha : FIXMIN ≤ a ∧ a ≤ FIXMAX) (hc : ¬ (a = FIXMIN ∧ b = -1)) : FIXMIN ≤ Int.tdiv a b ∧ Int.tdiv a b ≤ FIXMAX := by
  have h1 : (Int.tdiv a b).natAbs ≤ a.natAbs := by rw [Int.natAbs_tdiv]; exact Nat.div_le_self _ _
  by_cases h2 : Int.tdiv a b = 2305843009213693952
  · exfalso
    have h3 : a.natAbs = 2305843009213693952 := by omega
    have ha2 : a = FIXMIN := by omega
    have h4 : (Int.tdiv a b).natAbs = 2305843009213693952 := by omega
    rw [Int.natAbs_tdiv, h3] at h4
    have h5 : b.natAbs = 1 := by
      rcases Nat.lt_or_ge b.natAbs 2 with h | h
      · rcases Nat.eq_zero_or_pos b.natAbs with h0 | h0
        · rw [h0] at h4; simp at h4
        · omega
      · have := Nat.div_le_div_left h (show 0 < 2 by norm_num) (a := 2305843009213693952)
        have h4' : 2305843009213693952 / b.natAbs = 2305843009213693952 := h4
        omega
    have hb : b = 1 ∨ b = -1 := by omega
    rcases hb with hb | hb
    · rw [hb, Int.tdiv_one, ha2] at h2; omega
    · exact hc ⟨ha2, hb⟩
  · omega

theorem tmod_fix {a b : Int} (hb0 : b ≠ 0) (hb : FIXMIN ≤ b ∧ b ≤ FIXMAX) : FIXMIN ≤ Int.tmod a b ∧ Int.tmod a b ≤ FIXMAX := by
  have h1 := Int.natAbs_tmod a b
  have h2 := Nat.mod_lt a.natAbs (show 0 < b.natAbs by omega)
  omega

theorem toInt_ne_zero {y : Num} (h : y.toInt ≠ 0) : ∀ b, y = .fix b → b ≠ 0 := by
  rintro b rfl hb
  exact h hb

theorem tmod_of_lt {a b : Int} (h : a.natAbs < b.natAbs) : Int.tdiv a b = 0 ∧ Int.tmod a b = a := by
  have h1 := Int.natAbs_tdiv a b
  have h3 : a.natAbs.div b.natAbs = 0 := Nat.div_eq_of_lt h
  have h2 : Int.tdiv a b = 0 := by omega
  refine ⟨h2, ?_⟩
  have := Int.tmod_add_tdiv_mul a b
  rw [h2] at this
  omega

theorem quotient_isInt {x y : Num} (hx : x.Canonical) (hy : y.Canonical) (h0 : y.toInt ≠ 0)
    (hc : ¬ (x.toInt = FIXMIN ∧ (y.toInt = -1 ∨ y.toInt = FIXMAX + 1))) :
    ∃ q r, scmQuotient x y = .ok (q, r) ∧ q.IsInt (Int.tdiv x.toInt y.toInt) ∧ r.IsInt (Int.tmod x.toInt y.toInt) := by
  unfold scmQuotient
  by_cases h1 : y = .fix 1
  · rw [if_pos h1]
    refine ⟨x, makeInt 0, rfl, ?_, ?_⟩
    · subst h1; exact ⟨hx, (Int.tdiv_one _).symm⟩
    · subst h1
      show (makeInt 0).IsInt (Int.tmod x.toInt 1)
      rw [Int.tmod_one]; exact makeInt_isInt (by omega) (by omega)
  · rw [if_neg h1]
    cases x with
    | fix a =>
      have ha := canon_fix hx
      cases y with
      | fix b =>
        have hb := canon_fix hy
        have h0' : b ≠ 0 := h0
        dsimp only
        rw [if_neg h0']
        have t1 := tdiv_lt_fix (b := b) ha (fun h => hc ⟨h.1, Or.inl h.2⟩)
        have t2 := tmod_fix (a := a) h0' hb
        exact ⟨_, _, rfl, makeInt_isInt t1.1 t1.2, makeInt_isInt t2.1 t2.2⟩
      | big b =>
        have hb := big_out hy
        have hc' : ¬ (a = FIXMIN ∧ (b.toInt = -1 ∨ b.toInt = FIXMAX + 1)) := hc
        obtain ⟨t1, t2⟩ := tmod_of_lt (a := a) (b := b.toInt) (by omega)
        refine ⟨_, _, rfl, ?_, ?_⟩
        · show (makeInt 0).IsInt (Int.tdiv a b.toInt)
          rw [t1]; exact makeInt_isInt (by omega) (by omega)
        · show (Num.fix a).IsInt (Int.tmod a b.toInt)
          rw [t2]; exact ⟨hx, rfl⟩
    | big a =>
      cases y with
      | fix b =>
        have hb := canon_fix hy
        have h0' : b ≠ 0 := h0
        obtain ⟨q, e1, e2⟩ := divSI_spec (canon_wf hx) (d := b) h0' (by omega)
        have t2 := tmod_fix (a := a.toInt) h0' hb
        dsimp only
        rw [e1]
        exact ⟨_, _, rfl, e2, makeInt_isInt t2.1 t2.2⟩
      | big b =>
        obtain ⟨e1, e2⟩ := divRem_spec hx hy
        exact ⟨_, _, rfl, e1, e2⟩

theorem remainder_isInt {x y : Num} (hx : x.Canonical) (hy : y.Canonical) (h0 : y.toInt ≠ 0)
    (hc : ¬ (x.toInt = FIXMIN ∧ y.toInt = FIXMAX + 1)) :
    ∃ r, scmModulo x y true = .ok r ∧ r.IsInt (Int.tmod x.toInt y.toInt) := by
  unfold scmModulo
  cases x with
  | fix a =>
    have ha := canon_fix hx
    cases y with
    | fix b =>
      have hb := canon_fix hy
      have h0' : b ≠ 0 := h0
      have t2 := tmod_fix (a := a) h0' hb
      refine ⟨makeInt (Int.tmod a b), ?_, makeInt_isInt t2.1 t2.2⟩
      simp [h0']
    | big b =>
      have hb := big_out hy
      have hc' : ¬ (a = FIXMIN ∧ b.toInt = FIXMAX + 1) := hc
      obtain ⟨t1, t2⟩ := tmod_of_lt (a := a) (b := b.toInt) (by omega)
      refine ⟨.fix a, by simp, ?_⟩
      show (Num.fix a).IsInt (Int.tmod a b.toInt)
      rw [t2]; exact ⟨hx, rfl⟩
  | big a =>
    cases y with
    | fix b =>
      have hb := canon_fix hy
      have h0' : b ≠ 0 := h0
      have t2 := tmod_fix (a := a.toInt) h0' hb
      refine ⟨makeInt (Int.tmod a.toInt b), ?_, makeInt_isInt t2.1 t2.2⟩
      dsimp only
      rw [remSI_spec (canon_wf hx) h0' (by omega)]
      simp [Res.bind]
    | big b =>
      obtain ⟨e1, e2⟩ := divRem_spec hx hy
      refine ⟨(divRem a b).2, by simp, e2⟩

theorem fmod_unique {a b r k : Int} (h : a = r + k * b) (hr : (0 ≤ r ∧ r < b) ∨ (b < r ∧ r ≤ 0)) : Int.fmod a b = r := by
  rw [h, Int.add_mul_fmod_self_right]
  rcases hr with hr | hr
  · exact Int.fmod_eq_of_lt hr.1 hr.2
  · have := Int.fmod_eq_of_lt (a := -r) (b := -b) (by omega) (by omega)
    rw [Int.neg_fmod_neg] at this
    omega

theorem tmod_bounds (a b : Int) (hb : b ≠ 0) : a = Int.tmod a b + Int.tdiv a b * b ∧ (Int.tmod a b).natAbs < b.natAbs ∧
    (0 ≤ a → 0 ≤ Int.tmod a b) ∧ (a ≤ 0 → Int.tmod a b ≤ 0) := by
  refine ⟨(Int.tmod_add_tdiv_mul a b).symm, ?_, fun h => Int.tmod_nonneg b h, fun h => ?_⟩
  · rw [Int.natAbs_tmod]; exact Nat.mod_lt _ (by omega)
  · have := Int.tmod_nonneg (a := -a) b (by omega)
    rw [Int.neg_tmod] at this; omega

theorem fmod_adj {a b : Int} (hb : b ≠ 0) (h : Int.tmod a b ≠ 0 ∧ ((a > 0 ∧ b < 0) ∨ (a < 0 ∧ b > 0))) :
    Int.fmod a b = Int.tmod a b + b := by
  obtain ⟨h1, h2, h3, h4⟩ := tmod_bounds a b hb
  apply fmod_unique (k := Int.tdiv a b - 1)
  · rw [Int.sub_mul]; omega
  · omega

theorem fmod_noadj {a b : Int} (hb : b ≠ 0) (h : ¬ (Int.tmod a b ≠ 0 ∧ ((a > 0 ∧ b < 0) ∨ (a < 0 ∧ b > 0)))) :
    Int.fmod a b = Int.tmod a b := by
  obtain ⟨h1, h2, h3, h4⟩ := tmod_bounds a b hb
  exact fmod_unique (k := Int.tdiv a b) h1 (by omega)

theorem modulo_isInt {x y : Num} (hx : x.Canonical) (hy : y.Canonical) (h0 : y.toInt ≠ 0) :
    ∃ r, scmModulo x y false = .ok r ∧ r.IsInt (Int.fmod x.toInt y.toInt) := by
  unfold scmModulo
  cases x with
  | fix a =>
    have ha := canon_fix hx
    cases y with
    | fix b =>
      have hb := canon_fix hy
      have h0' : b ≠ 0 := h0
      have t2 := tmod_fix (a := a) h0' hb
      obtain ⟨h1, h2, h3, h4⟩ := tmod_bounds a b h0'
      show ∃ r, (if b = 0 then _ else _) = Res.ok r ∧ _
      rw [if_neg h0']
      dsimp only [Num.toInt]
      by_cases hcase : Int.tmod a b ≠ 0 ∧ ((a > 0 ∧ b < 0) ∨ (a < 0 ∧ b > 0))
      · rw [if_pos ⟨rfl, hcase⟩, fmod_adj h0' hcase]
        exact ⟨_, rfl, makeInt_isInt (by omega) (by omega)⟩
      · rw [if_neg (fun h => hcase h.2), fmod_noadj h0' hcase]
        exact ⟨_, rfl, makeInt_isInt t2.1 t2.2⟩
    | big b =>
      have hp := WF_val_pos hy
      have hb := big_out hy
      have hsg : b.toInt < 0 ↔ b.sign < 0 := by
        unfold Big.toInt; rcases hy.1 with h | h <;> rw [h] <;> omega
      have hsg' : b.toInt > 0 ↔ b.sign > 0 := by
        unfold Big.toInt; rcases hy.1 with h | h <;> rw [h] <;> omega
      dsimp only [Num.toInt]
      rw [if_neg (by simp)]
      by_cases hsp : a = FIXMIN ∧ b.toInt = FIXMAX + 1
      · rw [if_pos (Or.inl ⟨by omega, hsg'.mp (by omega)⟩)]
        rw [show Int.fmod a b.toInt = 0 by rw [hsp.1, hsp.2]; rfl]
        refine ⟨_, rfl, ?_⟩
        have := bignumAddSI_isInt hy (a := a) (by omega)
        rw [show b.toInt + a = 0 by omega] at this
        exact this
      · obtain ⟨t1, t2⟩ := tmod_of_lt (a := a) (b := b.toInt) (by omega)
        have h0' : b.toInt ≠ 0 := h0
        by_cases hcase : (a < 0 ∧ b.sign > 0) ∨ (a > 0 ∧ b.sign < 0)
        · rw [if_pos hcase, fmod_adj h0' (by rw [t2]; rw [← hsg, ← hsg'] at hcase; constructor <;> omega), t2]
          refine ⟨_, rfl, ?_⟩
          rw [Int.add_comm]
          exact bignumAddSI_isInt hy (by omega)
        · rw [if_neg hcase, fmod_noadj h0' (by rw [t2]; rw [← hsg, ← hsg'] at hcase; omega), t2]
          exact ⟨_, rfl, hx, rfl⟩
  | big a =>
    have hpa := WF_val_pos hx
    have hsa : a.toInt < 0 ↔ a.sign < 0 := by
      unfold Big.toInt; rcases hx.1 with h | h <;> rw [h] <;> omega
    have hsa' : a.toInt > 0 ↔ a.sign > 0 := by
      unfold Big.toInt; rcases hx.1 with h | h <;> rw [h] <;> omega
    cases y with
    | fix b =>
      have hb := canon_fix hy
      have h0' : b ≠ 0 := h0
      have t2 := tmod_fix (a := a.toInt) h0' hb
      obtain ⟨h1, h2, h3, h4⟩ := tmod_bounds a.toInt b h0'
      dsimp only [Num.toInt]
      rw [remSI_spec (canon_wf hx) h0' (by omega)]
      simp only [Res.bind]
      by_cases hcase : Int.tmod a.toInt b ≠ 0 ∧ ((a.toInt > 0 ∧ b < 0) ∨ (a.toInt < 0 ∧ b > 0))
      · rw [if_pos ⟨trivial, hcase.1, by rw [← hsa, ← hsa']; omega⟩, fmod_adj h0' hcase, Int.add_comm]
        exact ⟨_, rfl, makeInt_isInt (by omega) (by omega)⟩
      · rw [if_neg (fun h => hcase ⟨h.2.1, by have := h.2.2; rw [← hsa, ← hsa'] at this; omega⟩), fmod_noadj h0' hcase]
        exact ⟨_, rfl, makeInt_isInt t2.1 t2.2⟩
    | big b =>
      have hpb := WF_val_pos hy
      have h0' : b.toInt ≠ 0 := h0
      obtain ⟨e1, e2⟩ := divRem_spec hx hy
      have hsb : b.toInt < 0 ↔ b.sign < 0 := by
        unfold Big.toInt; rcases hy.1 with h | h <;> rw [h] <;> omega
      have hsb' : b.toInt > 0 ↔ b.sign > 0 := by
        unfold Big.toInt; rcases hy.1 with h | h <;> rw [h] <;> omega
      have hz : (divRem a b).2 ≠ .fix 0 ↔ Int.tmod a.toInt b.toInt ≠ 0 := by
        rw [not_iff_not]
        constructor
        · intro h; rw [← e2.2, h]; rfl
        · intro h
          apply canon_unique e2.1
          · show FIXMIN ≤ (0 : Int) ∧ (0 : Int) ≤ FIXMAX; omega
          · rw [e2.2, h]; rfl
      have hsig : a.sign * b.sign < 0 ↔ ((a.toInt > 0 ∧ b.toInt < 0) ∨ (a.toInt < 0 ∧ b.toInt > 0)) := by
        rw [hsa, hsa', hsb, hsb']
        rcases hx.1 with h | h <;> rcases hy.1 with h' | h' <;> rw [h, h'] <;> omega
      dsimp only [Num.toInt]
      by_cases hcase : Int.tmod a.toInt b.toInt ≠ 0 ∧ ((a.toInt > 0 ∧ b.toInt < 0) ∨ (a.toInt < 0 ∧ b.toInt > 0))
      · rw [if_pos ⟨rfl, hz.mpr hcase.1, hsig.mpr hcase.2⟩, fmod_adj h0' hcase]
        cases hr : (divRem a b).2 with
        | big r =>
          rw [hr] at e2
          refine ⟨_, rfl, ?_⟩
          have := scmAdd_isInt hy e2.1
          rw [e2.2, Int.add_comm] at this
          exact this
        | fix r =>
          rw [hr] at e2
          refine ⟨_, rfl, ?_⟩
          have := bignumAddSI_isInt hy (a := r) (by have := canon_fix e2.1; omega)
          have e3 : r = Int.tmod a.toInt b.toInt := e2.2
          rw [e3] at this ⊢
          rw [Int.add_comm]; exact this
      · rw [if_neg (fun h => hcase ⟨hz.mp h.2.1, hsig.mp h.2.2⟩), fmod_noadj h0' hcase]
        exact ⟨_, rfl, e2⟩

/-! ### comparison -/

/-- What the comparison needs of an operand: a bignum, possibly not normalized if it has a single word. -/
structure CmpOk (b : Big) : Prop where
  sign : b.sign = 1 ∨ b.sign = -1
  words : Words b.vals
  ne : b.vals ≠ []
  top : 1 < b.vals.length → b.vals.getD (b.vals.length - 1) 0 ≠ 0
  neg : b.sign = -1 → 0 < val b.vals

theorem cmpOk_canon {b : Big} (h : (Num.big b).Canonical) : CmpOk b :=
  ⟨h.1, h.2.1, h.2.2.1.1, fun _ => getLast_getD h.2.2.1, fun _ => by have := WF_val_pos h; omega⟩

theorem cmpOk_fromSI {v : Int} (h : FIXMIN ≤ v ∧ v ≤ FIXMAX) : CmpOk (fromSI v) := by
  have hw := fromSI_wf v
  refine ⟨hw.sign, hw.words, hw.ne, fun h => by rw [fromSI_length] at h; omega, ?_⟩
  intro hs
  have := fromSI_toInt (v := v) (by omega)
  unfold Big.toInt at this
  rw [hs] at this
  by_contra hc
  have h0 : val (fromSI v).vals = 0 := by omega
  rw [h0] at this
  have hv : v = 0 := by omega
  subst hv
  simp [fromSI] at hs

theorem bignumCmp_ok {x y : Big} (hx : CmpOk x) (hy : CmpOk y) :
    (bignumCmp x y = -1 ∧ x.toInt < y.toInt) ∨ (bignumCmp x y = 0 ∧ x.toInt = y.toInt) ∨ (bignumCmp x y = 1 ∧ y.toInt < x.toInt) := by
  obtain ⟨xs, xw, xn, xt, xneg⟩ := hx
  obtain ⟨ys, yw, yn, yt, yneg⟩ := hy
  have l1 := List.length_pos_iff.mpr xn
  have l2 := List.length_pos_iff.mpr yn
  have c1 := val_lt xw
  have c2 := val_lt yw
  have k1 : x.vals.length < y.vals.length → val x.vals < val y.vals := by
    intro h
    have := yt (by omega)
    rw [getD_pred_getLast yn] at this
    have b2 := val_ge_of_getLast yn this
    have := pow_lt_of_len (show x.vals.length ≤ y.vals.length - 1 by omega)
    omega
  have k2 : y.vals.length < x.vals.length → val y.vals < val x.vals := by
    intro h
    have := xt (by omega)
    rw [getD_pred_getLast xn] at this
    have b2 := val_ge_of_getLast xn this
    have := pow_lt_of_len (show y.vals.length ≤ x.vals.length - 1 by omega)
    omega
  have k3 : x.vals.length = y.vals.length →
      (cmpWords x.vals y.vals x.vals.length = -1 ∧ val x.vals < val y.vals) ∨ (cmpWords x.vals y.vals x.vals.length = 0 ∧ val x.vals = val y.vals) ∨
      (cmpWords x.vals y.vals x.vals.length = 1 ∧ val y.vals < val x.vals) := by
    intro h
    have := cmpWords_spec xw yw x.vals.length
    rw [List.take_length, List.take_of_length_le (show y.vals.length ≤ x.vals.length by omega)] at this
    exact this
  clear c1 c2
  unfold bignumCmp Big.toInt
  generalize cmpWords x.vals y.vals x.vals.length = c at *
  generalize val x.vals = X at *
  generalize val y.vals = Y at *
  generalize x.vals.length = m at *
  generalize y.vals.length = n at *
  rcases xs with h1 | h1 <;> rcases ys with h2 | h2 <;> rw [h1, h2]
  · rcases Nat.lt_trichotomy m n with h | h | h
    · have := k1 h; simp [h]; omega
    · have := k3 h; simp [h]; omega
    · have := k2 h; simp [h, Nat.lt_asymm h]; omega
  · have := yneg h2; simp; omega
  · have := xneg h1; simp; omega
  · rcases Nat.lt_trichotomy m n with h | h | h
    · have := k1 h; simp [h]; omega
    · have := k3 h; simp [h]; omega
    · have := k2 h; simp [h, Nat.lt_asymm h]; omega

/-- `Scm_NumCmp` on exact integers is the order of the integers. -/
theorem scmNumCmp_spec {x y : Num} (hx : x.Canonical) (hy : y.Canonical) :
    (scmNumCmp x y = -1 ∧ x.toInt < y.toInt) ∨ (scmNumCmp x y = 0 ∧ x.toInt = y.toInt) ∨ (scmNumCmp x y = 1 ∧ y.toInt < x.toInt) := by
  cases x with
  | fix a =>
    have ha := canon_fix hx
    cases y with
    | fix b =>
      show ((if a - b < 0 then (-1 : Int) else if a - b > 0 then 1 else 0) = -1 ∧ a < b) ∨ _
      have e : scmNumCmp (.fix a) (.fix b) = if a - b < 0 then (-1 : Int) else if a - b > 0 then 1 else 0 := rfl
      rw [e]
      show _ ∨ (_ ∧ a = b) ∨ (_ ∧ b < a)
      split
      · omega
      · split <;> omega
    | big b =>
      have := bignumCmp_ok (cmpOk_fromSI ha) (cmpOk_canon hy)
      rw [fromSI_toInt (by omega)] at this
      exact this
  | big a =>
    cases y with
    | fix b =>
      have hb := canon_fix hy
      have := bignumCmp_ok (cmpOk_canon hx) (cmpOk_fromSI hb)
      rw [fromSI_toInt (by omega)] at this
      exact this
    | big b => exact bignumCmp_ok (cmpOk_canon hx) (cmpOk_canon hy)

/-! ### gcd -/

theorem gcdFixFix_eq (x y : Nat) : gcdFixFix x y = Nat.gcd x y := by
  fun_induction gcdFixFix x y with
  | case1 x y h ih => rw [ih, Nat.gcd_comm y, ← Nat.gcd_rec, Nat.gcd_comm]
  | case2 x y h =>
    have : y = 0 := by omega
    subst this; simp

theorem toLong_spec {x : Num} (hx : x.Canonical) :
    (∀ z, toLong x = some z → z = x.toInt ∧ -9223372036854775808 ≤ z ∧ z ≤ 9223372036854775807) ∧
    (toLong x = none → (∃ b, x = .big b) ∧ ¬ (-9223372036854775808 ≤ x.toInt ∧ x.toInt ≤ 9223372036854775807)) := by
  cases x with
  | fix a =>
    have ha := canon_fix hx
    refine ⟨fun z h => ?_, fun h => by simp [toLong] at h⟩
    simp [toLong] at h
    subst h
    exact ⟨rfl, by omega⟩
  | big b =>
    have hp := WF_val_pos hx
    have hlt := val_lt hx.2.1
    obtain ⟨hn, hl⟩ := hx.2.2.1
    have hl1 := List.length_pos_iff.mpr hn
    have hone : b.vals.length = 1 → val b.vals = b.vals.getD 0 0 := by
      intro h
      obtain ⟨s, l⟩ := b
      match l, h with
      | [a], _ => simp [val]
    have htwo : 2 ≤ b.vals.length → W64 ≤ val b.vals := by
      intro h
      have h1 := val_ge_of_getLast hn hl
      have h2 := pow_lt_of_len (show 1 ≤ b.vals.length - 1 by omega)
      rw [pow_one] at h2
      omega
    have key : toLong (.big b) = if b.sign ≥ 0 then
      if b.vals.getD 0 0 > 9223372036854775807 ∨ b.vals.length ≥ 2 then none else some (b.vals.getD 0 0 : Int)
    else
      if b.vals.getD 0 0 > 9223372036854775808 ∨ b.vals.length ≥ 2 then none else some (-(b.vals.getD 0 0 : Int)) := rfl
    rw [key]
    have hti : (Num.big b).toInt = b.sign * (val b.vals : Int) := rfl
    rw [hti]
    clear key hti hlt hl
    generalize b.vals.getD 0 0 = w at *
    generalize val b.vals = V at *
    generalize b.vals.length = n at *
    rcases hx.1 with h | h <;> rw [h]
    · rw [if_pos (by omega)]
      constructor
      · intro z
        split
        · intro h; simp at h
        · intro h; simp at h; omega
      · split
        · intro _; exact ⟨⟨b, rfl⟩, by omega⟩
        · intro h; simp at h
    · rw [if_neg (by omega)]
      constructor
      · intro z
        split
        · intro h; simp at h
        · intro h; simp at h; omega
      · split
        · intro _; exact ⟨⟨b, rfl⟩, by omega⟩
        · intro h; simp at h

theorem gcdLoop_spec (fuel : Nat) (x y : Num) (hx : x.Canonical) (hy : y.Canonical) (hx0 : 0 ≤ x.toInt) (hy0 : 0 ≤ y.toInt)
    (hf : y.toInt < fuel) : ∃ g, gcdLoop fuel x y = .ok g ∧ g.IsInt (Int.gcd x.toInt y.toInt) := by
  induction fuel generalizing x y with
  | zero => omega
  | succ fuel ih =>
    rw [gcdLoop]
    by_cases h : y = .fix 0
    · rw [if_pos h]
      refine ⟨x, rfl, hx, ?_⟩
      subst h
      show x.toInt = (Int.gcd x.toInt 0 : Int)
      rw [Int.gcd_zero_right]; omega
    · rw [if_neg h]
      have hne : y.toInt ≠ 0 := by
        intro h0
        apply h
        apply canon_unique hy
        · show FIXMIN ≤ (0 : Int) ∧ (0 : Int) ≤ FIXMAX; omega
        · rw [h0]; rfl
      obtain ⟨r, e1, e2⟩ := remainder_isInt hx hy hne (by omega)
      obtain ⟨t1, t2, t3, t4⟩ := tmod_bounds x.toInt y.toInt hne
      have hr0 := t3 hx0
      obtain ⟨g, g1, g2⟩ := ih y r hy e2.1 hy0 (by rw [e2.2]; exact hr0) (by rw [e2.2]; omega)
      refine ⟨g, by rw [e1]; exact g1, ?_⟩
      rw [e2.2] at g2
      have : Int.gcd y.toInt (Int.tmod x.toInt y.toInt) = Int.gcd x.toInt y.toInt := by
        rw [Int.gcd_comm x.toInt]
        conv_rhs => rw [t1]
        rw [Int.gcd_add_mul_right_right]
      rw [this] at g2
      exact g2

/-- `Scm_Gcd` on exact integers, both nonzero or both nonnegative. -/
theorem scmGcd_signed {x y : Num} (hx : x.Canonical) (hy : y.Canonical)
    (hs : (x.toInt ≠ 0 ∧ y.toInt ≠ 0) ∨ (0 ≤ x.toInt ∧ 0 ≤ y.toInt)) {fuel : Nat}
    (hf : x.toInt.natAbs < fuel ∧ y.toInt.natAbs < fuel) : ∃ g, scmGcd x y fuel = .ok g ∧ g.IsInt (Int.gcd x.toInt y.toInt) := by
  unfold scmGcd
  by_cases h1 : x = .fix 0
  · rw [if_pos h1]
    subst h1
    refine ⟨y, rfl, hy, ?_⟩
    have h00 : (Num.fix 0).toInt = 0 := rfl
    rw [h00] at hs
    show y.toInt = (Int.gcd 0 y.toInt : Int)
    rw [Int.gcd_zero_left]; omega
  rw [if_neg h1]
  by_cases h2 : y = .fix 0
  · rw [if_pos h2]
    subst h2
    refine ⟨x, rfl, hx, ?_⟩
    have h00 : (Num.fix 0).toInt = 0 := rfl
    rw [h00] at hs
    show x.toInt = (Int.gcd x.toInt 0 : Int)
    rw [Int.gcd_zero_right]; omega
  rw [if_neg h2]
  obtain ⟨lx1, lx2⟩ := toLong_spec hx
  obtain ⟨ly1, ly2⟩ := toLong_spec hy
  have hlt : ∀ a b : Nat, a < W64 → b < W64 → Nat.gcd a b < W64 := by
    intro a b ha hb
    rcases Nat.eq_zero_or_pos a with h | h
    · subst h; simp; exact hb
    · have := Nat.gcd_le_left b h; omega
  have hx1 : x.toInt ≠ 0 := by
    intro h0; apply h1; apply canon_unique hx
    · show FIXMIN ≤ (0 : Int) ∧ (0 : Int) ≤ FIXMAX; omega
    · rw [h0]; rfl
  have hy1 : y.toInt ≠ 0 := by
    intro h0; apply h2; apply canon_unique hy
    · show FIXMIN ≤ (0 : Int) ∧ (0 : Int) ≤ FIXMAX; omega
    · rw [h0]; rfl
  -- a bignum outside `long` and a nonzero `long`
  have hmix : ∀ (b : Big) (u : Int), (Num.big b).Canonical → u ≠ 0 → -9223372036854775808 < u ∧ u ≤ 9223372036854775807 →
      ∃ r, gcdBigFix b (ulabs u) = .ok r ∧ r < W64 ∧ r = Int.gcd b.toInt u := by
    intro b u hb hu0 hu
    have eu := ulabs_eq (y := u) (by omega)
    obtain ⟨q, e1, e2⟩ := divSI_spec (canon_wf hb) (d := (u.natAbs : Int)) (by omega) (by omega)
    obtain ⟨t1, t2, t3, t4⟩ := tmod_bounds b.toInt (u.natAbs : Int) (by omega)
    unfold gcdBigFix
    rw [eu, e1]
    have er := ulabs_eq (y := Int.tmod b.toInt (u.natAbs : Int)) (by omega)
    have hg : Nat.gcd u.natAbs (Int.tmod b.toInt (u.natAbs : Int)).natAbs = Int.gcd b.toInt u := by
      have : Int.gcd (u.natAbs : Int) (Int.tmod b.toInt (u.natAbs : Int)) = Int.gcd b.toInt (u.natAbs : Int) := by
        rw [Int.gcd_comm b.toInt]
        conv_rhs => rw [t1]
        rw [Int.gcd_add_mul_right_right]
      unfold Int.gcd at this ⊢
      rw [Int.natAbs_natCast] at this
      exact this
    refine ⟨_, rfl, ?_, ?_⟩
    · rw [gcdFixFix_eq, er]; exact hlt _ _ (by omega) (by omega)
    · rw [gcdFixFix_eq, er, hg]
  have hgen : ∃ g, (if scmNumCmp (scmAbs x) (scmAbs y) < 0 then gcdLoop fuel (scmAbs y) (scmAbs x) else gcdLoop fuel (scmAbs x) (scmAbs y)) = .ok g ∧
      g.IsInt (Int.gcd x.toInt y.toInt) := by
    have ax := scmAbs_isInt hx
    have ay := scmAbs_isInt hy
    have eg : Int.gcd (x.toInt.natAbs : Int) (y.toInt.natAbs : Int) = Int.gcd x.toInt y.toInt := by
      unfold Int.gcd; rw [Int.natAbs_natCast, Int.natAbs_natCast]
    rw [← eg]
    split
    · obtain ⟨g, g1, g2⟩ := gcdLoop_spec fuel (scmAbs y) (scmAbs x) ay.1 ax.1 (by rw [ay.2]; omega) (by rw [ax.2]; omega) (by rw [ax.2]; omega)
      rw [ay.2, ax.2, Int.gcd_comm] at g2
      exact ⟨g, g1, g2⟩
    · obtain ⟨g, g1, g2⟩ := gcdLoop_spec fuel (scmAbs x) (scmAbs y) ax.1 ay.1 (by rw [ax.2]; omega) (by rw [ay.2]; omega) (by rw [ay.2]; omega)
      rw [ay.2, ax.2] at g2
      exact ⟨g, g1, g2⟩
  cases hcx : toLong x with
  | some ix =>
    obtain ⟨ex, rx⟩ := lx1 ix hcx
    cases hcy : toLong y with
    | some iy =>
      obtain ⟨ey, ry⟩ := ly1 iy hcy
      dsimp only
      rw [ulabs_eq (y := ix) (by omega), ulabs_eq (y := iy) (by omega)]
      refine ⟨_, rfl, ?_⟩
      have e : (if ix.natAbs ≥ iy.natAbs then gcdFixFix ix.natAbs iy.natAbs else gcdFixFix iy.natAbs ix.natAbs) = Int.gcd x.toInt y.toInt := by
        rw [gcdFixFix_eq, gcdFixFix_eq, Nat.gcd_comm iy.natAbs, ite_self, ex, ey]; rfl
      rw [e]
      exact makeIntegerU_isInt (by rw [← ex, ← ey]; exact hlt _ _ (by omega) (by omega))
    | none =>
      obtain ⟨⟨b, eb⟩, rb⟩ := ly2 hcy
      dsimp only
      by_cases hmin : ix = -9223372036854775808
      · rw [if_neg (by simp), if_neg (by simp [hmin])]; exact hgen
      rw [if_neg (by simp), if_pos ⟨by simp, by simp; omega⟩]
      subst eb
      obtain ⟨r, r1, r2, r3⟩ := hmix b ix hy (by omega) (by omega)
      dsimp only [Option.getD_some]
      rw [r1]
      refine ⟨_, rfl, ?_⟩
      have := makeIntegerU_isInt r2
      rw [r3, ex, Int.gcd_comm] at this
      rw [r3, ex, Int.gcd_comm]
      exact this
  | none =>
    obtain ⟨⟨a, ea⟩, ra⟩ := lx2 hcx
    cases hcy : toLong y with
    | some iy =>
      obtain ⟨ey, ry⟩ := ly1 iy hcy
      dsimp only
      by_cases hmin : iy = -9223372036854775808
      · rw [if_neg (by simp [hmin]), if_neg (by simp)]; exact hgen
      rw [if_pos ⟨by simp, by simp; omega⟩]
      subst ea
      obtain ⟨r, r1, r2, r3⟩ := hmix a iy hx (by omega) (by omega)
      dsimp only [Option.getD_some]
      rw [r1]
      refine ⟨_, rfl, ?_⟩
      have := makeIntegerU_isInt r2
      rw [r3, ey] at this
      rw [r3, ey]
      exact this
    | none =>
      dsimp only
      rw [if_neg (by simp), if_neg (by simp)]
      exact hgen

/-- `Scm_Gcd` on nonnegative exact integers. -/
theorem scmGcd_spec {x y : Num} (hx : x.Canonical) (hy : y.Canonical) (hx0 : 0 ≤ x.toInt) (hy0 : 0 ≤ y.toInt) {fuel : Nat}
    (hf : x.toInt < fuel ∧ y.toInt < fuel) : ∃ g, scmGcd x y fuel = .ok g ∧ g.IsInt (Int.gcd x.toInt y.toInt) :=
  scmGcd_signed hx hy (Or.inr ⟨hx0, hy0⟩) (by omega)

theorem schemeGcd_spec {x y : Num} (hx : x.Canonical) (hy : y.Canonical) {fuel : Nat}
    (hf : x.toInt.natAbs < fuel ∧ y.toInt.natAbs < fuel) : ∃ g, schemeGcd x y fuel = .ok g ∧ g.IsInt (Int.gcd x.toInt y.toInt) := by
  have ax := scmAbs_isInt hx
  have ay := scmAbs_isInt hy
  obtain ⟨g, g1, g2⟩ := scmGcd_spec ax.1 ay.1 (by rw [ax.2]; omega) (by rw [ay.2]; omega) (fuel := fuel) (by rw [ax.2, ay.2]; omega)
  refine ⟨g, g1, ?_⟩
  rw [ax.2, ay.2] at g2
  unfold Int.gcd at g2 ⊢
  simp only [Int.natAbs_natCast] at g2
  exact g2

theorem schemeLcm_spec {x y : Num} (hx : x.Canonical) (hy : y.Canonical) {fuel : Nat}
    (hf : x.toInt.natAbs < fuel ∧ y.toInt.natAbs < fuel) : ∃ g, schemeLcm x y fuel = .ok g ∧ g.IsInt (Int.lcm x.toInt y.toInt) := by
  have ax := scmAbs_isInt hx
  have ay := scmAbs_isInt hy
  obtain ⟨g, g1, g2⟩ := schemeGcd_spec hx hy hf
  unfold schemeLcm
  unfold schemeGcd at g1
  dsimp only
  rw [g1]
  simp only [Res.bind]
  rw [scmSign_eq ax.1, ax.2]
  by_cases h0 : x.toInt = 0
  · rw [if_pos (by rw [h0]; rfl)]
    refine ⟨_, rfl, ?_⟩
    rw [h0]
    show (Num.fix 0).IsInt (Int.lcm 0 y.toInt : Int)
    rw [Int.lcm_zero_left]
    refine ⟨?_, rfl⟩
    show FIXMIN ≤ (0 : Int) ∧ (0 : Int) ≤ FIXMAX
    omega
  · rw [if_neg (by rw [Int.sign_eq_zero_iff_zero]; omega)]
    have hg : (g.toInt) ≠ 0 := by
      rw [g2.2]
      have : 0 < Int.gcd x.toInt y.toInt := Int.gcd_pos_of_ne_zero_left _ h0
      omega
    have hg0 : 0 ≤ g.toInt := by rw [g2.2]; omega
    obtain ⟨q, r, q1, q2, q3⟩ := quotient_isInt ax.1 g2.1 hg (by rw [ax.2]; omega)
    rw [q1]
    refine ⟨_, rfl, ?_⟩
    have := scmMul_isInt q2.1 ay.1
    rw [q2.2, ax.2, ay.2, g2.2] at this
    rw [← Int.ofNat_tdiv, ← Nat.cast_mul] at this
    have e : x.toInt.natAbs / Int.gcd x.toInt y.toInt * y.toInt.natAbs = Int.lcm x.toInt y.toInt := by
      unfold Int.lcm Int.gcd Nat.lcm
      rw [Nat.div_mul_right_comm (Nat.gcd_dvd_left _ _)]
    rw [e] at this
    exact this

/-! ### powers -/

theorem iexpt10_spec (n : Nat) : (iexpt10 n).IsInt (10 ^ n) := by
  fun_induction iexpt10 n with
  | case1 => exact makeInt_isInt (by omega) (by omega)
  | case2 => exact makeInt_isInt (by omega) (by omega)
  | case3 => exact makeInt_isInt (by omega) (by omega)
  | case4 => exact makeInt_isInt (by omega) (by omega)
  | case5 => exact makeInt_isInt (by omega) (by omega)
  | case6 => exact makeInt_isInt (by omega) (by omega)
  | case7 => exact makeInt_isInt (by omega) (by omega)
  | case8 n ih =>
    have h10 : (makeInt 10).IsInt 10 := makeInt_isInt (by omega) (by omega)
    have := scmMul_isInt ih.1 h10.1
    rw [ih.2, h10.2] at this
    exact this

theorem exptLoop_spec (r x : Num) (n : Nat) (hr : r.Canonical) (hx : x.Canonical) :
    (exptLoop r x n).IsInt (r.toInt * x.toInt ^ n) := by
  fun_induction exptLoop r x n with
  | case1 r x => rw [pow_zero, Int.mul_one]; exact ⟨hr, rfl⟩
  | case2 r x h0 => rw [pow_one]; exact scmMul_isInt hr hx
  | case3 r x n h0 h1 ih =>
    have hm := scmMul_isInt hr hx
    have hxx := scmMul_isInt hx hx
    have := ih (by split; exacts [hm.1, hr]) hxx.1
    rw [hxx.2, ← pow_two, ← pow_mul] at this
    by_cases hodd : n % 2 = 1
    · rw [dif_pos hodd] at this; rw [if_pos hodd]
      rw [hm.2] at this
      have e : r.toInt * x.toInt ^ n = r.toInt * x.toInt * x.toInt ^ (2 * (n / 2)) := by
        conv_lhs => rw [show n = 2 * (n / 2) + 1 by omega, pow_succ]
        ring
      rw [e]; exact this
    · rw [dif_neg hodd] at this; rw [if_neg hodd]
      rw [show 2 * (n / 2) = n by omega] at this
      exact this

end Gauche.Integer

import Verif.Proof.NumCmp
import Mathlib.Order.WithBot
/-
The comparison of real numbers agrees with the order of the exact values.
-/
namespace Gauche.NumCmp
open Gauche.Spec Gauche.Flonum Gauche.Rationalize

theorem ord_lt {x y : ℚ} (h : x < y) : ord x y = -1 := by unfold ord; rw [if_pos h]
theorem ord_gt {x y : ℚ} (h : y < x) : ord x y = 1 := by unfold ord; rw [if_neg (by linarith), if_pos h]
theorem ord_self (x : ℚ) : ord x x = 0 := by unfold ord; rw [if_neg (lt_irrefl x), if_neg (lt_irrefl x)]

theorem fix_small {a : Int} (h : fixp a = true) : a.natAbs ≤ 2 ^ 61 := by
  unfold fixp at h
  simp only [Bool.and_eq_true, decide_eq_true_eq] at h
  omega

theorem fix_fin {a : Int} (h : fixp a = true) : ∃ m k, intToDouble a.natAbs = .fin m k ∧ FinDbl m k := by
  have h1 : intToDouble a.natAbs ≠ .inf := finite_of_lt (by
    have := fix_small h
    have h2 : (2 : Nat) ^ 61 < 2 ^ 1023 := Nat.pow_lt_pow_right (by norm_num) (by norm_num)
    omega)
  have h2 := intToDouble_spec a.natAbs
  cases e : intToDouble a.natAbs with
  | inf => exact absurd e h1
  | fin m k => rw [e] at h2; exact ⟨m, k, rfl, h2.1⟩

theorem normal_pos {q : ℚ} (hq : 2 ^ (-1022 : Int) ≤ |q|) {m : Nat} {k : Int} (h : Rounds |q| (.fin m k)) : 0 < m := by
  refine (rounds_lower (le_trans ?_ hq) h).1
  exact zpow_le_zpow_right₀ (by norm_num) (by norm_num)

/-- A fixnum and a ratnum. -/
theorem cmpIntRat_ord {a : Int} {q : ℚ} (hq : 2 ^ (-1022 : Int) ≤ |q|)
    (h : fixp a = true → q < 0 → a < 0 → ∀ d, Rounds |(a : ℚ)| d → ¬ Rounds |q| d) : cmpIntRat a q = ord (a : ℚ) q := by
  unfold cmpIntRat
  by_cases hf : fixp a = true
  · rw [if_pos hf]
    simp only
    have Sa := SR_int a
    have Sq := SR_rat hq
    obtain ⟨ma, ka, ea, fa⟩ := fix_fin hf
    have ga : getDouble (.int a) = (decide (a < 0), .fin ma ka) := by simp only [getDouble, ea]
    rw [ga] at Sa ⊢
    generalize getDouble (.rat q) = y at *
    obtain ⟨ny, dy⟩ := y
    cases dy with
    | inf =>
      cases ny with
      | false => 
        have h1 : dcmp (dsub (decide (a < 0), .fin ma ka) (false, .inf)) (!(dmulErr (false, .inf)).1, (dmulErr (false, .inf)).2) = 0 := rfl
        have h2 : dcmp (dsub (decide (a < 0), .fin ma ka) (false, .inf)) (dmulErr (false, .inf)) = -1 := rfl
        rw [if_neg (by rw [h1]; norm_num), if_neg (by rw [h2]; norm_num), crossInt]
      | true => 
        have h1 : dcmp (dsub (decide (a < 0), .fin ma ka) (true, .inf)) (!(dmulErr (true, .inf)).1, (dmulErr (true, .inf)).2) = 0 := rfl
        have h2 : dcmp (dsub (decide (a < 0), .fin ma ka) (true, .inf)) (dmulErr (true, .inf)) = 1 := rfl
        rw [if_neg (by rw [h1]; norm_num), if_pos (by rw [h2]; norm_num), ord_gt]
        exact SR_pos Sa Sq rfl
    | fin my ky =>
      have fy : FinDbl my ky := Sq.2.1
      have hm := normal_pos hq Sq.2
      by_cases hd : sval (decide (a < 0)) ma ka = sval ny my ky
      · have hyn : ny = false := by
          cases ny with
          | false => rfl
          | true =>
            exfalso
            have hp := pow_le_dval ky hm
            have hp' := two_pos ky
            have hq0 : q < 0 := by
              rcases Sq.1 with ⟨_, g⟩ | ⟨g, _⟩
              · exact absurd g (by simp)
              · rcases lt_or_eq_of_le g with g | g
                · exact g
                · rw [g, abs_zero] at hq
                  have := two_pos (-1022)
                  linarith
            have ha0 : a < 0 := by
              refine Classical.byContradiction fun hn => ?_
              have := dval_nonneg ma ka
              simp only [hn, decide_false, sval, Bool.false_eq_true, if_false, if_true] at hd
              linarith
            simp only [ha0, decide_true, sval, if_true] at hd
            obtain ⟨e1, e2⟩ := dval_inj fa fy (by linarith)
            subst e1; subst e2
            exact h hf hq0 ha0 _ Sa.2 Sq.2
        subst hyn
        have hr : dsub (decide (a < 0), .fin ma ka) (false, .fin my ky) = (false, .fin 0 (-1074)) := by
          show roundQ (sval (decide (a < 0)) ma ka - sval false my ky) = _
          rw [hd, sub_self]; decide +kernel
        rw [hr]
        have he : ∃ d, dmulErr (false, .fin my ky) = (false, d) := by
          refine ⟨(dmulErr (false, .fin my ky)).2, Prod.ext ?_ rfl⟩
          show decide (sval false my ky * errLit < 0) = false
          rw [decide_eq_false]
          have h1 := dval_nonneg my ky
          have h2 := errLit_bounds.1
          simp only [sval, Bool.false_eq_true, if_false]
          exact not_lt.2 (mul_nonneg h1 h2)
        obtain ⟨d, hd'⟩ := he
        rw [hd']
        have hz : sval false 0 (-1074) = 0 := by simp [sval, dval]
        rw [if_neg, if_neg, crossInt]
        · cases d with
          | inf => decide
          | fin m k =>
            rw [dcmp_fin, hz]
            have := dval_nonneg m k
            have := sgn_nonpos.2 (show 0 - sval false m k ≤ 0 by simp only [sval, Bool.false_eq_true, if_false]; linarith)
            omega
        · cases d with
          | inf => decide
          | fin m k =>
            simp only [Bool.not_false, dcmp_fin]
            rw [hz]
            have := dval_nonneg m k
            rcases sgn_cases (0 - sval true m k) with ⟨g, e⟩ | ⟨_, e⟩ | ⟨_, e⟩
            · simp only [sval, if_true] at g; linarith
            · rw [e]; norm_num
            · rw [e]; norm_num
      · rcases screen fa fy hm hd _ _ rfl rfl with ⟨g, e⟩ | ⟨g, e, e'⟩
        · rw [if_pos (by rw [e]; norm_num), ord_lt]
          exact SR_neg Sa Sq (sgn_of_neg (by linarith))
        · rw [if_neg (by rw [e]; norm_num), if_pos (by rw [e']; norm_num), ord_gt]
          exact SR_pos Sa Sq (sgn_of_pos (by linarith))
  · rw [if_neg hf, crossInt]

/-- The pair on which the estimate goes wrong: the answer does not depend on the numbers. -/
theorem cmpIntRat_bad {a : Int} {q : ℚ} (hq : 2 ^ (-1022 : Int) ≤ |q|) (hf : fixp a = true) (hq0 : q < 0) (ha0 : a < 0) {d : Dbl}
    (h1 : Rounds |(a : ℚ)| d) (h2 : Rounds |q| d) : cmpIntRat a q = -1 := by
  unfold cmpIntRat
  rw [if_pos hf]
  simp only
  have Sa := SR_int a
  have Sq := SR_rat hq
  have ga : getDouble (.int a) = (true, d) := by
    have := rounds_unique (abs_nonneg _) Sa.2 h1
    rw [← this]; simp [getDouble, ha0]
  have gq : getDouble (.rat q) = (true, d) := by
    have := rounds_unique (abs_nonneg _) Sq.2 h2
    rw [← this]; simp [getDouble, hq0]
  rw [ga, gq]
  obtain ⟨ma, ka, ea, fa⟩ := fix_fin hf
  have hd : d = .fin ma ka := rounds_unique (abs_nonneg _) h1 (by rw [← ea]; exact (SR_int a).2)
  subst hd
  have hm := normal_pos hq h2
  have hr : dsub (true, .fin ma ka) (true, .fin ma ka) = (false, .fin 0 (-1074)) := by
    show roundQ (sval true ma ka - sval true ma ka) = _
    rw [sub_self]; decide +kernel
  rw [hr, if_pos]
  have hneg : sval true ma ka * errLit < 0 := by
    have := pow_le_dval ka hm
    have := two_pos ka
    have hl : 0 < errLit := by unfold errLit; decide +kernel
    simp only [sval, if_true]
    nlinarith
  have Se := SR_roundQ (sval true ma ka * errLit)
  show dcmp _ (!(roundQ (sval true ma ka * errLit)).1, (roundQ (sval true ma ka * errLit)).2) < 0
  have en : (roundQ (sval true ma ka * errLit)).1 = true := by simp [roundQ, hneg]
  rw [en]
  have hbig : 2 ^ (-1074 : Int) ≤ |sval true ma ka * errLit| := by
    have hint : (1 : ℚ) ≤ dval ma ka := by
      have h3 := one_le_int (f := a.natAbs) (by omega) ea
      exact h3
    have hl : 2 ^ (-1074 : Int) ≤ errLit := by unfold errLit; decide +kernel
    have hl0 := two_pos (-1074)
    rw [abs_of_neg hneg]
    simp only [sval, if_true]
    generalize (2 : ℚ) ^ (-1074 : Int) = u at *
    nlinarith
  cases hE : (roundQ (sval true ma ka * errLit)).2 with
  | inf => decide
  | fin m k =>
    have h3 := Se.2
    rw [hE] at h3
    obtain ⟨g, _⟩ := rounds_lower hbig h3
    have := pow_le_dval k g
    have := two_pos k
    simp only [Bool.not_true, dcmp_fin]
    rw [sgn_of_neg]
    · norm_num
    · simp only [sval, Bool.false_eq_true, if_false]
      have : dval 0 (-1074) = 0 := by unfold dval; simp
      linarith

/-! ### flonums -/

theorem exact_of_int {neg : Bool} {m : Nat} {k : Int} {n : Int} (h : sval neg m k = n) : exact neg (.fin m k) = some (n : ℚ) := by
  have hv : ∃ j : Int, dval m k = j := by
    cases neg
    · exact ⟨n, by simpa [sval] using h⟩
    · refine ⟨-n, ?_⟩
      simp only [sval, if_true] at h
      push_cast; linarith
  obtain ⟨j, hj⟩ := hv
  have hd : (dval m k).den = 1 := by rw [hj]; exact Rat.den_intCast j
  simp only [exact, hd, if_true, Option.map_some, Option.some.injEq]
  exact h

theorem SR_of_exact {neg : Bool} {m : Nat} {k : Int} (hc : FinDbl m k) {e : ℚ} (h : exact neg (.fin m k) = some e) : SR e (neg, .fin m k) := by
  obtain ⟨e', h1, h2⟩ := SR_exact hc neg
  rw [h] at h1
  cases h1
  exact h2

theorem dcmp_ord {x y : ℚ} {p p' : Bool × Dbl} (h : SR x p) (h' : SR y p') (hc : dcmp p p' ≠ 0) : dcmp p p' = ord x y := by
  rcases dcmp_cases p p' with g | g | g
  · rw [g, ord_lt (SR_neg h h' g)]
  · exact absurd g hc
  · rw [g, ord_gt (SR_pos h h' g)]

theorem big_int {m : Nat} {k : Int} (hc : FinDbl m k) (h : 2 ^ 53 ≤ dval m k) : 0 ≤ k := by
  refine Classical.byContradiction fun hn => ?_
  have h1 : (2 : ℚ) ^ k ≤ 1 := by
    have := zpow_le_zpow_right₀ (a := (2 : ℚ)) (by norm_num) (show k ≤ 0 by omega)
    simpa using this
  have h2 : (m : ℚ) < 2 ^ 53 := by exact_mod_cast hc.1
  have h3 := two_pos k
  unfold dval at h
  nlinarith

theorem sval_int {neg : Bool} {m : Nat} {k : Int} (hk : 0 ≤ k) : ∃ n : Int, sval neg m k = n := by
  obtain ⟨j, rfl⟩ := Int.eq_ofNat_of_zero_le hk
  cases neg
  · exact ⟨m * 2 ^ j, by simp [sval, dval]⟩
  · exact ⟨-(m * 2 ^ j), by simp [sval, dval]⟩

/-- The double of a large integer is an integer. -/
theorem big_rounds {n : Int} (hn : 2 ^ 53 ≤ n.natAbs) {m : Nat} {k : Int} (h : Rounds |(n : ℚ)| (.fin m k)) : 0 ≤ k := by
  refine big_int h.1 ?_
  have hc : FinDbl (2 ^ 52) 1 := ⟨by norm_num, by norm_num, by norm_num, Or.inl le_rfl⟩
  have h1 : Rounds (dval (2 ^ 52) 1) (.fin (2 ^ 52) 1) := rounds_of (RU_self (canonU_of hc)) (by norm_num)
  have h2 : dval (2 ^ 52) 1 = 2 ^ 53 := by unfold dval; norm_num
  rw [h2] at h1
  have h3 := rounds_mono (by norm_num) (by rw [← natAbs_cast]; exact_mod_cast hn) h1 h
  have h4 : dval (2 ^ 52) 1 ≤ dval m k := h3
  rw [h2] at h4
  exact h4

theorem not_dp_big {n : Nat} (h : doublePrecision n = false) (h0 : 0 < n) : 2 ^ 53 ≤ n := by
  refine Classical.byContradiction fun hn => ?_
  have := doublePrecision_of (N := n) (i := 0) h0 (by omega)
  rw [pow_zero, mul_one, h] at this
  cases this

theorem sgn_zero {x : ℚ} (h : sgn x = 0) : x = 0 := by
  rcases sgn_cases x with ⟨_, e⟩ | ⟨g, _⟩ | ⟨_, e⟩
  · rw [h] at e; cases e
  · exact g
  · rw [h] at e; cases e

theorem ofQ_int (n : Int) : ofQ (n : ℚ) = .int n := by
  unfold ofQ
  rw [if_pos (Rat.den_intCast n)]; rfl

/-- A finite flonum and an integer whose doubles are the same: the flonum is an integer if the integer is large. -/
theorem flo_big {neg : Bool} {m : Nat} {k : Int} (hc : FinDbl m k) {n : Int} (hn : 2 ^ 53 ≤ n.natAbs)
    (h : dcmp (neg, .fin m k) (getDouble (.int n)) = 0) : ∃ j : Int, exact neg (.fin m k) = some (j : ℚ) := by
  have Sn := SR_int n
  generalize getDouble (.int n) = y at *
  obtain ⟨ny, dy⟩ := y
  cases dy with
  | inf => cases ny <;> cases h
  | fin my ky =>
    have hk := big_rounds hn Sn.2
    obtain ⟨j, hj⟩ := sval_int (neg := ny) (m := my) hk
    have := sgn_zero h
    exact ⟨j, exact_of_int (by rw [← hj]; linarith)⟩

theorem cmpFlo_int {neg : Bool} {m : Nat} {k : Int} (hc : FinDbl m k) {e : ℚ} (he : exact neg (.fin m k) = some e) (n : Int) :
    cmpFlo neg (.fin m k) (.int n) = some (ord e n) := by
  have Se := SR_of_exact hc he
  have Sn := SR_int n
  have hbig : 2 ^ 53 ≤ n.natAbs → dcmp (neg, .fin m k) (getDouble (.int n)) = 0 →
      (match exact neg (.fin m k) with | none => none | some e => cmpExact (ofQ e) (.int n)) = some (ord e n) := fun hb h0 => by
    obtain ⟨j, hj⟩ := flo_big hc hb h0
    rw [hj] at he
    cases he
    rw [hj]
    show cmpExact (ofQ (j : ℚ)) (.int n) = _
    rw [ofQ_int]
    show some (cmpInt j n) = _
    rw [cmpInt_ord]
  unfold cmpFlo
  simp only
  by_cases hf : fixp n = true
  · rw [if_pos hf]
    by_cases h0 : dcmp (neg, .fin m k) (getDouble (.int n)) = 0
    · rw [if_neg (by simpa using h0)]
      cases hd : doublePrecision n.natAbs with
      | true =>
        rw [if_pos rfl]
        obtain ⟨mn, kn, en, fn⟩ := fix_fin hf
        have hg : getDouble (.int n) = (decide (n < 0), .fin mn kn) := by simp only [getDouble, en]
        rw [hg, dcmp_fin] at h0
        have h1 := sgn_zero h0
        have h2 : sval (decide (n < 0)) mn kn = n := by
          have h3 : dval mn kn = n.natAbs := by
            rcases Nat.eq_zero_or_pos n.natAbs with g | g
            · have h4 := (SR_int n).2
              rw [hg, ← natAbs_cast, g] at h4
              have := zero_fin (by simpa using h4)
              cases this
              rw [g]; unfold dval; simp
            · exact exact_double g hd en
          rw [natAbs_cast] at h3
          rcases lt_or_ge n 0 with g | g
          · have g' : (n : ℚ) < 0 := by exact_mod_cast g
            simp only [g, decide_true, sval, if_true]
            rw [h3, abs_of_neg g', neg_neg]
          · have g' : (0 : ℚ) ≤ n := by exact_mod_cast g
            simp only [not_lt.2 g, decide_false, sval, Bool.false_eq_true, if_false]
            rw [h3, abs_of_nonneg g']
        have := exact_of_int (neg := neg) (m := m) (k := k) (n := n) (by rw [← h2]; linarith)
        rw [this] at he
        cases he
        rw [ord_self]
      | false =>
        rw [if_neg (by simp)]
        refine hbig (not_dp_big hd ?_) h0
        rcases Nat.eq_zero_or_pos n.natAbs with g | g
        · rw [g] at hd; exact absurd hd (by decide +kernel)
        · exact g
    · rw [if_pos h0, dcmp_ord Se Sn h0]
  · rw [if_neg hf, if_neg (by simp)]
    by_cases h0 : dcmp (neg, .fin m k) (getDouble (.int n)) = 0
    · rw [if_neg (by simpa using h0)]
      refine hbig ?_ h0
      unfold fixp at hf
      simp only [Bool.and_eq_true, decide_eq_true_eq, not_and_or] at hf
      omega
    · rw [if_pos h0, dcmp_ord Se Sn h0]

theorem cmpFlo_rat {neg : Bool} {m : Nat} {k : Int} (hc : FinDbl m k) {e : ℚ} (he : exact neg (.fin m k) = some e) {q : ℚ}
    (hq : 2 ^ (-1022 : Int) ≤ |q|)
    (h : ∀ n : Int, e = n → fixp n = true → q < 0 → n < 0 → ∀ d, Rounds |(n : ℚ)| d → ¬ Rounds |q| d) :
    cmpFlo neg (.fin m k) (.rat q) = some (ord e q) := by
  have Se := SR_of_exact hc he
  have Sq := SR_rat hq
  unfold cmpFlo
  simp only
  rw [if_neg (by simp)]
  by_cases h0 : dcmp (neg, .fin m k) (getDouble (.rat q)) = 0
  · rw [if_neg (by simpa using h0), he]
    simp only
    by_cases hd : e.den = 1
    · obtain ⟨n, hn⟩ : ∃ n : Int, e = n := ⟨e.num, by rw [← Rat.num_div_den e, hd]; simp⟩
      subst hn
      rw [ofQ_int]
      show some (cmpIntRat n q) = _
      rw [cmpIntRat_ord hq (h n rfl)]
    · unfold ofQ
      rw [if_neg hd]
      show some (cmpRatRat e q) = _
      rw [cmpRatRat_ord]
  · rw [if_pos h0, dcmp_ord Se Sq h0]

theorem dcmp_flo {neg neg' : Bool} {m m' : Nat} {k k' : Int} (hc : FinDbl m k) (hc' : FinDbl m' k') {e e' : ℚ} (he : exact neg (.fin m k) = some e)
    (he' : exact neg' (.fin m' k') = some e') : dcmp (neg, .fin m k) (neg', .fin m' k') = ord e e' := by
  by_cases h0 : dcmp (neg, .fin m k) (neg', .fin m' k') = 0
  · have h1 := sgn_zero h0
    have hee : e = e' := by
      by_cases hneg : neg = neg'
      · subst hneg
        have h2 : dval m k = dval m' k' := by
          cases neg
          · simp only [sval, Bool.false_eq_true, if_false] at h1; linarith
          · simp only [sval, if_true] at h1; linarith
        obtain ⟨e1, e2⟩ := dval_inj hc hc' h2
        subst e1; subst e2
        rw [he] at he'
        exact Option.some.inj he'
      · have g := dval_nonneg m k
        have g' := dval_nonneg m' k'
        have hz : sval neg m k = ((0 : Int) : ℚ) ∧ sval neg' m' k' = ((0 : Int) : ℚ) := by
          cases neg <;> cases neg' <;> simp only [sval, Bool.false_eq_true, if_false, if_true] at h1 ⊢
          · exact absurd rfl hneg
          · constructor <;> push_cast <;> linarith
          · constructor <;> push_cast <;> linarith
          · exact absurd rfl hneg
        have a1 := exact_of_int hz.1
        have a2 := exact_of_int hz.2
        rw [he] at a1
        rw [he'] at a2
        rw [Option.some.inj a1, Option.some.inj a2]
    rw [h0, hee, ord_self]
  · exact dcmp_ord (SR_of_exact hc he) (SR_of_exact hc' he') h0

end Gauche.NumCmp

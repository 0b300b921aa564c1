import Verif.Proof.NumExact
/-
The comparison of real numbers.
-/
namespace Gauche.NumCmp
open Gauche.Spec Gauche.Flonum Gauche.Rationalize

/-- The sign of a comparison. -/
def ord {α : Type} [LT α] [DecidableLT α] (x y : α) : Int := if x < y then -1 else if y < x then 1 else 0

/-- `p` is the signed double that `v` rounds to. -/
def SR (v : ℚ) (p : Bool × Dbl) : Prop := ((0 ≤ v ∧ p.1 = false) ∨ (v ≤ 0 ∧ p.1 = true)) ∧ Rounds |v| p.2

theorem sgn_cases (x : ℚ) : (x < 0 ∧ sgn x = -1) ∨ (x = 0 ∧ sgn x = 0) ∨ (0 < x ∧ sgn x = 1) := by
  unfold sgn
  rcases lt_trichotomy x 0 with h | h | h
  · exact Or.inl ⟨h, by rw [if_pos h]⟩
  · exact Or.inr (Or.inl ⟨h, by rw [if_neg (by linarith), if_neg (by linarith)]⟩)
  · exact Or.inr (Or.inr ⟨h, by rw [if_neg (by linarith), if_pos h]⟩)

theorem sgn_nonpos {x : ℚ} : sgn x ≤ 0 ↔ x ≤ 0 := by
  rcases sgn_cases x with ⟨h, e⟩ | ⟨h, e⟩ | ⟨h, e⟩ <;> rw [e]
  · exact ⟨fun _ => h.le, fun _ => by norm_num⟩
  · exact ⟨fun _ => h.le, fun _ => by norm_num⟩
  · exact ⟨fun g => absurd g (by norm_num), fun g => absurd g (by linarith)⟩

theorem sgn_neg (x : ℚ) : sgn (-x) = -sgn x := by
  rcases sgn_cases x with ⟨h, e⟩ | ⟨h, e⟩ | ⟨h, e⟩ <;> rcases sgn_cases (-x) with ⟨h', e'⟩ | ⟨h', e'⟩ | ⟨h', e'⟩ <;> rw [e, e'] <;>
    first | rfl | (exfalso; linarith)

theorem dcmp_anti (p p' : Bool × Dbl) : dcmp p' p = -dcmp p p' := by
  obtain ⟨n, d⟩ := p
  obtain ⟨n', d'⟩ := p'
  cases d with
  | inf => cases d' with
    | inf => cases n <;> cases n' <;> rfl
    | fin m' k' => cases n <;> rfl
  | fin m k => cases d' with
    | inf => cases n' <;> rfl
    | fin m' k' =>
      show sgn (sval n' m' k' - sval n m k) = -sgn (sval n m k - sval n' m' k')
      rw [← sgn_neg, neg_sub]

theorem dcmp_cases (p p' : Bool × Dbl) : dcmp p p' = -1 ∨ dcmp p p' = 0 ∨ dcmp p p' = 1 := by
  obtain ⟨n, d⟩ := p
  obtain ⟨n', d'⟩ := p'
  cases d with
  | inf => cases d' with
    | inf => cases n <;> cases n' <;> simp [dcmp]
    | fin m' k' => cases n <;> simp [dcmp]
  | fin m k => cases d' with
    | inf => cases n' <;> simp [dcmp]
    | fin m' k' =>
      show sgn (sval n m k - sval n' m' k') = -1 ∨ sgn (sval n m k - sval n' m' k') = 0 ∨ sgn (sval n m k - sval n' m' k') = 1
      rcases sgn_cases (sval n m k - sval n' m' k') with ⟨_, e⟩ | ⟨_, e⟩ | ⟨_, e⟩ <;> simp [e]

theorem zero_fin {d : Dbl} (h : Rounds 0 d) : d = .fin 0 (-1074) := rounds_unique le_rfl h (rounds_of zero_RU (by norm_num))

/-- Rounding respects the order. -/
theorem SR_mono {v w : ℚ} {p p' : Bool × Dbl} (h : SR v p) (h' : SR w p') (hvw : v ≤ w) : dcmp p p' ≤ 0 := by
  obtain ⟨n, d⟩ := p
  obtain ⟨n', d'⟩ := p'
  obtain ⟨hs, hr⟩ := h
  obtain ⟨hs', hr'⟩ := h'
  simp only at hs hs' hr hr'
  rcases hs with ⟨h0, rfl⟩ | ⟨h0, rfl⟩ <;> rcases hs' with ⟨h0', rfl⟩ | ⟨h0', rfl⟩
  · have := rounds_mono (abs_nonneg v) (by rw [abs_of_nonneg h0, abs_of_nonneg h0']; exact hvw) hr hr'
    cases d with
    | inf => cases d' with
      | inf => simp [dcmp]
      | fin m' k' => exact this.elim
    | fin m k => cases d' with
      | inf => simp [dcmp]
      | fin m' k' =>
        have h2 : dval m k ≤ dval m' k' := this
        exact sgn_nonpos.2 (by simp only [sval, Bool.false_eq_true, if_false]; linarith)
  · have hv : v = 0 := by linarith
    have hw : w = 0 := by linarith
    rw [hv, abs_zero] at hr
    rw [hw, abs_zero] at hr'
    rw [zero_fin hr, zero_fin hr']
    exact sgn_nonpos.2 (by simp [sval, dval])
  · cases d with
    | inf => cases d' <;> simp [dcmp]
    | fin m k => cases d' with
      | inf => simp [dcmp]
      | fin m' k' =>
        refine sgn_nonpos.2 ?_
        have := dval_nonneg m k
        have := dval_nonneg m' k'
        simp only [sval, Bool.false_eq_true, if_false, if_true]; linarith
  · have := rounds_mono (abs_nonneg w) (by rw [abs_of_nonpos h0, abs_of_nonpos h0']; linarith) hr' hr
    cases d with
    | inf => cases d' <;> simp [dcmp]
    | fin m k => cases d' with
      | inf => exact this.elim
      | fin m' k' =>
        have h2 : dval m' k' ≤ dval m k := this
        exact sgn_nonpos.2 (by simp only [sval, if_true]; linarith)

theorem SR_pos {v w : ℚ} {p p' : Bool × Dbl} (h : SR v p) (h' : SR w p') (hc : dcmp p p' = 1) : w < v := by
  refine Classical.byContradiction fun hn => ?_
  have := SR_mono h h' (not_lt.1 hn)
  omega

theorem SR_neg {v w : ℚ} {p p' : Bool × Dbl} (h : SR v p) (h' : SR w p') (hc : dcmp p p' = -1) : v < w := by
  refine SR_pos h' h ?_
  rw [dcmp_anti, hc]; rfl

theorem natAbs_cast (n : Int) : ((n.natAbs : Nat) : ℚ) = |(n : ℚ)| := by
  rw [Nat.cast_natAbs, Int.cast_abs]

theorem SR_int (n : Int) : SR n (getDouble (.int n)) := by
  have hr : Rounds |(n : ℚ)| (intToDouble n.natAbs) := by
    have := intToDouble_spec n.natAbs
    rw [natAbs_cast n] at this
    exact this
  refine ⟨?_, hr⟩
  simp only [getDouble]
  rcases lt_or_ge n 0 with h | h
  · right; exact ⟨by exact_mod_cast h.le, by simp [h]⟩
  · left; exact ⟨by exact_mod_cast h, by simp [h]⟩

theorem abs_eq_div (q : ℚ) : |q| = (q.num.natAbs : ℚ) / q.den := by
  have hd : (0 : ℚ) < q.den := by exact_mod_cast q.den_pos
  conv => lhs; rw [← Rat.num_div_den q, abs_div, abs_of_pos hd]
  congr 1
  exact (natAbs_cast _).symm

theorem SR_rat {q : ℚ} (hq : 2 ^ (-1022 : Int) ≤ |q|) : SR q (getDouble (.rat q)) := by
  have h0 : q ≠ 0 := by
    rintro rfl
    have := two_pos (-1022)
    rw [abs_zero] at hq; linarith
  have hn : 0 < q.num.natAbs := Int.natAbs_pos.2 (Rat.num_ne_zero.2 h0)
  have hr : Rounds |q| (ratToDouble q.num.natAbs q.den) := by
    rw [abs_eq_div] at hq ⊢
    exact ratToDouble_spec hn q.den_pos hq
  refine ⟨?_, hr⟩
  simp only [getDouble]
  rcases lt_or_ge q 0 with h | h
  · right; exact ⟨h.le, by simp [h]⟩
  · left; exact ⟨h, by simp [h]⟩

theorem SR_roundQ (x : ℚ) : SR x (roundQ x) := by
  unfold roundQ
  refine ⟨?_, ?_⟩
  · rcases lt_or_ge x 0 with h | h
    · right; exact ⟨h.le, by simp [h]⟩
    · left; exact ⟨h, by simp [h]⟩
  · rw [abs_eq_div]
    exact rnd_spec _ _ x.den_pos

theorem SR_exact {m : Nat} {k : Int} (hc : FinDbl m k) (neg : Bool) : ∃ e, exact neg (.fin m k) = some e ∧ SR e (neg, .fin m k) := by
  obtain ⟨q, h1, h2⟩ := exact_spec hc
  have h0 : 0 ≤ q := by
    rcases h2.2.2 with g | ⟨g, _⟩
    all_goals
      have hl := low_le m k
      rcases Nat.eq_zero_or_pos m with hm | hm
      · subst hm
        have hq : exact false (.fin 0 k) = some (dval 0 k) := by
          have : dval 0 k = 0 := by unfold dval; simp
          simp [exact, this]
        have := h1 false
        rw [hq] at this
        have hq2 : dval 0 k = q := by simpa using this
        rw [← hq2]; exact dval_nonneg _ _
      · have := pow_le_dval k hm
        have := two_pos k
        linarith
  have hr : Rounds q (.fin m k) := rounds_of h2 hc.2.2.1
  refine ⟨_, h1 neg, ?_, ?_⟩
  · cases neg
    · left; exact ⟨by simpa using h0, rfl⟩
    · right; exact ⟨by simpa using h0, rfl⟩
  · have : |if neg = true then -q else q| = q := by
      cases neg
      · simpa using abs_of_nonneg h0
      · simpa using abs_of_nonneg h0
    rw [this]; exact hr

/-! ### exact numbers -/

theorem cmpInt_ord (a b : Int) : cmpInt a b = ord (a : ℚ) b := by
  unfold cmpInt ord
  simp only [Int.cast_lt]

theorem ord_neg {x y : ℚ} : -ord x y = ord y x := by
  unfold ord
  rcases lt_trichotomy x y with h | h | h
  · rw [if_pos h, if_neg (by linarith), if_pos h]; rfl
  · rw [if_neg (by linarith), if_neg (by linarith), if_neg (by linarith), if_neg (by linarith)]; rfl
  · rw [if_neg (by linarith), if_pos h, if_pos h]

theorem ord_scale {x y c : ℚ} (hc : 0 < c) : ord (x * c) (y * c) = ord x y := by
  unfold ord
  simp only [mul_lt_mul_iff_of_pos_right hc]

theorem cross (p q : ℚ) : cmpInt (p.num * q.den) (q.num * p.den) = ord p q := by
  rw [cmpInt_ord]
  have hp : (0 : ℚ) < p.den := by exact_mod_cast p.den_pos
  have hq : (0 : ℚ) < q.den := by exact_mod_cast q.den_pos
  have e1 : ((p.num * q.den : Int) : ℚ) = p * (p.den * q.den) := by
    push_cast
    conv => rhs; rw [← Rat.num_div_den p]
    field_simp
    simp only [Rat.num_div_den]
  have e2 : ((q.num * p.den : Int) : ℚ) = q * (p.den * q.den) := by
    push_cast
    conv => rhs; rw [← Rat.num_div_den q]
    field_simp
    simp only [Rat.num_div_den]
  rw [e1, e2, ord_scale (mul_pos hp hq)]

theorem crossInt (a : Int) (q : ℚ) : cmpInt (a * q.den) q.num = ord (a : ℚ) q := by
  have := cross (a : ℚ) q
  simpa using this

theorem cmpInt_cases (a b : Int) : (a < b ∧ cmpInt a b = -1) ∨ (a = b ∧ cmpInt a b = 0) ∨ (b < a ∧ cmpInt a b = 1) := by
  unfold cmpInt
  rcases lt_trichotomy a b with h | h | h
  · exact Or.inl ⟨h, by rw [if_pos h]⟩
  · exact Or.inr (Or.inl ⟨h, by rw [if_neg (by omega), if_neg (by omega)]⟩)
  · exact Or.inr (Or.inr ⟨h, by rw [if_neg (by omega), if_pos h]⟩)

theorem sgn_int (a : Int) : (a < 0 ∧ sgn (a : ℚ) = -1) ∨ (a = 0 ∧ sgn (a : ℚ) = 0) ∨ (0 < a ∧ sgn (a : ℚ) = 1) := by
  rcases sgn_cases (a : ℚ) with ⟨h, e⟩ | ⟨h, e⟩ | ⟨h, e⟩
  · exact Or.inl ⟨by exact_mod_cast h, e⟩
  · exact Or.inr (Or.inl ⟨by exact_mod_cast h, e⟩)
  · exact Or.inr (Or.inr ⟨by exact_mod_cast h, e⟩)

theorem cmpInt_lt {a b : Int} (h : a < b) : cmpInt a b = -1 := by unfold cmpInt; rw [if_pos h]
theorem cmpInt_gt {a b : Int} (h : b < a) : cmpInt a b = 1 := by unfold cmpInt; rw [if_neg (by omega), if_pos h]
theorem cmpInt_self (a : Int) : cmpInt a a = 0 := by unfold cmpInt; rw [if_neg (by omega), if_neg (by omega)]

theorem cmpRatRat_ord (p q : ℚ) : cmpRatRat p q = ord p q := by
  rw [← cross]
  have hb : (0 : Int) < p.den := by exact_mod_cast p.den_pos
  have he : (0 : Int) < q.den := by exact_mod_cast q.den_pos
  unfold cmpRatRat
  generalize p.num = a at *
  generalize q.num = c at *
  generalize (p.den : Int) = b at *
  generalize (q.den : Int) = e at *
  simp only
  rcases sgn_int a with ⟨ha, sa⟩ | ⟨ha, sa⟩ | ⟨ha, sa⟩ <;> rcases sgn_int c with ⟨hc, sc⟩ | ⟨hc, sc⟩ | ⟨hc, sc⟩ <;> rw [sa, sc]
  case inr.inl.inr.inl => subst ha; subst hc; rcases cmpInt_cases b e with ⟨hd, ed⟩ | ⟨hd, ed⟩ | ⟨hd, ed⟩ <;> rw [ed] <;> simp [cmpInt]
  case inl.inr.inl => rw [cmpInt_lt (a := a * e) (by nlinarith)]; rfl
  case inl.inr.inr => rw [cmpInt_lt (a := a * e) (by nlinarith)]; rfl
  case inr.inl.inr.inr => rw [cmpInt_lt (a := a * e) (by nlinarith)]; rfl
  case inr.inl.inl => rw [cmpInt_gt (a := a * e) (by nlinarith)]; rfl
  case inr.inr.inl => rw [cmpInt_gt (a := a * e) (by nlinarith)]; rfl
  case inr.inr.inr.inl => rw [cmpInt_gt (a := a * e) (by nlinarith)]; rfl
  case inl.inl =>
    rcases cmpInt_cases b e with ⟨hd, ed⟩ | ⟨hd, ed⟩ | ⟨hd, ed⟩ <;> rw [ed]
    · rcases cmpInt_cases a c with ⟨hn, en⟩ | ⟨hn, en⟩ | ⟨hn, en⟩ <;> rw [en]
      · rw [cmpInt_lt (a := a * e) (by nlinarith)]; rfl
      · rw [cmpInt_lt (a := a * e) (by nlinarith)]; rfl
      · rfl
    · subst hd
      rcases cmpInt_cases a c with ⟨hn, en⟩ | ⟨hn, en⟩ | ⟨hn, en⟩ <;> rw [en]
      · rw [cmpInt_lt (a := a * b) (by nlinarith)]; rfl
      · subst hn; rw [cmpInt_self]; rfl
      · rw [cmpInt_gt (a := a * b) (by nlinarith)]; rfl
    · rcases cmpInt_cases a c with ⟨hn, en⟩ | ⟨hn, en⟩ | ⟨hn, en⟩ <;> rw [en]
      · rfl
      · rw [cmpInt_gt (a := a * e) (by nlinarith)]; rfl
      · rw [cmpInt_gt (a := a * e) (by nlinarith)]; rfl
  case inr.inr.inr.inr =>
    rcases cmpInt_cases b e with ⟨hd, ed⟩ | ⟨hd, ed⟩ | ⟨hd, ed⟩ <;> rw [ed]
    · rcases cmpInt_cases a c with ⟨hn, en⟩ | ⟨hn, en⟩ | ⟨hn, en⟩ <;> rw [en]
      · rfl
      · rw [cmpInt_gt (a := a * e) (by nlinarith)]; rfl
      · rw [cmpInt_gt (a := a * e) (by nlinarith)]; rfl
    · subst hd
      rcases cmpInt_cases a c with ⟨hn, en⟩ | ⟨hn, en⟩ | ⟨hn, en⟩ <;> rw [en]
      · rw [cmpInt_lt (a := a * b) (by nlinarith)]; rfl
      · subst hn; rw [cmpInt_self]; rfl
      · rw [cmpInt_gt (a := a * b) (by nlinarith)]; rfl
    · rcases cmpInt_cases a c with ⟨hn, en⟩ | ⟨hn, en⟩ | ⟨hn, en⟩ <;> rw [en]
      · rw [cmpInt_lt (a := a * e) (by nlinarith)]; rfl
      · rw [cmpInt_lt (a := a * e) (by nlinarith)]; rfl
      · rfl

/-! ### the estimate by doubles -/

theorem errLit_bounds : 0 ≤ errLit ∧ errLit ≤ 1 / 2 ^ 100 := by
  unfold errLit
  decide +kernel

theorem rounds_twice {z : ℚ} (hz : 0 ≤ z) {m : Nat} {k : Int} (h : Rounds z (.fin m k)) : dval m k ≤ 2 * z := by
  have hR := rounds_RU hz h
  rcases Nat.eq_zero_or_pos m with hm | hm
  · subst hm; unfold dval; simp; exact hz
  · have := pow_le_dval k hm
    have := low_le m k
    rcases hR.2.2 with g | ⟨g, _⟩ <;> linarith

theorem dval_inj {m m' : Nat} {k k' : Int} (h : FinDbl m k) (h' : FinDbl m' k') (he : dval m k = dval m' k') : m = m' ∧ k = k' := by
  have h1 := RU_self (canonU_of h)
  rw [he] at h1
  have := RU_unique h1 (RU_self (canonU_of h'))
  simpa using this

theorem two_le_low {m : Nat} {k : Int} (h : CanonU m k) : 2 ^ (-1074 : Int) ≤ low m k := by
  unfold low
  by_cases g : m = 2 ^ 52 ∧ -1074 < k
  · rw [if_pos g]; have := two_lt g.2; linarith
  · rw [if_neg g]; exact zpow_le_zpow_right₀ (by norm_num) h.2.1

/-- Two different doubles are apart by the distance of the second to its lower neighbour. -/
theorem apart {n n' : Bool} {m m' : Nat} {k k' : Int} (h : FinDbl m k) (h' : FinDbl m' k') (hm : 0 < m') (hne : sval n m k ≠ sval n' m' k') :
    low m' k' ≤ |sval n m k - sval n' m' k'| := by
  have a0 := dval_nonneg m k
  have a1 := pow_le_dval k' hm
  have a2 := low_le m' k'
  have hsame : dval m k ≠ dval m' k' → low m' k' ≤ |dval m k - dval m' k'| := fun hd => by
    rcases below_trichotomy m m' k k' with g | g | g
    · have := gap_down (canonU_of h) (canonU_of h') g
      rw [abs_sub_comm]; exact le_trans (by linarith) (le_abs_self _)
    · rw [Prod.mk.injEq] at g; exact absurd (by rw [g.1, g.2]) hd
    · have := gap_up (canonU_of h') (canonU_of h) g
      exact le_trans (by linarith) (le_abs_self _)
  cases n <;> cases n' <;> simp only [sval, Bool.false_eq_true, if_false, if_true] at hne ⊢
  · exact hsame hne
  · exact le_trans (by linarith) (le_abs_self _)
  · rw [abs_sub_comm]; exact le_trans (by linarith) (le_abs_self _)
  · have := hsame (fun e => hne (by rw [e]))
    rw [show -dval m k - -dval m' k' = -(dval m k - dval m' k') by ring, abs_neg]; exact this

theorem dcmp_fin (n n' : Bool) (m m' : Nat) (k k' : Int) : dcmp (n, .fin m k) (n', .fin m' k') = sgn (sval n m k - sval n' m' k') := rfl

theorem sgn_of_neg {x : ℚ} (h : x < 0) : sgn x = -1 := by unfold sgn; rw [if_pos h]
theorem sgn_of_pos {x : ℚ} (h : 0 < x) : sgn x = 1 := by unfold sgn; rw [if_neg (by linarith), if_pos h]

/-- The screening of an integer against a ratnum: the doubles decide if they differ. -/
theorem screen {na ny : Bool} {ma my : Nat} {ka ky : Int} (ha : FinDbl ma ka) (hy : FinDbl my ky) (hm : 0 < my)
    (hne : sval na ma ka ≠ sval ny my ky) (r err : Bool × Dbl) (hr : r = dsub (na, .fin ma ka) (ny, .fin my ky))
    (he : err = dmulErr (ny, .fin my ky)) :
    (sval na ma ka < sval ny my ky ∧ dcmp r (!err.1, err.2) = -1) ∨
    (sval ny my ky < sval na ma ka ∧ dcmp r (!err.1, err.2) = 1 ∧ dcmp r err = 1) := by
  have hap := apart ha hy hm hne
  have hlow := two_le_low (canonU_of hy)
  have hr' : r = roundQ (sval na ma ka - sval ny my ky) := hr
  have he' : err = roundQ (sval ny my ky * errLit) := he
  clear hr he
  have SRr := SR_roundQ (sval na ma ka - sval ny my ky)
  have SRe := SR_roundQ (sval ny my ky * errLit)
  rw [← hr'] at SRr
  rw [← he'] at SRe
  obtain ⟨el0, el1⟩ := errLit_bounds
  have habs : |sval ny my ky * errLit| = dval my ky * errLit := by
    rw [abs_mul, abs_of_nonneg el0]
    congr 1
    have := dval_nonneg my ky
    cases ny
    · simp only [sval, Bool.false_eq_true, if_false]; exact abs_of_nonneg this
    · simp only [sval, if_true, abs_neg]; exact abs_of_nonneg this
  obtain ⟨nr, dr⟩ := r
  obtain ⟨ne, de⟩ := err
  have Re : Rounds (dval my ky * errLit) de := by rw [← habs]; exact SRe.2
  have hyself : Rounds (dval my ky) (.fin my ky) := rounds_of (RU_self (canonU_of hy)) hy.2.2.1
  have hz0 : 0 ≤ dval my ky * errLit := mul_nonneg (dval_nonneg _ _) el0
  have hfin := rounds_mono hz0 (by
    have := dval_nonneg my ky
    nlinarith [show (1 : ℚ) / 2 ^ 100 ≤ 1 by norm_num]) Re hyself
  cases de with
  | inf => exact hfin.elim
  | fin me ke =>
    have hsmall : dval me ke < low my ky / 2 := by
      have h1 := rounds_twice hz0 Re
      have h2 : dval my ky ≤ 2 ^ 53 * 2 ^ ky := by
        unfold dval
        refine mul_le_mul_of_nonneg_right ?_ (two_pos ky).le
        exact_mod_cast hy.1.le
      have h3 : 2 ^ ky ≤ 2 * low my ky := by
        unfold low; have := two_pos ky; split <;> linarith
      have h4 : dval my ky * errLit ≤ 2 ^ 53 * 2 ^ ky * (1 / 2 ^ 100) :=
        mul_le_mul h2 el1 el0 (by have := two_pos ky; positivity)
      have h5 := two_pos ky
      generalize (2 : ℚ) ^ ky = u at *
      norm_num at h4
      linarith
    have ne_abs : |sval ne me ke| = dval me ke := by
      have := dval_nonneg me ke
      cases ne
      · simp only [sval, Bool.false_eq_true, if_false]; exact abs_of_nonneg this
      · simp only [sval, if_true, abs_neg]; exact abs_of_nonneg this
    have neg_sval : sval (!ne) me ke = -sval ne me ke := by cases ne <;> simp [sval]
    have hle := le_abs_self (sval ne me ke)
    have hle2 := neg_le_abs (sval ne me ke)
    rcases lt_or_gt_of_ne hne with hlt | hgt
    · left
      refine ⟨hlt, ?_⟩
      have hn : nr = true := by
        rcases SRr.1 with ⟨h, _⟩ | ⟨_, h⟩
        · linarith
        · exact h
      subst hn
      cases dr with
      | inf => rfl
      | fin mr kr =>
        have := (rounds_lower (le_trans hlow hap) SRr.2).2
        simp only [dcmp_fin]
        refine sgn_of_neg ?_
        rw [neg_sval]
        simp only [sval, if_true] at *
        linarith
    · right
      refine ⟨hgt, ?_⟩
      have hn : nr = false := by
        rcases SRr.1 with ⟨_, h⟩ | ⟨h, _⟩
        · exact h
        · linarith
      subst hn
      cases dr with
      | inf => exact ⟨rfl, rfl⟩
      | fin mr kr =>
        have := (rounds_lower (le_trans hlow hap) SRr.2).2
        simp only [dcmp_fin]
        refine ⟨sgn_of_pos ?_, sgn_of_pos ?_⟩
        · rw [neg_sval]
          simp only [sval, Bool.false_eq_true, if_false] at *
          linarith
        · simp only [sval, Bool.false_eq_true, if_false] at *
          linarith

end Gauche.NumCmp

import Verif.Proof.NumCmpMain
/-
C66: exact and inexact.  C67: the order of real numbers.
-/
namespace Gauche.NumCmp
open Gauche.Spec Gauche.Flonum Gauche.Rationalize

/-! ### C66 -/

/-- C66: `(exact x)` of every finite flonum is defined, it is an odd function, and the result is a number that rounds to `x`: no flonum other than `x`
is nearer to it.  An integer gives itself. -/
theorem C66_exact {m : Nat} {k : Int} (hc : FinDbl m k) : ∃ e : ℚ, 0 ≤ e ∧ Rounds e (.fin m k) ∧ ((∃ n : Int, dval m k = n) → e = dval m k) ∧
    exact false (.fin m k) = some e ∧ exact true (.fin m k) = some (-e) := by
  obtain ⟨e, h1, h2⟩ := SR_exact hc false
  obtain ⟨q, g1, g2⟩ := exact_spec hc
  have hq : e = q := by
    have := g1 false
    rw [h1] at this
    simpa using this
  subst hq
  have h0 : 0 ≤ e := by
    rcases h2.1 with ⟨h, _⟩ | ⟨_, h⟩
    · exact h
    · cases h
  refine ⟨e, h0, ?_, ?_, h1, by have := g1 true; simpa using this⟩
  · have := h2.2
    rwa [abs_of_nonneg h0] at this
  · rintro ⟨n, hn⟩
    have := exact_of_int (neg := false) (m := m) (k := k) (n := n) (by simpa [sval] using hn)
    rw [h1] at this
    rw [hn]; exact Option.some.inj this

theorem least_normal : ∃ q, flonumToRational (2 ^ 52) (-1074) = some q ∧ 2 ^ (-1022 : Int) ≤ q := by
  have h : (flonumToRational (2 ^ 52) (-1074)).any (fun q => decide ((2 : ℚ) ^ (-1022 : Int) ≤ q)) = true := by decide +kernel
  cases hq : flonumToRational (2 ^ 52) (-1074) with
  | none => rw [hq] at h; cases h
  | some q => rw [hq] at h; exact ⟨q, rfl, by simpa using h⟩

theorem exact_normal {m : Nat} {k : Int} (hc : FinDbl m k) (hm : 2 ^ 52 ≤ m) {e : ℚ} (he : exact false (.fin m k) = some e) :
    2 ^ (-1022 : Int) ≤ e := by
  obtain ⟨q, g1, g2⟩ := exact_spec hc
  have hq : e = q := by
    have := g1 false
    rw [he] at this
    simpa using this
  subst hq
  by_cases hmin : m = 2 ^ 52 ∧ k = -1074
  · obtain ⟨rfl, rfl⟩ := hmin
    obtain ⟨q, hq, hl⟩ := least_normal
    have hd : (dval (2 ^ 52) (-1074)).den ≠ 1 := by decide +kernel
    simp only [exact, hd, if_false, hq, Option.map_some, Option.some.injEq, Bool.false_eq_true] at he
    rw [← he]; exact hl
  · have hge : dval m k - low m k / 2 ≤ e := by rcases g2.2.2 with g | ⟨g, _⟩ <;> linarith
    have h22 := two_1022
    have hu := two_pos (-1074)
    refine le_trans ?_ hge
    rw [h22]
    unfold dval low
    have hm' : (2 : ℚ) ^ 52 ≤ m := by exact_mod_cast hm
    by_cases hk : k = -1074
    · subst hk
      have hm2 : (2 : ℚ) ^ 52 + 1 ≤ m := by
        have : 2 ^ 52 + 1 ≤ m := by
          rcases Nat.lt_or_ge (2 ^ 52) m with g | g
          · exact g
          · exact absurd ⟨le_antisymm g hm, rfl⟩ hmin
        exact_mod_cast this
      rw [if_neg (by norm_num)]
      generalize (2 : ℚ) ^ (-1074 : Int) = u at *
      nlinarith
    · have hk' : -1074 < k := lt_of_le_of_ne hc.2.1 (Ne.symm hk)
      have h2 := two_lt hk'
      have hw : (2 : ℚ) ^ 52 * 2 ^ k ≤ m * 2 ^ k := mul_le_mul_of_nonneg_right hm' (two_pos k).le
      split <;>
      · generalize (2 : ℚ) ^ (-1074 : Int) = u at *
        generalize (2 : ℚ) ^ k = v at *
        linarith

/-- C66, the round trip, for the flonums that are not subnormal: `(inexact (exact x))` is `x`.  Missing: the subnormal flonums, for which it is false
(`C66_bug_subnormal`), and the sign of `-0.0`, which has no exact counterpart. -/
theorem C66_round_trip_partial {m : Nat} {k : Int} (hc : FinDbl m k) (hm : 2 ^ 52 ≤ m) (neg : Bool) :
    (exact neg (.fin m k)).map (fun e => getDouble (ofQ e)) = some (neg, .fin m k) := by
  obtain ⟨e, h0, hr, hi, h1, h2⟩ := C66_exact hc
  have hn := exact_normal hc hm h1
  have hpos : 0 < e := lt_of_lt_of_le (two_pos _) hn
  have key : ∀ x : ℚ, |x| = e → (decide (x < 0) = neg) → getDouble (ofQ x) = (neg, .fin m k) := fun x hx hs => by
    unfold ofQ
    by_cases hd : x.den = 1
    · rw [if_pos hd]
      have hxn : x = x.num := by conv => lhs; rw [← Rat.num_div_den x, hd]; simp
      refine Prod.ext ?_ ?_
      · show decide (x.num < 0) = neg
        rw [← hs]; simp
      · refine rounds_unique h0 ?_ hr
        have := (SR_int x.num).2
        rwa [← hxn, hx] at this
    · rw [if_neg hd]
      refine Prod.ext ?_ ?_
      · exact hs
      · refine rounds_unique h0 ?_ hr
        have := (SR_rat (q := x) (by rw [hx]; exact hn)).2
        rwa [hx] at this
  cases neg
  · rw [h1, Option.map_some, key e (abs_of_nonneg h0) (by simp [h0])]
  · rw [h2, Option.map_some, key (-e) (by rw [abs_neg, abs_of_nonneg h0]) (by simp [hpos])]

/-- C66 is false of the code for subnormal flonums: `(exact x)` is a ratio `1/N`, and converting it back is off by one unit. -/
theorem C66_bug_subnormal : (exact false (.fin 1781658995061769 (-1074))).map (fun e => getDouble (ofQ e)) =
    some (false, .fin 1781658995061770 (-1074)) := by decide +kernel

/-- The hypotheses are met: 0.1 is 1/10, and goes back. -/
example : exact false (.fin 7205759403792794 (-56)) = some (1 / 10) ∧ FinDbl 7205759403792794 (-56) ∧ getDouble (.rat (1 / 10)) = (false, .fin 7205759403792794 (-56)) :=
  ⟨by decide +kernel, by unfold FinDbl; norm_num, by decide +kernel⟩

/-! ### C67 -/

/-- The place of a number on the extended line: exact numbers are themselves, a finite flonum is where `exact` puts it (see C66). -/
def key : Rl → WithBot (WithTop ℚ)
  | .int n => (((n : ℚ) : WithTop ℚ) : WithBot (WithTop ℚ))
  | .rat q => ((q : WithTop ℚ) : WithBot (WithTop ℚ))
  | .flo neg .inf => if neg then ⊥ else ((⊤ : WithTop ℚ) : WithBot (WithTop ℚ))
  | .flo neg (.fin m k) => ((((exact neg (.fin m k)).getD 0 : ℚ) : WithTop ℚ) : WithBot (WithTop ℚ))

/-- The numbers of the theorem: flonums that exist, ratnums that are not integers and not subnormal. -/
def Ok : Rl → Prop
  | .int _ => True
  | .rat q => q.den ≠ 1 ∧ 2 ^ (-1022 : Int) ≤ |q|
  | .flo _ (.fin m k) => FinDbl m k
  | .flo _ .inf => True

/-- A fixnum, or a flonum equal to one, and a ratnum, both negative, that round to the same flonum. -/
def Close (a b : Rl) : Prop := ∃ (n : Int) (q : ℚ) (d : Dbl), b = .rat q ∧ (a = .int n ∨ ((∃ s e, a = .flo s e) ∧ key a = key (.int n))) ∧
  -2 ^ 61 ≤ n ∧ n < 0 ∧ q < 0 ∧ Rounds |(n : ℚ)| d ∧ Rounds |q| d

/-- `c` is the sign of the comparison of `x` and `y`. -/
def Agree (c : Int) (x y : WithBot (WithTop ℚ)) : Prop := (x < y ∧ c = -1) ∨ (x = y ∧ c = 0) ∨ (y < x ∧ c = 1)

theorem agree_ord (x y : ℚ) : Agree (ord x y) ((x : WithTop ℚ) : WithBot (WithTop ℚ)) ((y : WithTop ℚ) : WithBot (WithTop ℚ)) := by
  rcases lt_trichotomy x y with h | h | h
  · exact Or.inl ⟨by exact_mod_cast h, ord_lt h⟩
  · exact Or.inr (Or.inl ⟨by rw [h], by rw [h, ord_self]⟩)
  · exact Or.inr (Or.inr ⟨by exact_mod_cast h, ord_gt h⟩)

theorem agree_neg {c : Int} {x y : WithBot (WithTop ℚ)} (h : Agree c x y) : Agree (-c) y x := by
  rcases h with ⟨h, e⟩ | ⟨h, e⟩ | ⟨h, e⟩ <;> subst e
  · exact Or.inr (Or.inr ⟨h, rfl⟩)
  · exact Or.inr (Or.inl ⟨h.symm, rfl⟩)
  · exact Or.inl ⟨h, rfl⟩

theorem fixp_of {n : Int} (h1 : -2 ^ 61 ≤ n) (h2 : n < 0) : fixp n = true := by
  unfold fixp
  simp only [Bool.and_eq_true, decide_eq_true_eq]
  omega

theorem of_fixp {n : Int} (h : fixp n = true) : -2 ^ 61 ≤ n := by
  unfold fixp at h
  simp only [Bool.and_eq_true, decide_eq_true_eq] at h
  exact h.1

theorem key_finite {neg : Bool} {m : Nat} {k : Int} {e : ℚ} (he : exact neg (.fin m k) = some e) :
    key (.flo neg (.fin m k)) = ((e : WithTop ℚ) : WithBot (WithTop ℚ)) := by
  simp only [key, he, Option.getD_some]

theorem top_gt (x : ℚ) : ((x : WithTop ℚ) : WithBot (WithTop ℚ)) < ((⊤ : WithTop ℚ) : WithBot (WithTop ℚ)) :=
  WithBot.coe_lt_coe.2 (WithTop.coe_lt_top x)

theorem agree_inf (neg : Bool) (x : ℚ) : Agree (if neg then -1 else 1) (key (.flo neg .inf)) ((x : WithTop ℚ) : WithBot (WithTop ℚ)) := by
  cases neg
  · exact Or.inr (Or.inr ⟨top_gt x, rfl⟩)
  · exact Or.inl ⟨WithBot.bot_lt_coe _, rfl⟩

theorem agree_flo {neg : Bool} {d : Dbl} {b : Rl} (ha : Ok (.flo neg d)) (hb : Ok b) (hnf : ∀ s e, b ≠ .flo s e) (hcl : ¬ Close (.flo neg d) b) :
    ∃ c, cmpFlo neg d b = some c ∧ Agree c (key (.flo neg d)) (key b) := by
  cases b with
  | flo s e => exact absurd rfl (hnf s e)
  | int n =>
    cases d with
    | inf =>
      refine ⟨if neg then -1 else 1, ?_, agree_inf neg n⟩
      unfold cmpFlo
      simp only
      by_cases hf : fixp n = true
      · rw [if_pos hf]
        obtain ⟨m, k, e, _⟩ := fix_fin hf
        have hg : dcmp (neg, .inf) (getDouble (.int n)) = if neg then -1 else 1 := by simp only [getDouble, e]; rfl
        rw [hg, if_pos (by cases neg <;> decide)]
      · rw [if_neg hf, if_pos trivial]
    | fin m k =>
      obtain ⟨e, he, _⟩ := SR_exact ha neg
      refine ⟨_, cmpFlo_int ha he n, ?_⟩
      rw [key_finite he]
      exact agree_ord e n
  | rat q =>
    cases d with
    | inf =>
      refine ⟨if neg then -1 else 1, ?_, agree_inf neg q⟩
      unfold cmpFlo
      simp only
      rw [if_pos trivial]
    | fin m k =>
      obtain ⟨e, he, _⟩ := SR_exact ha neg
      refine ⟨_, cmpFlo_rat ha he hb.2 ?_, ?_⟩
      · intro n hn hf hq hn0 d h1 h2
        refine hcl ⟨n, q, d, rfl, Or.inr ⟨⟨_, _, rfl⟩, ?_⟩, of_fixp hf, hn0, hq, h1, h2⟩
        rw [key_finite he, hn]; rfl
      · rw [key_finite he]
        exact agree_ord e q

/-- C67: the comparison of two real numbers is the order of their exact values, so it is a total order.  Missing: pairs of a negative fixnum (or a
flonum equal to one) and a ratnum that rounds to the same flonum, where the code is wrong (`C67_bug_near`), and ratnums in the subnormal range. -/
theorem C67_order_partial {a b : Rl} (ha : Ok a) (hb : Ok b) (h1 : ¬ Close a b) (h2 : ¬ Close b a) :
    ∃ c, numCmp a b = some c ∧ Agree c (key a) (key b) := by
  have hsym : ∀ {b : Rl} {nb : Bool} {db : Dbl}, Ok b → Ok (.flo nb db) → (∀ s e, b ≠ .flo s e) → ¬ Close (.flo nb db) b →
      ∃ c, (cmpFlo nb db b).map (- ·) = some c ∧ Agree c (key b) (key (.flo nb db)) := fun hb hf hn hc => by
    obtain ⟨c, e, g⟩ := agree_flo hf hb hn hc
    exact ⟨-c, by rw [e]; rfl, agree_neg g⟩
  cases a with
  | int n => cases b with
    | int n' => exact ⟨_, rfl, by rw [cmpInt_ord]; exact agree_ord _ _⟩
    | rat q =>
      refine ⟨_, rfl, ?_⟩
      rw [cmpIntRat_ord hb.2 (fun hf hq hn d g1 g2 => h1 ⟨n, q, d, rfl, Or.inl rfl, of_fixp hf, hn, hq, g1, g2⟩)]
      exact agree_ord _ _
    | flo nb db => exact hsym ha hb (by intros; simp) h2
  | rat p => cases b with
    | int n' =>
      refine ⟨_, rfl, ?_⟩
      rw [cmpIntRat_ord ha.2 (fun hf hq hn d g1 g2 => h2 ⟨n', p, d, rfl, Or.inl rfl, of_fixp hf, hn, hq, g1, g2⟩)]
      exact agree_neg (agree_ord _ _)
    | rat q => exact ⟨_, rfl, by rw [cmpRatRat_ord]; exact agree_ord _ _⟩
    | flo nb db => exact hsym ha hb (by intros; simp) h2
  | flo na da => cases b with
    | int n' => exact agree_flo ha hb (by intros; simp) h1
    | rat q => exact agree_flo ha hb (by intros; simp) h1
    | flo nb db =>
      refine ⟨_, rfl, ?_⟩
      cases da with
      | inf => cases db with
        | inf => cases na <;> cases nb
                 · exact Or.inr (Or.inl ⟨rfl, rfl⟩)
                 · exact Or.inr (Or.inr ⟨WithBot.bot_lt_coe _, rfl⟩)
                 · exact Or.inl ⟨WithBot.bot_lt_coe _, rfl⟩
                 · exact Or.inr (Or.inl ⟨rfl, rfl⟩)
        | fin m k =>
          obtain ⟨e, he, _⟩ := SR_exact hb nb
          rw [key_finite he]
          exact agree_inf na e
      | fin m k => 
        obtain ⟨e, he, _⟩ := SR_exact ha na
        cases db with
        | inf =>
          rw [key_finite he]
          have := agree_neg (agree_inf nb e)
          cases nb <;> exact this
        | fin m' k' =>
          obtain ⟨e', he', _⟩ := SR_exact hb nb
          rw [key_finite he, key_finite he', dcmp_flo ha hb he he']
          exact agree_ord _ _

theorem agree_le {c : Int} {x y : WithBot (WithTop ℚ)} (h : Agree c x y) : c ≤ 0 ↔ x ≤ y := by
  rcases h with ⟨h, e⟩ | ⟨h, e⟩ | ⟨h, e⟩ <;> subst e
  · exact ⟨fun _ => h.le, fun _ => by norm_num⟩
  · exact ⟨fun _ => h.le, fun _ => le_rfl⟩
  · exact ⟨fun g => absurd g (by norm_num), fun g => absurd h (not_lt.2 g)⟩

/-- C67: `<=` is transitive across exact integers, ratios and flonums, with the same exceptions. -/
theorem C67_transitive_partial {a b c : Rl} (ha : Ok a) (hb : Ok b) (hc : Ok c) (h1 : ¬ Close a b) (h2 : ¬ Close b a) (h3 : ¬ Close b c)
    (h4 : ¬ Close c b) (h5 : ¬ Close a c) (h6 : ¬ Close c a) {x y : Int} (hx : numCmp a b = some x) (hy : numCmp b c = some y) (hx0 : x ≤ 0)
    (hy0 : y ≤ 0) : ∃ z, numCmp a c = some z ∧ z ≤ 0 := by
  obtain ⟨x', ex, gx⟩ := C67_order_partial ha hb h1 h2
  obtain ⟨y', ey, gy⟩ := C67_order_partial hb hc h3 h4
  obtain ⟨z, ez, gz⟩ := C67_order_partial ha hc h5 h6
  rw [hx] at ex
  rw [hy] at ey
  cases ex; cases ey
  exact ⟨z, ez, (agree_le gz).2 (le_trans ((agree_le gx).1 hx0) ((agree_le gy).1 hy0))⟩

/-- C67 is false of the code for every pair that was left out: a negative fixnum and a ratnum that rounds to the same flonum compare as "less",
whichever is the lesser. -/
theorem C67_bug_near {n : Int} {q : ℚ} {d : Dbl} (hn : -2 ^ 61 ≤ n) (hn0 : n < 0) (hq : 2 ^ (-1022 : Int) ≤ |q|) (hq0 : q < 0)
    (h1 : Rounds |(n : ℚ)| d) (h2 : Rounds |q| d) : numCmp (.int n) (.rat q) = some (-1) ∧ numCmp (.rat q) (.int n) = some 1 := by
  have := cmpIntRat_bad hq (fixp_of hn hn0) hq0 hn0 h1 h2
  exact ⟨by show some (cmpIntRat n q) = _; rw [this], by show some (-cmpIntRat n q) = _; rw [this]; rfl⟩

/-- For example, `(< -1 (- -1 (expt 2 -60)))` is true; with `-1.0` too. -/
theorem C67_bug_minus_one : numCmp (.int (-1)) (.rat (-1 - 1 / 2 ^ 60)) = some (-1) ∧ numCmp (.flo true (.fin (2 ^ 52) (-52))) (.rat (-1 - 1 / 2 ^ 60)) = some (-1) ∧
    key (.rat (-1 - 1 / 2 ^ 60)) < key (.int (-1)) := by
  refine ⟨by decide +kernel, by decide +kernel, ?_⟩
  show (((-1 - 1 / 2 ^ 60 : ℚ) : WithTop ℚ) : WithBot (WithTop ℚ)) < ((((-1 : Int) : ℚ) : WithTop ℚ) : WithBot (WithTop ℚ))
  refine WithBot.coe_lt_coe.2 (WithTop.coe_lt_coe.2 ?_)
  norm_num

/-- The hypotheses are met: 0.1 equals 1/10, is above `1/10 - 2^-100`, and `2^60 + 1` is above the flonum `2^60`. -/
example : numCmp (.flo false (.fin 7205759403792794 (-56))) (.rat (1 / 10)) = some 0 ∧
    numCmp (.flo false (.fin 7205759403792794 (-56))) (.rat (1 / 10 - 1 / 2 ^ 100)) = some 1 ∧
    numCmp (.int (2 ^ 60 + 1)) (.flo false (.fin (2 ^ 52) 8)) = some 1 ∧ numCmp (.rat (-7 / 3)) (.int (-2)) = some (-1) ∧
    Ok (.rat (1 / 10 - 1 / 2 ^ 100)) ∧ ¬ Close (.flo false (.fin 7205759403792794 (-56))) (.rat (1 / 10 - 1 / 2 ^ 100)) := by
  refine ⟨by decide +kernel, by decide +kernel, by decide +kernel, by decide +kernel, ⟨by decide +kernel, by decide +kernel⟩, ?_⟩
  rintro ⟨n, q, d, e, _, _, _, h, _⟩
  cases e
  norm_num at h

end Gauche.NumCmp

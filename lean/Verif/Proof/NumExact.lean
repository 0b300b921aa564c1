import Verif.Model.NumCmp
import Verif.Props.Rationalize
import Verif.Proof.FlonumRange
import Mathlib.Data.Nat.Prime.Basic
/-
`exact` of a flonum is a rational that rounds to the flonum.
-/
namespace Gauche.Rationalize

/-- Strictly between. -/
def Inside (X Y Z : ℚ) : Prop := (X < Z ∧ Z < Y) ∨ (Y < Z ∧ Z < X)

theorem refineOEnd_inside (x : Int) (O : ℚ) (an : List Int) (hO : 0 ≤ O) (h2 : 2 ≤ |(x : ℚ) - O|) :
    ∃ Z : Int, refineOEnd x (continuedFraction O) an = some (Z :: an) ∧ Inside x O Z := by
  obtain ⟨cO, tO⟩ := cf_unfold O hO
  have fO := Int.floor_le O
  have gO := Int.lt_floor_add_one O
  have hcf : ∀ W : ℚ, continuedFraction W ≠ [] := fun W => (cfLoop_realize W.num W.den (by exact_mod_cast W.den_nz)).1
  have hcases : (x : ℚ) + 2 ≤ O ∨ O ≤ x - 2 := by
    rcases le_abs.1 h2 with h | h
    · right; linarith
    · left; linarith
  rw [cO]
  by_cases dO : O.den = 1
  · have iO := isInt_floor O dO
    rw [if_pos dO]
    simp only [refineOEnd]
    have hc' : x + 2 ≤ ⌊O⌋ ∨ ⌊O⌋ ≤ x - 2 := by
      rw [← iO] at hcases
      rcases hcases with h | h
      · left; exact_mod_cast h
      · right; exact_mod_cast h
    rw [if_neg (by omega)]
    refine ⟨_, rfl, ?_⟩
    unfold Inside
    clear cO tO
    generalize ⌊O⌋ = y at *
    subst iO
    rcases hc' with h | h
    · left
      rw [min_eq_left (by omega)]
      constructor
      · push_cast; linarith
      · exact_mod_cast (by omega : 1 + x < y)
    · right
      rw [min_eq_right (by omega)]
      constructor
      · push_cast; linarith
      · exact_mod_cast (by omega : 1 + y < x)
  · obtain ⟨lO, -⟩ := tO dO
    rw [if_neg dO]
    obtain ⟨y', t, ht⟩ : ∃ y' t, continuedFraction (1 / (O - ⌊O⌋)) = y' :: t := List.exists_cons_of_ne_nil (hcf _)
    rw [ht]
    simp only [refineOEnd, gt_iff_lt]
    rcases hcases with h | h
    · have hy : x + 1 < ⌊O⌋ := by
        have : (x : ℚ) + 2 < ⌊O⌋ + 1 := by linarith
        have : x + 2 < ⌊O⌋ + 1 := by exact_mod_cast this
        omega
      rw [if_pos hy]
      refine ⟨_, rfl, Or.inl ⟨by push_cast; linarith, ?_⟩⟩
      push_cast; linarith
    · have hy : ⌊O⌋ < x - 2 := by
        have : (⌊O⌋ : ℚ) < x - 2 := by linarith
        exact_mod_cast this
      rw [if_neg (by omega), if_neg (by omega), if_neg (by omega), if_neg (by omega)]
      refine ⟨_, rfl, Or.inr ⟨by push_cast; linarith, ?_⟩⟩
      exact_mod_cast (by omega : ⌊O⌋ + 1 < x)

theorem den_step (X : ℚ) (h : (⌊X⌋ : ℚ) < X) : ((1 / (X - ⌊X⌋)).den : ℚ) = X.den * (X - ⌊X⌋) := by
  have hp : 0 < X - ⌊X⌋ := by linarith
  have hp' : 0 < 1 / (X - ⌊X⌋) := by positivity
  obtain ⟨_, h2⟩ := num_den_step ⌊X⌋ (1 / (X - ⌊X⌋)) hp'
  have e : (⌊X⌋ : ℚ) + 1 / (1 / (X - ⌊X⌋)) = X := by rw [one_div_one_div]; ring
  rw [e] at h2
  have h3 : ((1 / (X - ⌊X⌋)).num : ℚ) / (1 / (X - ⌊X⌋)).den = 1 / (X - ⌊X⌋) := Rat.num_div_den _
  have h4 : ((1 / (X - ⌊X⌋)).num : ℚ) = X.den := by
    have : (((X.den : Nat) : Int) : ℚ) = ((1 / (X - ⌊X⌋)).num : ℚ) := by rw [h2]
    rw [← this]; norm_cast
  rw [h4] at h3
  have hd : ((1 / (X - ⌊X⌋)).den : ℚ) ≠ 0 := by exact_mod_cast (1 / (X - ⌊X⌋)).den_nz
  rw [div_eq_div_iff hd hp.ne'] at h3
  linarith

/-- The open case, when the interval is wide in comparison to the denominators of its ends: the answer is strictly inside. -/
theorem refineO_inside (n : Nat) : ∀ (X Y : ℚ) (an : List Int), X.den ≤ n → 0 ≤ X → 0 ≤ Y → 2 ≤ |X - Y| * X.den → 2 ≤ |X - Y| * Y.den →
    ∃ l Z, refineO (continuedFraction X) (continuedFraction Y) an = some (l ++ an) ∧ l ≠ [] ∧ realize l = some Z ∧ Inside X Y Z := by
  induction n with
  | zero => intro X Y an h; have := X.den_pos; omega
  | succ n ih =>
    intro X Y an hn hX hY h2X h2Y
    obtain ⟨cX, tX⟩ := cf_unfold X hX
    obtain ⟨cY, tY⟩ := cf_unfold Y hY
    have fX := Int.floor_le X
    have fY := Int.floor_le Y
    have gX := Int.lt_floor_add_one X
    have gY := Int.lt_floor_add_one Y
    have hcf : ∀ W : ℚ, continuedFraction W ≠ [] := fun W => (cfLoop_realize W.num W.den (by exact_mod_cast W.den_nz)).1
    by_cases dX : X.den = 1
    · have iX := isInt_floor X dX
      have h2 : 2 ≤ |(⌊X⌋ : ℚ) - Y| := by rw [iX]; rw [dX] at h2X; simpa using h2X
      obtain ⟨Z, e, hZ⟩ := refineOEnd_inside ⌊X⌋ Y an hY h2
      refine ⟨[Z], Z, ?_, by simp, rfl, by rw [iX] at hZ; exact hZ⟩
      obtain ⟨y, t, hy⟩ := List.exists_cons_of_ne_nil (hcf Y)
      rw [hy] at e ⊢
      rw [cX, if_pos dX]
      unfold refineO
      rw [if_pos rfl, e]; rfl
    · obtain ⟨lX, dlX⟩ := tX dX
      have hXne : (if X.den = 1 then [] else continuedFraction (1 / (X - ⌊X⌋))) ≠ [] := by rw [if_neg dX]; exact hcf _
      by_cases dY : Y.den = 1
      · have iY := isInt_floor Y dY
        have h2 : 2 ≤ |(⌊Y⌋ : ℚ) - X| := by rw [iY]; rw [dY] at h2Y; rw [abs_sub_comm]; simpa using h2Y
        obtain ⟨Z, e, hZ⟩ := refineOEnd_inside ⌊Y⌋ X an hX h2
        refine ⟨[Z], Z, ?_, by simp, rfl, by rw [iY] at hZ; exact hZ.symm⟩
        rw [cX] at e ⊢
        rw [cY, if_pos dY]
        unfold refineO
        rw [if_neg hXne, if_pos rfl, e]; rfl
      · obtain ⟨lY, dlY⟩ := tY dY
        rw [cX, cY, if_neg dX, if_neg dY]
        simp only [refineO, if_neg (hcf _)]
        by_cases he : ⌊X⌋ = ⌊Y⌋
        · rw [if_pos he]
          have hX' : 0 < X - ⌊X⌋ := by linarith
          have hY' : 0 < Y - ⌊Y⌋ := by linarith
          have eX := den_step X lX
          have eY := den_step Y lY
          have hdiff : |1 / (X - (⌊X⌋ : ℚ)) - 1 / (Y - ⌊Y⌋)| = |X - Y| / ((X - ⌊X⌋) * (Y - ⌊Y⌋)) := by
            rw [div_sub_div _ _ hX'.ne' hY'.ne', abs_div, abs_of_pos (mul_pos hX' hY')]
            congr 1
            rw [abs_sub_comm]
            congr 1
            rw [he]; ring
          have hXd : (0 : ℚ) < X.den := by exact_mod_cast X.den_pos
          have hYd : (0 : ℚ) < Y.den := by exact_mod_cast Y.den_pos
          have habs := abs_nonneg (X - Y)
          obtain ⟨l, Z, h1, h2, h3, h4⟩ := ih (1 / (X - ⌊X⌋)) (1 / (Y - ⌊Y⌋)) (⌊X⌋ :: an) (by omega) (by positivity) (by positivity)
            (by rw [hdiff, eX]
                have : |X - Y| / ((X - ⌊X⌋) * (Y - ⌊Y⌋)) * (X.den * (X - ⌊X⌋)) = |X - Y| * X.den / (Y - ⌊Y⌋) := by field_simp
                rw [this, le_div_iff₀ hY']
                nlinarith)
            (by rw [hdiff, eY]
                have : |X - Y| / ((X - ⌊X⌋) * (Y - ⌊Y⌋)) * (Y.den * (Y - ⌊Y⌋)) = |X - Y| * Y.den / (X - ⌊X⌋) := by field_simp
                rw [this, le_div_iff₀ hX']
                nlinarith)
          have hXi : 0 < 1 / (X - (⌊X⌋ : ℚ)) := by positivity
          have hYi : 0 < 1 / (Y - (⌊Y⌋ : ℚ)) := by positivity
          have hZ : 0 < Z := by rcases h4 with ⟨a, _⟩ | ⟨a, _⟩ <;> linarith
          refine ⟨l ++ [⌊X⌋], ⌊X⌋ + 1 / Z, by rw [h1]; simp, by simp, ?_, ?_⟩
          · rw [realize_snoc _ h2, h3]; simp [hZ.ne']
          · have k1 : ∀ {W : ℚ}, 0 < W → (1 / W < Z → 1 / Z < W) ∧ (Z < 1 / W → W < 1 / Z) := by
              intro W hW
              constructor
              · intro h; rw [div_lt_iff₀ hW] at h; rw [div_lt_iff₀ hZ]; linarith
              · intro h; rw [lt_div_iff₀ hW] at h; rw [lt_div_iff₀ hZ]; linarith
            rcases h4 with ⟨a, b⟩ | ⟨a, b⟩
            · right
              have := (k1 hX').1 a
              have := (k1 hY').2 b
              rw [he] at *
              constructor <;> linarith
            · left
              have := (k1 hY').1 a
              have := (k1 hX').2 b
              rw [he] at *
              constructor <;> linarith
        · rw [if_neg he]
          refine ⟨[1 + min ⌊X⌋ ⌊Y⌋], _, rfl, by simp, rfl, ?_⟩
          rcases lt_or_gt_of_ne he with h | h
          · have h' : (⌊X⌋ : ℚ) + 1 ≤ ⌊Y⌋ := by exact_mod_cast h
            rw [min_eq_left h.le]
            left; push_cast; constructor <;> linarith
          · have h' : (⌊Y⌋ : ℚ) + 1 ≤ ⌊X⌋ := by exact_mod_cast h
            rw [min_eq_right h.le]
            right; push_cast; constructor <;> linarith

end Gauche.Rationalize

namespace Gauche.NumCmp
open Gauche.Spec Gauche.Flonum Gauche.Rationalize

theorem odd_den (N n : Nat) (h : N % 2 = 1) : ((N : ℚ) / 2 ^ n).den = 2 ^ n := by
  have h1 : Nat.Coprime N (2 ^ n) := Nat.Coprime.pow_right _ (by
    rw [Nat.coprime_two_right]; exact Nat.odd_iff.2 h)
  have := Rat.den_div_eq_of_coprime (a := (N : Int)) (b := ((2 ^ n : Nat) : Int)) (by positivity) (by simpa using h1)
  have e : (((N : Int) : ℚ) / (((2 ^ n : Nat) : Int) : ℚ)) = (N : ℚ) / 2 ^ n := by push_cast; rfl
  rw [e] at this
  exact_mod_cast this

theorem flonumToRational_spec {m : Nat} {k : Int} (hc : FinDbl m k) (hm : 0 < m) (hk : k < 0) : ∃ q, flonumToRational m k = some q ∧ RU q m k := by
  unfold flonumToRational
  have hp := two_pos k
  have h1 : (2 : ℚ) ^ (k - 1) = 2 ^ k / 2 := by rw [zpow_sub₀ (by norm_num)]; norm_num
  have h2 : (2 : ℚ) ^ (k - 2) = 2 ^ k / 4 := by rw [zpow_sub₀ (by norm_num)]; norm_num
  have hge := pow_le_dval k hm
  have hcu := canonU_of hc
  by_cases ho : m % 2 = 1
  · rw [decide_eq_true ho, if_neg (by omega)]
    unfold findRational1
    rw [h1]
    simp only []
    rw [if_neg (by linarith), if_neg (by linarith)]
    obtain ⟨n, hn⟩ : ∃ n : Nat, k = -(n : Int) := ⟨(-k).toNat, by omega⟩
    have hpn : (2 : ℚ) ^ k = 2 / 2 ^ (n + 1) := by rw [hn, zpow_neg, zpow_natCast, pow_succ]; field_simp
    have eU : dval m k + 2 ^ k / 2 = ((2 * m + 1 : Nat) : ℚ) / 2 ^ (n + 1) := by unfold dval; rw [hpn]; push_cast; ring
    have eL : dval m k - 2 ^ k / 2 = ((2 * m - 1 : Nat) : ℚ) / 2 ^ (n + 1) := by
      unfold dval; rw [hpn, Nat.cast_sub (by omega)]; push_cast; ring
    have dU : (dval m k + 2 ^ k / 2).den = 2 ^ (n + 1) := by rw [eU]; exact odd_den _ _ (by omega)
    have dL : (dval m k - 2 ^ k / 2).den = 2 ^ (n + 1) := by rw [eL]; exact odd_den _ _ (by omega)
    have hw : |dval m k + 2 ^ k / 2 - (dval m k - 2 ^ k / 2)| * ((2 ^ (n + 1) : Nat) : ℚ) = 2 := by
      have : dval m k + 2 ^ k / 2 - (dval m k - 2 ^ k / 2) = 2 ^ k := by ring
      rw [this, abs_of_pos hp, hpn]
      push_cast
      field_simp
    obtain ⟨l, Z, e1, _, e3, e4⟩ := refineO_inside _ (dval m k + 2 ^ k / 2) (dval m k - 2 ^ k / 2) [] le_rfl (by linarith) (by linarith)
      (by rw [dU, hw]) (by rw [dL, hw])
    simp only [if_true]
    rw [e1, List.append_nil]
    refine ⟨Z, e3, ?_⟩
    have hlow : low m k = 2 ^ k := by unfold low; rw [if_neg (fun h => by omega)]
    rcases e4 with ⟨a, b⟩ | ⟨a, b⟩
    · linarith
    · exact ⟨hcu, Or.inl b, Or.inl (by rw [hlow]; exact a)⟩
  · rw [decide_eq_false ho]
    have hev : m % 2 = 0 := by omega
    have hbd : 0 ≤ dval m k - (if m = 2 ^ 52 then 2 ^ (k - 2) else 2 ^ (k - 1)) ∧
        (if m = 2 ^ 52 then (2 : ℚ) ^ (k - 2) else 2 ^ (k - 1)) ≤ low m k / 2 ∧ 0 < (if m = 2 ^ 52 then (2 : ℚ) ^ (k - 2) else 2 ^ (k - 1)) := by
      unfold low
      by_cases h : m = 2 ^ 52
      · rw [if_pos h, h2]
        by_cases h' : -1074 < k
        · rw [if_pos ⟨h, h'⟩]
          refine ⟨by linarith, by linarith, by linarith⟩
        · rw [if_neg (fun g => h' g.2)]
          refine ⟨by linarith, by linarith, by linarith⟩
      · rw [if_neg h, if_neg (fun g => h g.1), h1]
        refine ⟨by linarith, by linarith, by linarith⟩
    obtain ⟨b1, b2, b3⟩ := hbd
    obtain ⟨q, e, ⟨q1, q2⟩, _⟩ := findRational1_closed (dval m k) (2 ^ (k - 1)) (if m = 2 ^ 52 then 2 ^ (k - 2) else 2 ^ (k - 1))
      (dval_nonneg _ _) (by positivity) b3.le
    refine ⟨q, e, hcu, ?_, ?_⟩
    · rw [h1] at q2
      rcases lt_or_eq_of_le q2 with g | g
      · exact Or.inl g
      · exact Or.inr ⟨g, hev⟩
    · have : dval m k - low m k / 2 ≤ q := by
        generalize (if m = 2 ^ 52 then (2 : ℚ) ^ (k - 2) else 2 ^ (k - 1)) = D at *
        linarith
      rcases lt_or_eq_of_le this with g | g
      · exact Or.inl g
      · exact Or.inr ⟨g.symm, hev⟩

/-- The exact number that a finite flonum is taken for rounds to the flonum. -/
theorem exact_spec {m : Nat} {k : Int} (hc : FinDbl m k) : ∃ q, (∀ neg, exact neg (.fin m k) = some (if neg then -q else q)) ∧ RU q m k := by
  unfold exact
  by_cases hd : (dval m k).den = 1
  · exact ⟨dval m k, fun neg => by simp only [hd, if_true]; rfl, RU_self (canonU_of hc)⟩
  · have hm : 0 < m := by
      rcases Nat.eq_zero_or_pos m with h | h
      · exfalso; apply hd; subst h; unfold dval; simp
      · exact h
    have hk : k < 0 := by
      refine Classical.byContradiction fun h => ?_
      apply hd
      obtain ⟨n, rfl⟩ : ∃ n : Nat, k = n := ⟨k.toNat, by omega⟩
      have : dval m n = ((m * 2 ^ n : Nat) : ℚ) := by unfold dval; push_cast; rw [zpow_natCast]
      rw [this]
      exact Rat.den_natCast _
    obtain ⟨q, e, h⟩ := flonumToRational_spec hc hm hk
    exact ⟨q, fun neg => by simp only [hd, if_false, e]; rfl, h⟩

end Gauche.NumCmp

import Verif.Model.Rationalize
import Verif.Spec.Simplest
import Mathlib.Tactic.Linarith
import Mathlib.Tactic.FieldSimp
import Mathlib.Tactic.Ring
import Mathlib.Tactic.Push
import Mathlib.Tactic.NormNum
import Mathlib.Tactic.LinearCombination
/-
Lemmas for continued fractions and simplest rationals.
-/
namespace Gauche.Rationalize
open Gauche.Spec

theorem realizeLoop_snoc (r : ℚ) (as : List Int) (a : Int) :
    realizeLoop r (as ++ [a]) = match realizeLoop r as with
      | none => none
      | some v => if v = 0 then none else some (a + 1 / v) := by
  induction as generalizing r with
  | nil => simp [realizeLoop]
  | cons b as ih =>
    rw [List.cons_append, realizeLoop, realizeLoop]
    by_cases h : r = 0
    · simp [h]
    · rw [if_neg h, if_neg h, ih]

theorem realize_snoc (l : List Int) (hl : l ≠ []) (a : Int) :
    realize (l ++ [a]) = match realize l with
      | none => none
      | some v => if v = 0 then none else some (a + 1 / v) := by
  cases l with
  | nil => exact absurd rfl hl
  | cons r as => exact realizeLoop_snoc r as a

/-- The continued fraction of any fraction realizes to that fraction. -/
theorem cfLoop_realize (a b : Int) (hb : b ≠ 0) : cfLoop a b ≠ [] ∧ realize (cfLoop a b).reverse = some ((a : ℚ) / b) := by
  fun_induction cfLoop a b with
  | case1 => exact absurd rfl hb
  | case2 a b h ih =>
    refine ⟨by simp, ?_⟩
    have hbq : (b : ℚ) ≠ 0 := by exact_mod_cast hb
    have e := Int.tmod_add_mul_tdiv a b
    have eq : (a : ℚ) = a.tmod b + b * a.tdiv b := by exact_mod_cast e.symm
    rw [List.reverse_cons]
    by_cases h0 : a.tmod b = 0
    · rw [h0]
      have : cfLoop b 0 = [] := by unfold cfLoop; simp
      rw [this]
      simp only [List.reverse_nil, List.nil_append, realize, realizeLoop]
      congr 1
      rw [eq_div_iff hbq, eq, h0]; push_cast; ring
    · obtain ⟨h1, h2⟩ := ih h0
      rw [realize_snoc _ (by simpa using h1), h2]
      have hm : (a.tmod b : ℚ) ≠ 0 := by exact_mod_cast h0
      dsimp only
      rw [if_neg (div_ne_zero hbq hm)]
      congr 1
      rw [eq_div_iff hbq, one_div, inv_div, add_mul, div_mul_cancel₀ _ hbq]
      linarith

/-- A continued fraction starts with the floor. -/
theorem cf_unfold (X : ℚ) (hX : 0 ≤ X) :
    continuedFraction X = ⌊X⌋ :: (if X.den = 1 then [] else continuedFraction (1 / (X - ⌊X⌋))) ∧
      (X.den ≠ 1 → (⌊X⌋ : ℚ) < X ∧ (1 / (X - ⌊X⌋)).den < X.den) := by
  have hd : (X.den : Int) ≠ 0 := by exact_mod_cast X.den_nz
  have hdp : (0 : Int) < X.den := by exact_mod_cast X.den_pos
  have hn : 0 ≤ X.num := Rat.num_nonneg.mpr hX
  have ht : X.num.tdiv X.den = ⌊X⌋ := by
    rw [Int.tdiv_eq_ediv_of_nonneg hn, Rat.floor_def']
  have hm : X.num.tmod X.den = X.num % X.den := Int.tmod_eq_emod_of_nonneg hn
  have hmod := Int.emod_add_mul_ediv X.num X.den
  have hXq : X = X.num / X.den := (Rat.num_div_den X).symm
  have hdq : (X.den : ℚ) ≠ 0 := by exact_mod_cast X.den_nz
  have hfl : X.num / X.den = ⌊X⌋ := by rw [Rat.floor_def']
  have hfrac : X - ⌊X⌋ = ((X.num % X.den : Int) : ℚ) / X.den := by
    have : ((X.num % X.den : Int) : ℚ) = X.num - X.den * ⌊X⌋ := by
      rw [← hfl]
      have : (X.num % X.den : Int) = X.num - X.den * (X.num / X.den) := by omega
      exact_mod_cast this
    rw [this, eq_div_iff hdq]
    have hmul : X * X.den = X.num := Rat.mul_den_eq_num X
    rw [sub_mul, hmul]; ring
  have key : X.den ≠ 1 → (0 : Int) < X.num % X.den ∧ (1 / (X - ⌊X⌋)).num = X.den ∧ ((1 / (X - ⌊X⌋)).den : Int) = X.num % X.den := by
    intro h1
    have hpos : (0 : Int) < X.num % X.den := by
      rcases lt_or_eq_of_le (Int.emod_nonneg X.num hd) with h | h
      · exact h
      · exfalso
        have hdv : (X.den : Int) ∣ X.num := Int.dvd_of_emod_eq_zero h.symm
        have hc := X.reduced
        have : X.den ∣ X.num.natAbs := by exact_mod_cast Int.natAbs_dvd_natAbs.mpr hdv
        exact h1 (Nat.Coprime.eq_one_of_dvd (Nat.Coprime.symm hc) this)
    have hcop : Nat.Coprime (X.den : Int).natAbs (X.num % X.den).natAbs := by
      have hc : Int.gcd (X.den : Int) X.num = 1 := by
        rw [Int.gcd_comm]; exact X.reduced
      have := Int.gcd_emod X.num (X.den : Int)
      rw [Int.gcd_comm] at this
      rw [Int.gcd_comm] at hc
      have : Int.gcd (X.den : Int) (X.num % X.den) = 1 := by rw [this, hc]
      exact this
    have e : (1 : ℚ) / (X - ⌊X⌋) = ((X.den : Int) : ℚ) / ((X.num % X.den : Int) : ℚ) := by
      rw [hfrac, one_div, inv_div]; push_cast; rfl
    refine ⟨hpos, ?_, ?_⟩
    · rw [e]; exact Rat.num_div_eq_of_coprime hpos hcop
    · rw [e]; exact Rat.den_div_eq_of_coprime hpos hcop
  constructor
  · unfold continuedFraction
    conv_lhs => unfold cfLoop
    rw [dif_neg hd, ht]
    congr 1
    by_cases h1 : X.den = 1
    · rw [if_pos h1, hm, h1]; simp; unfold cfLoop; simp
    · rw [if_neg h1]
      obtain ⟨-, k1, k2⟩ := key h1
      rw [k1, k2, hm]
  · intro h1
    obtain ⟨k0, k1, k2⟩ := key h1
    constructor
    · have : 0 < X - ⌊X⌋ := by
        rw [hfrac]; apply div_pos
        · exact_mod_cast k0
        · exact_mod_cast hdp
      linarith
    · have := Int.emod_lt_of_pos X.num hdp
      omega

/-- An integer just above the lower end is the simplest number. -/
theorem simplest_int (lo hi : ℚ) (Z : Int) (hZ : 0 ≤ Z) (h1 : lo ≤ Z) (h2 : (Z : ℚ) ≤ hi) (h3 : (Z : ℚ) - 1 < lo) (hlo : 0 ≤ lo) :
    SimplestIn lo hi Z := by
  refine ⟨⟨h1, h2⟩, fun p hp _ => ⟨?_, ?_⟩⟩
  · rw [Rat.num_intCast, abs_of_nonneg hZ, abs_of_nonneg (Rat.num_nonneg.mpr (by linarith))]
    have hd : (1 : ℚ) ≤ p.den := by exact_mod_cast p.den_pos
    have hpn : (p.num : ℚ) = p * p.den := by
      exact (Rat.mul_den_eq_num p).symm
    have : (Z : ℚ) - 1 < p.num := by
      rw [hpn]; nlinarith
    have : Z - 1 < p.num := by exact_mod_cast this
    omega
  · rw [Rat.den_intCast]; exact p.den_pos

/-- Numerator and denominator of `x + 1/p`. -/
theorem num_den_step (x : Int) (p : ℚ) (hp : 0 < p) :
    ((x : ℚ) + 1 / p).num = x * p.num + p.den ∧ (((x : ℚ) + 1 / p).den : Int) = p.num := by
  have hn : 0 < p.num := Rat.num_pos.mpr hp
  have hnq : (p.num : ℚ) ≠ 0 := by exact_mod_cast hn.ne'
  have hdq : (p.den : ℚ) ≠ 0 := by exact_mod_cast p.den_nz
  have e : (x : ℚ) + 1 / p = ((x * p.num + p.den : Int) : ℚ) / (p.num : ℚ) := by
    conv_lhs => rw [← Rat.num_div_den p]
    push_cast
    rw [one_div, inv_div]; field_simp
  have hc : Nat.Coprime (x * p.num + p.den).natAbs p.num.natAbs := by
    have h : Int.gcd (x * p.num + p.den) p.num = 1 := by
      have := p.reduced
      have h2 : Int.gcd (p.den : Int) p.num = 1 := by rw [Int.gcd_comm]; exact this
      rw [← Int.gcd_emod, Int.mul_comm, Int.mul_add_emod_self_left, Int.gcd_emod]; exact h2
    exact h
  rw [e]
  exact ⟨Rat.num_div_eq_of_coprime hn hc, Rat.den_div_eq_of_coprime hn hc⟩

theorem simplest_step (x : Int) (hx : 0 ≤ x) (lo hi lo' hi' q : ℚ) (hlo : (0 : ℚ) < lo') (h1 : lo = x + 1 / hi') (h2 : hi = x + 1 / lo')
    (hq : SimplestIn lo' hi' q) : SimplestIn lo hi (x + 1 / q) := by
  obtain ⟨⟨q1, q2⟩, hs⟩ := hq
  have hq0 : 0 < q := by linarith
  have hhi : 0 < hi' := by linarith
  refine ⟨⟨?_, ?_⟩, ?_⟩
  · rw [h1]; have := one_div_le_one_div_of_le hq0 q2; linarith
  · rw [h2]; have := one_div_le_one_div_of_le hlo q1; linarith
  · intro p hp1 hp2
    have hpx : 0 < p - x := by
      have : 0 < 1 / hi' := by positivity
      linarith
    set p' := 1 / (p - x) with hp'
    have hp0 : 0 < p' := by positivity
    have hpe : p = x + 1 / p' := by rw [hp']; simp
    have a1 : lo' ≤ p' := by
      rw [hp', le_one_div hlo hpx]; linarith
    have a2 : p' ≤ hi' := by
      rw [hp', one_div_le hpx hhi]; linarith
    obtain ⟨s1, s2⟩ := hs p' a1 a2
    obtain ⟨n1, d1⟩ := num_den_step x q hq0
    obtain ⟨n2, d2⟩ := num_den_step x p' hp0
    have hqn : 0 < q.num := Rat.num_pos.mpr hq0
    have hpn : 0 < p'.num := Rat.num_pos.mpr hp0
    rw [abs_of_pos hqn, abs_of_pos hpn] at s1
    have s2' : (q.den : Int) ≤ p'.den := by exact_mod_cast s2
    rw [hpe]
    refine ⟨?_, ?_⟩
    · rw [n1, n2, abs_of_nonneg (by positivity), abs_of_nonneg (by positivity)]
      nlinarith
    · have : (((x : ℚ) + 1 / q).den : Int) ≤ ((x : ℚ) + 1 / p').den := by rw [d1, d2]; exact s1
      exact_mod_cast this

theorem isInt_floor (X : ℚ) (h : X.den = 1) : (⌊X⌋ : ℚ) = X := by
  have : (X.num : ℚ) = X := by rw [← Rat.den_eq_one_iff]; exact h
  rw [← this]; simp

/-- The closed case: the reversed continued fraction that `refine/c` answers realizes to the simplest rational. -/
theorem refineC_spec (n : Nat) : ∀ (X Y : ℚ) (an : List Int), X.den ≤ n → 0 ≤ X → 0 ≤ Y → X ≠ Y →
    ∃ l Z, refineC (continuedFraction X) (continuedFraction Y) an = some (l ++ an) ∧ l ≠ [] ∧ realize l = some Z ∧
      SimplestIn (min X Y) (max X Y) Z := by
  induction n with
  | zero => intro X Y an h; have := X.den_pos; omega
  | succ n ih =>
    intro X Y an hn hX hY hne
    obtain ⟨cX, tX⟩ := cf_unfold X hX
    obtain ⟨cY, tY⟩ := cf_unfold Y hY
    have fx0 : 0 ≤ ⌊X⌋ := Int.floor_nonneg.mpr hX
    have fy0 : 0 ≤ ⌊Y⌋ := Int.floor_nonneg.mpr hY
    have fX := Int.floor_le X
    have fY := Int.floor_le Y
    have gX := Int.lt_floor_add_one X
    have gY := Int.lt_floor_add_one Y
    have hcf : ∀ W : ℚ, continuedFraction W ≠ [] := fun W => (cfLoop_realize W.num W.den (by exact_mod_cast W.den_nz)).1
    have ret : ∀ Z : Int, SimplestIn (min X Y) (max X Y) Z → ∃ l Z', some (Z :: an) = some (l ++ an) ∧ l ≠ [] ∧ realize l = some Z' ∧
        SimplestIn (min X Y) (max X Y) Z' := fun Z hZ => ⟨[Z], Z, rfl, by simp, rfl, hZ⟩
    have hmin : 0 ≤ min X Y := le_min hX hY
    rw [cX, cY]
    by_cases dX : X.den = 1
    · have iX := isInt_floor X dX
      rw [if_pos dX]
      by_cases dY : Y.den = 1
      · have iY := isInt_floor Y dY
        rw [if_pos dY]
        simp only [refineC, if_true]
        apply ret
        have : ((min ⌊X⌋ ⌊Y⌋ : Int) : ℚ) = min X Y := by push_cast; rw [iX, iY]
        apply simplest_int _ _ _ (le_min fx0 fy0) (by rw [this]) (by rw [this]; exact min_le_max) (by rw [this]; linarith) hmin
      · rw [if_neg dY]
        simp only [refineC, if_true, if_neg (hcf _)]
        apply ret
        obtain ⟨lY, -⟩ := tY dY
        rcases lt_or_gt_of_ne hne with h | h
        · have hxy : ⌊X⌋ < 1 + ⌊Y⌋ := by
            have : (⌊X⌋ : ℚ) < 1 + ⌊Y⌋ := by linarith
            exact_mod_cast this
          rw [min_eq_left hxy.le, min_eq_left h.le, max_eq_right h.le]
          apply simplest_int <;> first | assumption | linarith
        · have hxy : 1 + ⌊Y⌋ ≤ ⌊X⌋ := by
            have : (⌊Y⌋ : ℚ) < ⌊X⌋ := by linarith
            have : ⌊Y⌋ < ⌊X⌋ := by exact_mod_cast this
            omega
          have hxy' : (1 : ℚ) + ⌊Y⌋ ≤ ⌊X⌋ := by exact_mod_cast hxy
          rw [min_eq_right hxy, min_eq_right h.le, max_eq_left h.le]
          apply simplest_int <;> first | assumption | omega | (push_cast; linarith)
    · obtain ⟨lX, dlX⟩ := tX dX
      rw [if_neg dX]
      by_cases dY : Y.den = 1
      · have iY := isInt_floor Y dY
        rw [if_pos dY]
        simp only [refineC, if_true, if_neg (hcf _)]
        apply ret
        rcases lt_or_gt_of_ne hne with h | h
        · have hxy : ⌊X⌋ + 1 ≤ ⌊Y⌋ := by
            have : (⌊X⌋ : ℚ) < ⌊Y⌋ := by linarith
            have : ⌊X⌋ < ⌊Y⌋ := by exact_mod_cast this
            omega
          have hxy' : (⌊X⌋ : ℚ) + 1 ≤ ⌊Y⌋ := by exact_mod_cast hxy
          rw [min_eq_right hxy, min_eq_left h.le, max_eq_right h.le]
          apply simplest_int <;> first | assumption | omega | (push_cast; linarith)
        · have hxy : ⌊Y⌋ < ⌊X⌋ + 1 := by
            have : (⌊Y⌋ : ℚ) < ⌊X⌋ + 1 := by linarith
            exact_mod_cast this
          rw [min_eq_left hxy.le, min_eq_right h.le, max_eq_left h.le]
          apply simplest_int <;> first | assumption | linarith
      · obtain ⟨lY, dlY⟩ := tY dY
        rw [if_neg dY]
        simp only [refineC, if_neg (hcf _)]
        by_cases he : ⌊X⌋ = ⌊Y⌋
        · rw [if_pos he]
          have hX' : 0 < X - ⌊X⌋ := by linarith
          have hY' : 0 < Y - ⌊Y⌋ := by linarith
          obtain ⟨l, Z, h1, h2, h3, h4⟩ := ih (1 / (X - ⌊X⌋)) (1 / (Y - ⌊Y⌋)) (⌊X⌋ :: an) (by omega) (by positivity) (by positivity) (by
            intro h
            rw [one_div, one_div, inv_inj, he] at h
            exact hne (by linarith))
          have hlo : 0 < min (1 / (X - (⌊X⌋ : ℚ))) (1 / (Y - (⌊Y⌋ : ℚ))) := lt_min (by positivity) (by positivity)
          have hZ : 0 < Z := lt_of_lt_of_le hlo h4.1.1
          refine ⟨l ++ [⌊X⌋], ⌊X⌋ + 1 / Z, by rw [h1]; simp, by simp, ?_, ?_⟩
          · rw [realize_snoc _ h2, h3]; simp [hZ.ne']
          · apply simplest_step ⌊X⌋ fx0 _ _ _ _ Z hlo _ _ h4
            all_goals
              rcases lt_or_gt_of_ne hne with h | h
              · have : 1 / (Y - (⌊Y⌋ : ℚ)) ≤ 1 / (X - ⌊X⌋) := by
                  apply one_div_le_one_div_of_le hX'; rw [← he]; linarith
                first
                | rw [min_eq_left h.le, max_eq_left this]; simp
                | rw [max_eq_right h.le, min_eq_right this]; rw [he]; simp
              · have : 1 / (X - (⌊X⌋ : ℚ)) ≤ 1 / (Y - ⌊Y⌋) := by
                  apply one_div_le_one_div_of_le hY'; rw [← he]; linarith
                first
                | rw [min_eq_right h.le, max_eq_right this]; rw [he]; simp
                | rw [max_eq_left h.le, min_eq_left this]; simp
        · rw [if_neg he]
          apply ret
          rcases lt_or_gt_of_ne he with h | h
          · have h' : (⌊X⌋ : ℚ) + 1 ≤ ⌊Y⌋ := by exact_mod_cast h
            have hxy : X < Y := by linarith
            rw [min_eq_left h.le, min_eq_left hxy.le, max_eq_right hxy.le]
            apply simplest_int <;> first | assumption | omega | (push_cast; linarith)
          · have h' : (⌊Y⌋ : ℚ) + 1 ≤ ⌊X⌋ := by exact_mod_cast h
            have hxy : Y < X := by linarith
            rw [min_eq_right h.le, min_eq_right hxy.le, max_eq_left hxy.le]
            apply simplest_int <;> first | assumption | omega | (push_cast; linarith)

end Gauche.Rationalize

import Verif.Proof.FloPrint
import Mathlib.Tactic.LinearCombination
/-
The number printed by `print_double` rounds to the double.
-/
namespace Gauche.FloText
open Gauche.Spec Gauche.Flonum Gauche.Radix

theorem two_zpow_nat {e : Int} (h : 0 ≤ e) : ((2 ^ e.toNat : Nat) : ℚ) = 2 ^ e := by
  push_cast
  exact toNat_zpow _ h

/-- What `initPrint` computes. -/
theorem initPrint_spec {f : Nat} (hf : 0 < f) (hf' : f < 2 ^ 53) (exp : Int) :
    let p := initPrint f exp
    0 < p.2.1 ∧ 0 < p.2.2.1 ∧ (p.1 : ℚ) = dval f exp * p.2.1 ∧ (plusOf p.2.2.2 p.2.2.1 : ℚ) = 2 ^ exp / 2 * p.2.1 ∧
      (¬ (f = 2 ^ 52 ∧ exp = -1023) → (p.2.2.1 : ℚ) ≤ low f exp / 2 * p.2.1) ∧
      p.1 ≤ 2 ^ 54 * p.2.2.1 ∧ 2 * plusOf p.2.2.2 p.2.2.1 ≤ p.1 ∧ plusOf p.2.2.2 p.2.2.1 ≤ 2 * p.2.2.1 := by
  have hlow : f ≠ 2 ^ 52 → low f exp = 2 ^ exp := fun h => by unfold low; rw [if_neg (fun hh => h hh.1)]
  have hlow2 : (2 : ℚ) ^ exp / 2 ≤ low f exp := by
    have := two_pos exp
    unfold low; split <;> linarith
  have h2 := two_pos exp
  unfold initPrint
  by_cases h0 : 0 ≤ exp
  · rw [if_pos h0]
    have e0 := two_zpow_nat h0
    have e1 : 2 ^ (exp + 1).toNat = 2 ^ exp.toNat * 2 := by
      rw [show (exp + 1).toNat = exp.toNat + 1 by omega, pow_succ]
    have e2 : 2 ^ (exp + 2).toNat = 2 ^ exp.toNat * 4 := by
      rw [show (exp + 2).toNat = exp.toNat + 2 by omega, pow_add]; norm_num
    rw [e1, e2]
    have hB : 0 < 2 ^ exp.toNat := by positivity
    generalize 2 ^ exp.toNat = B at *
    by_cases hne : f ≠ 2 ^ 52
    · rw [if_pos hne]
      simp only [plusOf, Bool.false_eq_true, if_false]
      refine ⟨by omega, hB, ?_, ?_, fun _ => ?_, ?_, ?_, by omega⟩
      · unfold dval; rw [← e0]; push_cast; ring
      · rw [← e0]; push_cast; ring
      · rw [hlow hne, ← e0]; push_cast; linarith
      · nlinarith
      · nlinarith
    · rw [if_neg hne]
      have hfe : f = 2 ^ 52 := by simpa using hne
      simp only [plusOf, if_true]
      refine ⟨by omega, hB, ?_, ?_, fun _ => ?_, ?_, ?_, by omega⟩
      · unfold dval; rw [← e0]; push_cast; ring
      · rw [← e0]; push_cast; ring
      · rw [e0]; push_cast; linarith
      · rw [hfe]; omega
      · rw [hfe]; omega
  · rw [if_neg h0]
    have e0 := two_zpow_nat (e := -exp) (by omega)
    have e1 : 2 ^ (-exp + 1).toNat = 2 ^ (-exp).toNat * 2 := by
      rw [show (-exp + 1).toNat = (-exp).toNat + 1 by omega, pow_succ]
    have e2 : 2 ^ (-exp + 2).toNat = 2 ^ (-exp).toNat * 4 := by
      rw [show (-exp + 2).toNat = (-exp).toNat + 2 by omega, pow_add]; norm_num
    have hinv : (2 : ℚ) ^ exp * 2 ^ (-exp) = 1 := by rw [← zpow_add₀ (by norm_num)]; simp
    rw [← e0] at hinv
    rw [e1, e2]
    have hB : 0 < 2 ^ (-exp).toNat := by positivity
    generalize 2 ^ (-exp).toNat = B at *
    generalize hX : (2 : ℚ) ^ exp = X at *
    by_cases hne : exp = -1023 ∨ f ≠ 2 ^ 52
    · rw [if_pos hne]
      simp only [plusOf, Bool.false_eq_true, if_false]
      refine ⟨by omega, by omega, ?_, ?_, fun h => ?_, by omega, by omega, by omega⟩
      · unfold dval; rw [hX]; push_cast; linear_combination (-2 * (f : ℚ)) * hinv
      · push_cast; linear_combination - hinv
      · rw [hlow (by tauto)]; push_cast; linarith
    · rw [if_neg hne]
      have hfe : f = 2 ^ 52 := by tauto
      simp only [plusOf, if_true]
      refine ⟨by omega, by omega, ?_, ?_, fun h => ?_, ?_, ?_, by omega⟩
      · unfold dval; rw [hX]; push_cast; linear_combination (-4 * (f : ℚ)) * hinv
      · push_cast; linear_combination -2 * hinv
      · push_cast; 
        have hBq : (0 : ℚ) < B := by exact_mod_cast hB
        nlinarith
      · rw [hfe]; omega
      · rw [hfe]; omega

/-- What the scaling does. -/
theorem scalePrint_spec (est : Int) (p : Nat × Nat × Nat × Bool) : ∃ A B : Nat, 0 < A ∧ 0 < B ∧ (B : ℚ) = 10 ^ est * A ∧
    scalePrint est p = (p.1 * A, p.2.1 * B, p.2.2.1 * A, p.2.2.2) := by
  unfold scalePrint
  by_cases h : 0 ≤ est
  · refine ⟨1, 10 ^ est.toNat, by omega, by positivity, ?_, by rw [if_pos h]; simp⟩
    push_cast
    rw [toNat_zpow _ h]; ring
  · refine ⟨10 ^ (-est).toNat, 1, by positivity, by omega, ?_, by rw [if_neg h]; simp⟩
    push_cast
    rw [toNat_zpow _ (by omega), ← zpow_add₀ (by norm_num)]
    simp

/-- The estimate of the decimal exponent is good enough. -/
def GoodEst (est : Int) (m : Nat) (k : Int) : Prop := 10 ^ (est - 1) ≤ dval m k ∧ dval m k ≤ 2 * 10 ^ est

/-- The state when the digit loop starts, and the exponent. -/
def startDigits (est0 : Int) (f : Nat) (exp : Int) : Nat × Nat × Nat × Bool × Int :=
  let round := decide (f % 2 = 0)
  let p := scalePrint est0 (initPrint f exp)
  let fix := needFixup round p
  (p.1, if fix then p.2.1 * 10 else p.2.1, p.2.2.1, p.2.2.2, if fix then est0 + 1 else est0)

theorem startDigits_spec {m : Nat} {k est0 : Int} (hc : FinDbl m k) (hm : 0 < m) (he : GoodEst est0 m k) :
    let p := startDigits est0 m k
    let round := decide (m % 2 = 0)
    0 < p.2.1 ∧ p.1 < p.2.1 ∧ (if round then p.1 + plusOf p.2.2.2.1 p.2.2.1 < p.2.1 else p.1 + plusOf p.2.2.2.1 p.2.2.1 ≤ p.2.1) ∧
      p.2.1 < 2 * (p.2.2.1 * 10 ^ (16 + 1)) ∧
      (p.1 : ℚ) * 10 ^ p.2.2.2.2 = dval m k * p.2.1 ∧
      (plusOf p.2.2.2.1 p.2.2.1 : ℚ) * 10 ^ p.2.2.2.2 = 2 ^ k / 2 * p.2.1 ∧
      (¬ (m = 2 ^ 52 ∧ k = -1023) → (p.2.2.1 : ℚ) * 10 ^ p.2.2.2.2 ≤ low m k / 2 * p.2.1) := by
  obtain ⟨i1, i2, i3, i4, i5, i6, i7, i8⟩ := initPrint_spec hm hc.1 k
  obtain ⟨A, B, hA, hB, hAB, hsc⟩ := scalePrint_spec est0 (initPrint m k)
  unfold startDigits
  rw [hsc]
  generalize initPrint m k = p at *
  obtain ⟨r0, s0, mm0, mp2⟩ := p
  simp only [] at *
  obtain ⟨g1, g2⟩ := he
  have hT : (0 : ℚ) < 10 ^ est0 := by positivity
  have hs0 : (0 : ℚ) < s0 := by exact_mod_cast i1
  have hAq : (0 : ℚ) < A := by exact_mod_cast hA
  have h10 : (10 : ℚ) ^ (est0 - 1) = 10 ^ est0 / 10 := by rw [zpow_sub₀ (by norm_num)]; norm_num
  have h11 : (10 : ℚ) ^ (est0 + 1) = 10 ^ est0 * 10 := by rw [zpow_add₀ (by norm_num)]; norm_num
  -- bounds as natural numbers
  have hlo : s0 * B ≤ 10 * (r0 * A) := by
    have : ((s0 * B : Nat) : ℚ) ≤ ((10 * (r0 * A) : Nat) : ℚ) := by
      push_cast
      rw [i3, hAB]
      rw [h10] at g1
      have : s0 * A * (10 ^ est0 / 10) ≤ s0 * A * dval m k := mul_le_mul_of_nonneg_left g1 (by positivity)
      linarith
    exact_mod_cast this
  have hhi : r0 * A ≤ 2 * (s0 * B) := by
    have : ((r0 * A : Nat) : ℚ) ≤ ((2 * (s0 * B) : Nat) : ℚ) := by
      push_cast
      rw [i3, hAB]
      have : s0 * A * dval m k ≤ s0 * A * (2 * 10 ^ est0) := mul_le_mul_of_nonneg_left g2 (by positivity)
      linarith
    exact_mod_cast this
  rw [plusOf_mul]
  have j1 : 0 < s0 * B := Nat.mul_pos i1 hB
  have j2 : 0 < mm0 * A := Nat.mul_pos i2 hA
  have j6 : r0 * A ≤ 2 ^ 54 * (mm0 * A) := by rw [← Nat.mul_assoc]; exact Nat.mul_le_mul_right _ i6
  have j7 : 2 * (plusOf mp2 mm0 * A) ≤ r0 * A := by rw [← Nat.mul_assoc]; exact Nat.mul_le_mul_right _ i7
  have j8 : plusOf mp2 mm0 * A ≤ 2 * (mm0 * A) := by rw [← Nat.mul_assoc]; exact Nat.mul_le_mul_right _ i8
  have q3 : ((r0 * A : Nat) : ℚ) * 10 ^ est0 = dval m k * (s0 * B : Nat) := by push_cast; rw [i3, hAB]; ring
  have q4 : ((plusOf mp2 mm0 * A : Nat) : ℚ) * 10 ^ est0 = 2 ^ k / 2 * (s0 * B : Nat) := by push_cast; rw [i4, hAB]; ring
  have q5 : ¬ (m = 2 ^ 52 ∧ k = -1023) → ((mm0 * A : Nat) : ℚ) * 10 ^ est0 ≤ low m k / 2 * (s0 * B : Nat) := by
    intro h
    push_cast; rw [hAB]
    have := mul_le_mul_of_nonneg_right (i5 h) (show (0 : ℚ) ≤ A * 10 ^ est0 by positivity)
    linarith
  clear hAB i3 i4 i5 i6 i7 i8 hsc
  unfold needFixup
  simp only [plusOf_mul]
  generalize plusOf mp2 mm0 * A = P at *
  generalize r0 * A = R at *
  generalize mm0 * A = M at *
  generalize s0 * B = S at *
  by_cases hfix : (if S ≤ R then true else if (decide (m % 2 = 0)) = true then decide (S ≤ R + P) else decide (S < R + P)) = true
  · rw [if_pos hfix, if_pos hfix]
    have hSR : S ≤ R + P := by
      revert hfix
      by_cases h1 : S ≤ R
      · intro _; omega
      · rw [if_neg h1]
        split
        · simp
        · simp; omega
    refine ⟨by omega, by omega, ?_, by omega, ?_, ?_, fun h => ?_⟩
    · split <;> omega
    · rw [h11]; push_cast; linarith
    · rw [h11]; push_cast; linarith
    · rw [h11]; have := q5 h; push_cast; linarith
  · rw [if_neg hfix, if_neg hfix]
    have h1 : ¬ S ≤ R := fun h => hfix (by rw [if_pos h])
    rw [if_neg h1] at hfix
    refine ⟨j1, by omega, ?_, by omega, q3, q4, q5⟩
    by_cases hr : decide (m % 2 = 0) = true
    · rw [if_pos hr] at hfix ⊢
      simpa using hfix
    · rw [if_neg hr] at hfix ⊢
      simpa using hfix

/-- The digits: at most 17, and the number they denote rounds to the double. -/
theorem digits_spec {m : Nat} {k est0 : Int} (hc : FinDbl m k) (hm : 0 < m) (he : GoodEst est0 m k) (point : Int) {fuel : Nat} (hf : 17 ≤ fuel) :
    let p := startDigits est0 m k
    ∃ ds : List Nat, ds = genDigits p.2.1 p.2.2.2.1 (decide (m % 2 = 0)) 17 p.1 p.2.2.1 ∧ digLoop p.2.1 p.2.2.2.1 (decide (m % 2 = 0)) point fuel 1 p.1 p.2.2.1 = some (emit point 1 ds, (ds.length : Int), false) ∧
      ds ≠ [] ∧ ds.length ≤ 17 ∧ (∀ d ∈ ds, d < 10) ∧
      (¬ (m = 2 ^ 52 ∧ k = -1023) → RU ((ofBE 10 ds : ℚ) * 10 ^ (p.2.2.2.2 - ds.length)) m k) := by
  obtain ⟨a1, a2, a3, a4, a5, a6, a7⟩ := startDigits_spec hc hm he
  generalize startDigits est0 m k = p at *
  obtain ⟨r, s, mm, mp2, est⟩ := p
  simp only [] at *
  obtain ⟨ds, k0, k1, k2, k3, k4, k5, k6⟩ := digLoop_spec a1 mp2 (decide (m % 2 = 0)) point fuel 16 1 r mm a2 a3 a4 (by omega)
  refine ⟨ds, k0, by rw [k1]; congr 3; omega, k2, k3, k4, fun hx => ⟨canonU_of hc, ?_, ?_⟩⟩
  all_goals
    have hT : (0 : ℚ) < 10 ^ est := by positivity
    have hs : (0 : ℚ) < s := by exact_mod_cast a1
    have hN : (0 : ℚ) < 10 ^ ds.length := by positivity
    have hV : (ofBE 10 ds : ℚ) * 10 ^ (est - ds.length) * (10 ^ ds.length * s) = ofBE 10 ds * s * 10 ^ est := by
      rw [zpow_sub₀ (by norm_num), zpow_natCast]; field_simp
    generalize (ofBE 10 ds : ℚ) * 10 ^ (est - ds.length) = V at *
    have hpos : (0 : ℚ) < 10 ^ ds.length * s := by positivity
  · have hb : (dval m k + 2 ^ k / 2) * (10 ^ ds.length * s) = ((r : ℚ) + plusOf mp2 mm) * 10 ^ ds.length * 10 ^ est := by
      have : (dval m k + 2 ^ k / 2) * s = (r + plusOf mp2 mm) * 10 ^ est := by linarith
      linear_combination (10 ^ ds.length) * this
    by_cases hr : m % 2 = 0
    · have : ofBE 10 ds * s ≤ (r + plusOf mp2 mm) * 10 ^ ds.length := by simpa [hr, Le] using k6
      have h : ((ofBE 10 ds : ℚ) * s) ≤ (r + plusOf mp2 mm) * 10 ^ ds.length := by exact_mod_cast this
      have h' := mul_le_mul_of_nonneg_right h hT.le
      rw [← hV, ← hb] at h'
      rcases lt_or_eq_of_le (le_of_mul_le_mul_right h' hpos) with h | h
      · exact Or.inl h
      · exact Or.inr ⟨h, hr⟩
    · have : ofBE 10 ds * s < (r + plusOf mp2 mm) * 10 ^ ds.length := by simpa [hr, Le] using k6
      have h : ((ofBE 10 ds : ℚ) * s) < (r + plusOf mp2 mm) * 10 ^ ds.length := by exact_mod_cast this
      have h' := mul_lt_mul_of_pos_right h hT
      rw [← hV, ← hb] at h'
      exact Or.inl (lt_of_mul_lt_mul_right h' hpos.le)
  · have hb : dval m k * (10 ^ ds.length * s) = (r : ℚ) * 10 ^ ds.length * 10 ^ est := by linear_combination -(10 ^ ds.length) * a5
    have hm' : (mm : ℚ) * 10 ^ ds.length * 10 ^ est ≤ low m k / 2 * (10 ^ ds.length * s) := by
      have := mul_le_mul_of_nonneg_left (a7 hx) hN.le
      linarith
    by_cases hr : m % 2 = 0
    · have : r * 10 ^ ds.length ≤ ofBE 10 ds * s + mm * 10 ^ ds.length := by simpa [hr, Le] using k5
      have h : (r : ℚ) * 10 ^ ds.length ≤ (ofBE 10 ds : ℚ) * s + mm * 10 ^ ds.length := by exact_mod_cast this
      have h' := mul_le_mul_of_nonneg_right h hT.le
      rw [add_mul, ← hV, ← hb] at h'
      have h2 : (dval m k - low m k / 2) * (10 ^ ds.length * s) ≤ V * (10 ^ ds.length * s) := by linarith
      rcases lt_or_eq_of_le (le_of_mul_le_mul_right h2 hpos) with h | h
      · exact Or.inl h
      · exact Or.inr ⟨h.symm, hr⟩
    · have : r * 10 ^ ds.length < ofBE 10 ds * s + mm * 10 ^ ds.length := by simpa [hr, Le] using k5
      have h : (r : ℚ) * 10 ^ ds.length < (ofBE 10 ds : ℚ) * s + mm * 10 ^ ds.length := by exact_mod_cast this
      have h' := mul_lt_mul_of_pos_right h hT
      rw [add_mul, ← hV, ← hb] at h'
      have h2 : (dval m k - low m k / 2) * (10 ^ ds.length * s) < V * (10 ^ ds.length * s) := by linarith
      exact Or.inl (lt_of_mul_lt_mul_right h2 hpos.le)

end Gauche.FloText

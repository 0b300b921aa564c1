import Verif.Model.FloText
import Verif.Proof.FlonumStart
import Verif.Spec.Radix
/-
The digits that `print_double` generates: they end, none spills over, and the number they denote lies in the rounding interval of the double.
-/
namespace Gauche.FloText
open Gauche.Spec Gauche.Flonum Gauche.Radix

/-- `≤` if the interval includes its ends, else `<`. -/
def Le (round : Bool) (a b : Nat) : Prop := if round then a ≤ b else a < b

instance (round : Bool) (a b : Nat) : Decidable (Le round a b) := by unfold Le; infer_instance

/-- The text of digits, with the point after position `point`. -/
def emit (point : Int) : Int → List Nat → List Char
  | _, [] => []
  | _, [d] => [dig d]
  | digs, d :: d' :: ds => dig d :: (if digs = point then ['.'] else []) ++ emit point (digs + 1) (d' :: ds)

theorem ofBE_one (d : Nat) : ofBE 10 [d] = d := by simp [ofBE]

theorem foldl_ofBE (ds : List Nat) : ∀ a, ds.foldl (fun a d => a * 10 + d) a = a * 10 ^ ds.length + ofBE 10 ds := by
  induction ds with
  | nil => intro a; simp [ofBE]
  | cons d ds ih =>
    intro a
    unfold ofBE
    rw [List.foldl_cons, List.foldl_cons, ih, ih (0 * 10 + d), List.length_cons, pow_succ]
    ring

theorem ofBE_cons (d : Nat) (ds : List Nat) : ofBE 10 (d :: ds) = d * 10 ^ ds.length + ofBE 10 ds := by
  have := foldl_ofBE ds d
  unfold ofBE at this ⊢
  rw [List.foldl_cons]
  simpa using this

theorem plusOf_mul (b : Bool) (m c : Nat) : plusOf b (m * c) = plusOf b m * c := by
  unfold plusOf; split <;> ring

theorem le_plusOf (b : Bool) (m : Nat) : m ≤ plusOf b m := by
  unfold plusOf; split <;> omega

/-- The digits that the loop generates. -/
def genDigits (s : Nat) (mp2 round : Bool) : Nat → Nat → Nat → List Nat
  | 0, _, _ => []
  | fuel + 1, r, mm =>
    let q := r * 10 / s
    let r' := r * 10 % s
    let tc1 := decide (Le round r' (mm * 10))
    let tc2 := decide (Le round s (r' + plusOf mp2 (mm * 10)))
    if !tc1 && !tc2 then q :: genDigits s mp2 round fuel r' (mm * 10)
    else
      let down := if !tc1 then false else if !tc2 then true
        else (round && decide (r' + r' ≤ s)) || (!round && decide (r' + r' < s))
      if down then [q] else [q + 1]

/-- What the digit loop does. -/
theorem digLoop_spec {s : Nat} (hs : 0 < s) (mp2 round : Bool) (point : Int) : ∀ (fuel j : Nat) (digs : Int) (r mm : Nat),
    r < s → (if round then r + plusOf mp2 mm < s else r + plusOf mp2 mm ≤ s) → s < 2 * (mm * 10 ^ (j + 1)) → j < fuel →
    ∃ ds : List Nat, ds = genDigits s mp2 round (j + 1) r mm ∧
      digLoop s mp2 round point fuel digs r mm = some (emit point digs ds, digs + ds.length - 1, false) ∧
      ds ≠ [] ∧ ds.length ≤ j + 1 ∧ (∀ d ∈ ds, d < 10) ∧
      Le round (r * 10 ^ ds.length) (ofBE 10 ds * s + mm * 10 ^ ds.length) ∧
      Le round (ofBE 10 ds * s) ((r + plusOf mp2 mm) * 10 ^ ds.length) := by
  intro fuel
  induction fuel with
  | zero => intro j digs r mm _ _ _ hf; omega
  | succ fuel ih =>
    intro j digs r mm hr hp ht hf
    rw [digLoop, genDigits]
    have hmm : 0 < mm := by
      rcases Nat.eq_zero_or_pos mm with h | h
      · subst h; simp at ht
      · exact h
    have hq : r * 10 / s < 10 := (Nat.div_lt_iff_lt_mul hs).2 (by omega)
    have hdm : s * (r * 10 / s) + r * 10 % s = r * 10 := Nat.div_add_mod _ _
    have hr' : r * 10 % s < s := Nat.mod_lt _ hs
    have hmp := le_plusOf mp2 mm
    simp only [plusOf_mul]
    generalize hP : plusOf mp2 mm = P at *
    generalize r * 10 / s = q at *
    generalize r * 10 % s = r' at *
    have one : ∀ d, d < 10 → Le round (r * 10) (d * s + mm * 10) → Le round (d * s) ((r + P) * 10) →
        ∃ ds : List Nat, ds = [d] ∧ some ([dig d], digs, false) = some (emit point digs ds, digs + ds.length - 1, false) ∧
      ds ≠ [] ∧ ds.length ≤ j + 1 ∧ (∀ d ∈ ds, d < 10) ∧
      Le round (r * 10 ^ ds.length) (ofBE 10 ds * s + mm * 10 ^ ds.length) ∧
      Le round (ofBE 10 ds * s) ((r + P) * 10 ^ ds.length) := by
      intro d hd h1 h2
      refine ⟨[d], rfl, by simp [emit], by simp, by simp, by simpa using hd, ?_, ?_⟩
      · simpa [ofBE_one] using h1
      · simpa [ofBE_one] using h2
    have hdown : Le round r' (mm * 10) → Le round (r * 10) (q * s + mm * 10) ∧ Le round (q * s) ((r + P) * 10) := by
      intro h
      rw [Nat.mul_comm s q] at hdm
      unfold Le at *
      cases round
      · simp only [Bool.false_eq_true, if_false] at h ⊢; omega
      · simp only [if_true] at h ⊢; omega
    have hup : Le round s (r' + P * 10) → q + 1 < 10 ∧ Le round (r * 10) ((q + 1) * s + mm * 10) ∧ Le round ((q + 1) * s) ((r + P) * 10) := by
      intro h
      rw [Nat.mul_comm s q] at hdm
      have h9 : q ≠ 9 := by
        rintro rfl
        unfold Le at h
        cases round
        · simp only [Bool.false_eq_true, if_false] at h hp; omega
        · simp only [if_true] at h hp; omega
      have e : (q + 1) * s = q * s + s := by ring
      rw [e]
      unfold Le at *
      cases round
      · simp only [Bool.false_eq_true, if_false] at h ⊢; omega
      · simp only [if_true] at h ⊢; omega
    have e1 : (if round = true then decide (r' ≤ mm * 10) else decide (r' < mm * 10)) = decide (Le round r' (mm * 10)) := by
      unfold Le; cases round <;> simp
    have e2 : (if round = true then decide (s ≤ r' + P * 10) else decide (s < r' + P * 10)) = decide (Le round s (r' + P * 10)) := by
      unfold Le; cases round <;> simp
    simp only [e1, e2]
    by_cases t1 : Le round r' (mm * 10) <;> by_cases t2 : Le round s (r' + P * 10)
    · simp only [t1, t2, decide_true, Bool.not_true, Bool.and_false, Bool.false_eq_true, if_false]
      split
      · exact one q hq (hdown t1).1 (hdown t1).2
      · obtain ⟨u1, u2, u3⟩ := hup t2
        rw [if_neg (by omega)]
        exact one (q + 1) u1 u2 u3
    · simp only [t1, t2, decide_true, decide_false, Bool.not_true, Bool.not_false, Bool.and_true, Bool.false_eq_true, if_false, if_true]
      exact one q hq (hdown t1).1 (hdown t1).2
    · simp only [t1, t2, decide_true, decide_false, Bool.not_true, Bool.not_false, Bool.and_false, Bool.false_eq_true, if_false, if_true]
      obtain ⟨u1, u2, u3⟩ := hup t2
      rw [if_neg (by omega)]
      exact one (q + 1) u1 u2 u3
    · simp only [t1, t2, decide_false, Bool.not_false, Bool.and_true, if_true]
      have hP' : plusOf mp2 (mm * 10) = P * 10 := by rw [plusOf_mul, hP]
      have hr2 : (if round then r' + P * 10 < s else r' + P * 10 ≤ s) := by
        unfold Le at t2
        cases round
        · simp only [Bool.false_eq_true, if_false] at t2 ⊢; omega
        · simp only [if_true] at t2 ⊢; omega
      have hr3 : ¬ r' < mm * 10 := by
        unfold Le at t1
        cases round
        · simpa using t1
        · simp only [if_true] at t1; omega
      cases j with
      | zero =>
        exfalso
        have : r' + P * 10 ≤ s := by
          cases round
          · simpa using hr2
          · simp only [if_true] at hr2; omega
        simp at ht
        omega
      | succ j =>
        obtain ⟨ds, k0, k1, k2, k3, k4, k5, k6⟩ := ih j (digs + 1) r' (mm * 10) hr' (by rw [hP']; exact hr2)
          (by rw [show mm * 10 * 10 ^ (j + 1) = mm * 10 ^ (j + 1 + 1) by rw [pow_succ]; ring]; exact ht) (by omega)
        rw [k1, hP'] at *
        refine ⟨q :: ds, by rw [k0], ?_, by simp, by simpa using k3, ?_, ?_, ?_⟩
        · obtain ⟨d', ds', rfl⟩ := List.exists_cons_of_ne_nil k2
          simp only [Option.map_some, emit, List.length_cons]
          congr 3
          omega
        · intro d hd
          rcases List.mem_cons.1 hd with rfl | hd
          · exact hq
          · exact k4 d hd
        all_goals
          rw [ofBE_cons, List.length_cons, pow_succ]
          generalize 10 ^ ds.length = T at *
          generalize ofBE 10 ds = D at *
          have e : r * (T * 10) = s * q * T + r' * T := by
            calc r * (T * 10) = r * 10 * T := by ring
              _ = _ := by rw [← hdm]; ring
        · have e' : (q * T + D) * s + mm * (T * 10) = s * q * T + (D * s + mm * 10 * T) := by ring
          rw [e, e']
          unfold Le at *
          cases round
          · simp only [Bool.false_eq_true, if_false] at k5 ⊢; omega
          · simp only [if_true] at k5 ⊢; omega
        · have e' : (q * T + D) * s = s * q * T + D * s := by ring
          have e2 : (r + P) * (T * 10) = s * q * T + (r' + P * 10) * T := by
            calc (r + P) * (T * 10) = r * (T * 10) + P * 10 * T := by ring
              _ = _ := by rw [e]; ring
          rw [e2, e']
          unfold Le at *
          cases round
          · simp only [Bool.false_eq_true, if_false] at k6 ⊢; omega
          · simp only [if_true] at k6 ⊢; omega

end Gauche.FloText

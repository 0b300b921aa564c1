import Verif.Proof.FloPrintVal
import Verif.Proof.FloRead
import Verif.Proof.NumPrint
/-
The text that `print_double` prints is a decimal number: the digits, the number of digits after the point and the exponent.
-/
namespace Gauche.FloText
open Gauche.Spec Gauche.Flonum Gauche.Radix Gauche.NumText Gauche.NumText.Spec Gauche.FloText.Spec

theorem dig_table10 : ∀ d, d < 10 → digitOf 10 (dig d) = some d ∧ dig d ≠ '_' ∧ digitChar false d = dig d := by decide

theorem map_dig_mem {ds : List Nat} (h : ∀ d ∈ ds, d < 10) : ∀ c ∈ ds.map dig, c ≠ '_' := by
  intro c hc
  obtain ⟨d, hd, rfl⟩ := List.mem_map.1 hc
  exact (dig_table10 d (h d hd)).2.1

theorem run_map (strict : Bool) {ds : List Nat} (h : ∀ d ∈ ds, d < 10) : DigitRun strict (ds.map dig) ds := by
  have hm := map_dig_mem h
  refine ⟨?_, ?_, ?_, ?_, fun _ hh => hm _ hh rfl⟩
  · rw [List.filter_eq_self.2 (fun c hc => by simpa using hm c hc), List.map_map]
    exact List.map_congr_left fun d hd => (dig_table10 d (h d hd)).1
  · intro hh; exact hm _ (List.mem_of_mem_head? (by rw [hh]; rfl)) rfl
  · intro hh; exact hm _ (List.mem_of_getLast? hh) rfl
  · intro hh; exact hm '_' (hh.mem (by simp)) rfl

theorem decimal_run (strict : Bool) {n : Nat} (hn : n < 10 ^ 65) : ∃ ds, DigitRun strict (decimal n) ds ∧ ds ≠ [] ∧ ofBE 10 ds = n := by
  unfold decimal
  by_cases h0 : n = 0
  · rw [if_pos h0]
    exact ⟨[0], run_map (ds := [0]) strict (by simp), by simp, by rw [h0]; rfl⟩
  · rw [if_neg h0]
    obtain ⟨ds, ⟨d1, d2, d, t, d3, d4⟩, e⟩ := fixDigits_spec (r := 10) (by omega) false 65 n [] (by omega) hn
    rw [e, List.append_nil]
    have : ds.map (digitChar false) = ds.map dig := List.map_congr_left fun d hd => (dig_table10 d (d1 d hd)).2.2
    rw [this]
    exact ⟨ds, run_map strict d1, by rw [d3]; simp, d2⟩

theorem exp_run (strict : Bool) {e : Int} (he : e.natAbs < 10 ^ 65) :
    ExponentText strict ('e' :: (if e < 0 then ['-'] else []) ++ decimal e.natAbs) e := by
  obtain ⟨ds, h1, h2, h3⟩ := decimal_run strict he
  right
  by_cases h : e < 0
  · rw [if_pos h]
    exact ⟨'e', ['-'], _, -1, ds, rfl, by decide, Or.inr (Or.inr ⟨rfl, rfl⟩), h1, h2, by rw [h3]; omega⟩
  · rw [if_neg h]
    exact ⟨'e', [], _, 1, ds, rfl, by decide, Or.inl ⟨rfl, rfl⟩, h1, h2, by rw [h3]; omega⟩

theorem emit_plain (point : Int) (ds : List Nat) : ∀ digs : Int, point < digs ∨ digs + ds.length - 1 ≤ point → emit point digs ds = ds.map dig := by
  induction ds with
  | nil => intro digs _; rfl
  | cons d ds ih =>
    intro digs h
    cases ds with
    | nil => rfl
    | cons d' ds' =>
      rw [emit, ih (digs + 1) (by simp at h ⊢; omega)]
      rw [if_neg (by simp at h; omega)]
      rfl

theorem emit_point (point : Int) (ds : List Nat) : ∀ digs : Int, digs ≤ point → point - digs + 1 < ds.length →
    emit point digs ds = (ds.take (point - digs + 1).toNat).map dig ++ '.' :: (ds.drop (point - digs + 1).toNat).map dig := by
  induction ds with
  | nil => intro digs h1 h2; simp at h2; omega
  | cons d ds ih =>
    intro digs h1 h2
    cases ds with
    | nil => simp at h2; omega
    | cons d' ds' =>
      rw [emit]
      by_cases h : digs = point
      · rw [if_pos h, emit_plain _ _ _ (Or.inl (by omega)), show (point - digs + 1).toNat = 1 by omega]
        rfl
      · rw [if_neg h, ih (digs + 1) (by omega) (by simp at h2 ⊢; omega)]
        rw [show (point - digs + 1).toNat = (point - (digs + 1) + 1).toNat + 1 by omega]
        rfl

theorem ofBE_zeros (n : Nat) : ofBE 10 (List.replicate n 0) = 0 := by
  induction n with
  | zero => rfl
  | succ n ih => rw [List.replicate_succ, ofBE_cons, ih]; simp

theorem ofBE_lt {ds : List Nat} (h : ∀ d ∈ ds, d < 10) : ofBE 10 ds < 10 ^ ds.length := by
  induction ds with
  | nil => simp [ofBE]
  | cons d ds ih =>
    rw [ofBE_cons, List.length_cons, pow_succ]
    have h1 := ih (fun x hx => h x (by simp [hx]))
    have h2 := h d (by simp)
    have h3 : d * 10 ^ ds.length ≤ 9 * 10 ^ ds.length := Nat.mul_le_mul_right _ (by omega)
    omega

theorem replicate_dig (n : Nat) : List.replicate n '0' = (List.replicate n 0).map dig := by
  rw [List.map_replicate]; rfl

/-- The printed text: digits `a`, a point, digits `b` and an exponent `e`; the number denoted is that of the generated digits. -/
theorem printBody_text {lo hi est0 : Int} {m : Nat} {k : Int} (hc : FinDbl m k) (hm : 0 < m) (he : GoodEst est0 m k)
    (hlo : -20 ≤ lo) (hhi : hi ≤ 17) (hest : (startDigits est0 m k).2.2.2.2.natAbs < 1000) :
    ∃ txt f d, ∃ e : Int, (∀ fuel, 17 ≤ fuel → printBody fuel lo hi est0 m k = some txt) ∧ (∀ strict, UDecimalText strict txt f d e) ∧
      (let p := startDigits est0 m k
       let ds := genDigits p.2.1 p.2.2.2.1 (decide (m % 2 = 0)) 17 p.1 p.2.2.1
       (f : ℚ) * 10 ^ (e - d) = (ofBE 10 ds : ℚ) * 10 ^ (p.2.2.2.2 - ds.length) ∧
       f < 10 ^ 18 ∧ d ≤ 36 ∧ 1 ≤ d ∧
       ((e = 0 ∧ lo < p.2.2.2.2 ∧ p.2.2.2.2 < hi) ∨ (e = p.2.2.2.2 - 1 ∧ d ≤ 16))) := by
  have hdig := fun point fuel hf => digits_spec hc hm he point (fuel := fuel) hf
  have hpb : ∀ fuel, printBody fuel lo hi est0 m k =
      let p := startDigits est0 m k
      let plain := decide (p.2.2.2.2 < hi) && decide (lo < p.2.2.2.2)
      let point := if plain then p.2.2.2.2 else 1
      let est' := if plain then 1 else p.2.2.2.2
      let zeros := if point ≤ 0 then '0' :: '.' :: List.replicate (-point).toNat '0' else []
      (digLoop p.2.1 p.2.2.2.1 (decide (m % 2 = 0)) point fuel 1 p.1 p.2.2.1).map fun t =>
        let t1 := if t.2.2 then notationalRoundup (zeros ++ t.1) else zeros ++ t.1
        let tail := if t.2.1 ≤ point then List.replicate (point - t.2.1).toNat '0' ++ ['.', '0'] else []
        let e := est' - 1
        let ex := if e ≠ 0 ∨ plain = false then 'e' :: (if e < 0 then ['-'] else []) ++ decimal e.natAbs else []
        t1 ++ tail ++ ex := fun fuel => rfl
  generalize startDigits est0 m k = p at *
  obtain ⟨r, s, mm, mp2, est⟩ := p
  simp only [] at *
  generalize genDigits s mp2 (decide (m % 2 = 0)) 17 r mm = ds at *
  have hbase : ds ≠ [] ∧ ds.length ≤ 17 ∧ ∀ d ∈ ds, d < 10 := by
    obtain ⟨ds', rfl, _, k2, k3, k4, _⟩ := hdig 0 17 (le_refl _)
    exact ⟨k2, k3, k4⟩
  obtain ⟨hne, hlen, hlt⟩ := hbase
  have hloop : ∀ point fuel, 17 ≤ fuel →
      digLoop s mp2 (decide (m % 2 = 0)) point fuel 1 r mm = some (emit point 1 ds, (ds.length : Int), false) := by
    intro point fuel hf
    obtain ⟨ds', rfl, k1, _⟩ := hdig point fuel hf
    exact k1
  have hpos : 0 < ds.length := List.length_pos_iff.2 hne
  have hD := ofBE_lt hlt
  have hD17 : ofBE 10 ds < 10 ^ 17 := lt_of_lt_of_le hD (Nat.pow_le_pow_right (by norm_num) hlen)
  -- the text before the exponent, for a given position of the point
  have core : ∀ point : Int, -20 < point → point ≤ 17 → ∃ a b, (∀ d ∈ a, d < 10) ∧ (∀ d ∈ b, d < 10) ∧ a ≠ [] ∧ b ≠ [] ∧
      ((if point ≤ 0 then '0' :: '.' :: List.replicate (-point).toNat '0' else []) ++ emit point 1 ds) ++
        (if (ds.length : Int) ≤ point then List.replicate (point - ds.length).toNat '0' ++ ['.', '0'] else []) =
        a.map dig ++ '.' :: b.map dig ∧
      (ofBE 10 (a ++ b) : ℚ) * 10 ^ (-(b.length : Int)) = (ofBE 10 ds : ℚ) * 10 ^ (point - ds.length) ∧
      ofBE 10 (a ++ b) < 10 ^ 18 ∧ b.length ≤ 36 ∧ (point = 1 → b.length ≤ 16) := by
    intro point hp1 hp2
    by_cases h0 : point ≤ 0
    · refine ⟨[0], List.replicate (-point).toNat 0 ++ ds, by simp, ?_, by simp, by simp [hne], ?_, ?_, ?_, ?_, ?_⟩
      · intro d hd
        rcases List.mem_append.1 hd with hd | hd
        · rw [List.eq_of_mem_replicate hd]; omega
        · exact hlt d hd
      · rw [if_pos h0, if_neg (by omega), emit_plain _ _ _ (Or.inl (by omega)), replicate_dig]
        simp [dig]
      · have : ofBE 10 ([0] ++ (List.replicate (-point).toNat 0 ++ ds)) = ofBE 10 ds := by
          rw [ofBE_append, ofBE_append, ofBE_zeros]; simp [ofBE_one]
        rw [this]
        congr 2
        simp
        omega
      · have : ofBE 10 ([0] ++ (List.replicate (-point).toNat 0 ++ ds)) = ofBE 10 ds := by
          rw [ofBE_append, ofBE_append, ofBE_zeros]; simp [ofBE_one]
        rw [this]; omega
      · simp; omega
      · intro h; omega
    · rw [if_neg h0]
      by_cases h1 : (ds.length : Int) ≤ point
      · rw [if_pos h1, emit_plain _ _ _ (Or.inr (by omega))]
        have hval : ofBE 10 ((ds ++ List.replicate (point - ds.length).toNat 0) ++ [0]) = ofBE 10 ds * 10 ^ (point - ds.length).toNat * 10 := by
          rw [ofBE_append, ofBE_append, ofBE_zeros, ofBE_one]; simp
        refine ⟨ds ++ List.replicate (point - ds.length).toNat 0, [0], ?_, by simp, by simp [hne], by simp, ?_, ?_, ?_, by simp, by simp⟩
        · intro d hd
          rcases List.mem_append.1 hd with hd | hd
          · exact hlt d hd
          · rw [List.eq_of_mem_replicate hd]; omega
        · rw [replicate_dig]; simp [dig]
        · rw [hval]
          push_cast
          rw [toNat_zpow _ (by omega)]
          simp
        · rw [hval]
          have : ofBE 10 ds * 10 ^ (point - ds.length).toNat < 10 ^ ds.length * 10 ^ (point - ds.length).toNat :=
            Nat.mul_lt_mul_of_pos_right hD (by positivity)
          rw [← pow_add] at this
          have h2 : 10 ^ (ds.length + (point - ds.length).toNat) ≤ 10 ^ 17 := Nat.pow_le_pow_right (by norm_num) (by omega)
          omega
      · rw [if_neg h1, emit_point _ _ _ (by omega) (by omega)]
        rw [show point - 1 + 1 = point by omega]
        refine ⟨ds.take point.toNat, ds.drop point.toNat, fun d hd => hlt d (List.mem_of_mem_take hd), fun d hd => hlt d (List.mem_of_mem_drop hd),
          ?_, ?_, by simp, ?_, ?_, ?_, ?_⟩
        · rw [Ne, List.take_eq_nil_iff]; rintro (h | h)
          · omega
          · exact hne h
        · rw [Ne, List.drop_eq_nil_iff]; omega
        · rw [List.take_append_drop]
          congr 2
          simp; omega
        · rw [List.take_append_drop]; omega
        · simp; omega
        · simp; omega
  by_cases hpl : est < hi ∧ lo < est
  · have hpl' : (decide (est < hi) && decide (lo < est)) = true := by simpa using hpl
    simp only [hpl', if_true] at hpb
    obtain ⟨a, b, c1, c2, c3, c4, c5, c6, c7, c8, c9⟩ := core est (by omega) (by omega)
    refine ⟨a.map dig ++ '.' :: b.map dig, ofBE 10 (a ++ b), b.length, 0, ?_, ?_, ?_⟩
    · intro fuel hf
      rw [hpb, hloop _ _ hf]
      simp only [Option.map_some, Bool.false_eq_true, if_false, c5]
      simp
    · intro strict
      exact ⟨a.map dig ++ '.' :: b.map dig, [], by simp, Or.inl ⟨rfl, rfl⟩,
        Or.inr ⟨_, _, a, b, rfl, run_map strict c1, run_map strict c2, by simp [c3], rfl, rfl⟩⟩
    · refine ⟨?_, c7, c8, List.length_pos_iff.2 c4, Or.inl ⟨rfl, hpl.2, hpl.1⟩⟩
      rw [zero_sub]; exact c6
  · have hpl' : (decide (est < hi) && decide (lo < est)) = false := by
      rw [Bool.eq_false_iff]; simpa using hpl
    simp only [hpl', if_true, Bool.false_eq_true, if_false] at hpb
    obtain ⟨a, b, c1, c2, c3, c4, c5, c6, c7, c8, c9⟩ := core 1 (by omega) (by omega)
    refine ⟨a.map dig ++ '.' :: b.map dig ++ ('e' :: (if est - 1 < 0 then ['-'] else []) ++ decimal (est - 1).natAbs),
      ofBE 10 (a ++ b), b.length, est - 1, ?_, ?_, ?_⟩
    · intro fuel hf
      rw [hpb, hloop _ _ hf]
      simp only [Option.map_some, Bool.false_eq_true, if_false]
      rw [if_pos (Or.inr trivial), c5]
    · intro strict
      have : (est - 1).natAbs < 10 ^ 65 := by
        have : (est - 1).natAbs ≤ 1001 := by omega
        exact lt_of_le_of_lt this (by norm_num)
      exact ⟨a.map dig ++ '.' :: b.map dig, _, rfl, exp_run strict this,
        Or.inr ⟨_, _, a, b, rfl, run_map strict c1, run_map strict c2, by simp [c3], rfl, rfl⟩⟩
    · refine ⟨?_, c7, c8, List.length_pos_iff.2 c4, Or.inr ⟨rfl, c9 rfl⟩⟩
      rw [show est - 1 - (b.length : Int) = (est - 1) + (-(b.length : Int)) by ring, zpow_add₀ (by norm_num),
        show (est - (ds.length : Int)) = (est - 1) + (1 - (ds.length : Int)) by ring, zpow_add₀ (by norm_num)]
      linear_combination (10 ^ (est - 1) : ℚ) * c6

end Gauche.FloText

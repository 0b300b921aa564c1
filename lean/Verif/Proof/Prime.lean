import Verif.Model.Prime
import Mathlib.NumberTheory.LegendreSymbol.JacobiSymbol
import Mathlib.FieldTheory.Finite.Basic
import Mathlib.NumberTheory.ArithmeticFunction.Carmichael
import Mathlib.Data.Nat.Factors
import Mathlib.Tactic.NormNum.Prime
import Mathlib.Tactic.IntervalCases
/-
Lemmas for the prime number utilities.
-/
namespace Gauche.Prime

/- ### Powers of two -/

theorem tef_spec (n : Nat) (h : n ≠ 0) : ∃ m, n = 2 ^ twosExponentFactor n * m ∧ m % 2 = 1 := by
  fun_induction twosExponentFactor n with
  | case1 => exact absurd rfl h
  | case2 n h0 h1 => exact ⟨n, by simp, h1⟩
  | case3 n h0 h1 ih =>
    obtain ⟨m, e, hm⟩ := ih (by omega)
    refine ⟨m, ?_, hm⟩
    rw [pow_add, pow_one, mul_assoc, ← e]; omega

theorem tef_div (n : Nat) (h : n ≠ 0) : n = 2 ^ twosExponentFactor n * (n / 2 ^ twosExponentFactor n) ∧
    n / 2 ^ twosExponentFactor n % 2 = 1 := by
  obtain ⟨m, e, hm⟩ := tef_spec n h
  have : n / 2 ^ twosExponentFactor n = m := by
    conv_lhs => rw [e]
    conv_lhs => rw [← e]
    exact Nat.div_eq_of_eq_mul_right (by positivity) e
  rw [this]; exact ⟨e, hm⟩

/- ### Jacobi -/

theorem jacobiLoop_spec (a n : Nat) (s : Int) (hn : n % 2 = 1) : jacobiLoop a n s = s * jacobiSym a n := by
  fun_induction jacobiLoop a n s with
  | case1 => simp
  | case2 n s h1 =>
    have : jacobiSym ((0 : Nat) : Int) n = 0 := by
      push_cast
      exact jacobiSym.zero_left (by omega)
    rw [this, mul_zero]
  | case3 a n s h1 h2 h3 h4 ih =>
    rw [ih h3]
    have := jacobiSym.quadratic_reciprocity_three_mod_four h4.1 h4.2
    rw [this, jacobiSym.mod_left ((n : Nat) : Int) a]; push_cast; ring
  | case4 a n s h1 h2 h3 h4 ih =>
    rw [ih h3]
    have : jacobiSym a n = jacobiSym n a := by
      by_cases h5 : a % 4 = 3
      · have : n % 4 = 1 := by omega
        exact jacobiSym.quadratic_reciprocity_one_mod_four' (Nat.odd_iff.mpr h3) this
      · have : a % 4 = 1 := by omega
        exact jacobiSym.quadratic_reciprocity_one_mod_four this (Nat.odd_iff.mpr hn)
    rw [this, jacobiSym.mod_left ((n : Nat) : Int) a]; push_cast; ring
  | case5 a n s h1 h2 h3 k h4 ih =>
    rw [ih hn]
    obtain ⟨e, -⟩ := tef_div a h2
    have e2 : (a : Int) = 2 ^ k * ((a / 2 ^ k : Nat) : Int) := by exact_mod_cast e
    conv_rhs => rw [e2]
    rw [jacobiSym.mul_left, jacobiSym.pow_left, jacobiSym.at_two (Nat.odd_iff.mpr hn)]
    have : ZMod.χ₈ (n : ZMod 8) = -1 := by
      rw [ZMod.χ₈_nat_eq_if_mod_eight]
      rw [if_neg (by omega), if_neg (by omega)]
    rw [this, Odd.neg_one_pow (Nat.odd_iff.mpr h4.2)]; ring
  | case6 a n s h1 h2 h3 k h4 ih =>
    rw [ih hn]
    obtain ⟨e, -⟩ := tef_div a h2
    have e2 : (a : Int) = 2 ^ k * ((a / 2 ^ k : Nat) : Int) := by exact_mod_cast e
    conv_rhs => rw [e2]
    rw [jacobiSym.mul_left, jacobiSym.pow_left, jacobiSym.at_two (Nat.odd_iff.mpr hn)]
    have : ZMod.χ₈ (n : ZMod 8) ^ k = 1 := by
      rw [ZMod.χ₈_nat_eq_if_mod_eight]
      rw [if_neg (by omega)]
      by_cases h8 : n % 8 = 1 ∨ n % 8 = 7
      · rw [if_pos h8]; simp
      · rw [if_neg h8]
        exact Even.neg_one_pow (Nat.even_iff.mpr (by omega))
    rw [this]; ring

/- ### Miller-Rabin -/

theorem mrLoop_spec (n : Nat) (hp : Nat.Prime n) (h2 : n ≠ 2) : ∀ (s x : Nat), x < n → (x : ZMod n) ≠ 1 → (x : ZMod n) ^ 2 ^ s = 1 →
    mrLoop n s x = true := by
  haveI := Fact.mk hp
  intro s
  induction s with
  | zero => intro x _ h1 h; simp at h; exact absurd h h1
  | succ s ih =>
    intro x hx h1 h
    rw [mrLoop]
    by_cases hm : x = n - 1
    · rw [if_pos hm]
    · rw [if_neg hm]
      apply ih
      · exact Nat.mod_lt _ hp.pos
      · rw [ZMod.natCast_mod]
        push_cast
        intro hsq
        rw [pow_two, mul_self_eq_one_iff] at hsq
        rcases hsq with h | h
        · exact h1 h
        · apply hm
          have e : ((x + 1 : Nat) : ZMod n) = 0 := by push_cast; rw [h]; ring
          rw [ZMod.natCast_eq_zero_iff] at e
          have := Nat.le_of_dvd (by omega) e
          omega
      · rw [ZMod.natCast_mod]; push_cast; rw [← pow_mul, ← pow_succ']; exact h

theorem millerRabinTest_prime (a n : Nat) (hp : Nat.Prime n) (h2 : n ≠ 2) (ha : ¬ n ∣ a) : millerRabinTest a n = true := by
  haveI := Fact.mk hp
  unfold millerRabinTest; dsimp only
  have hn := hp.two_le
  obtain ⟨e, -⟩ := tef_div (n - 1) (by omega)
  set s := twosExponentFactor (n - 1)
  set d := (n - 1) / 2 ^ s
  by_cases h1 : a ^ d % n = 1
  · rw [if_pos h1]
  · rw [if_neg h1]
    apply mrLoop_spec n hp h2 _ _ (Nat.mod_lt _ hp.pos)
    · intro h
      apply h1
      rw [ZMod.natCast_mod] at h
      have : ((a ^ d : Nat) : ZMod n) = ((1 : Nat) : ZMod n) := by rw [h]; simp
      rw [ZMod.natCast_eq_natCast_iff'] at this
      rw [this]; exact Nat.mod_eq_of_lt (by omega)
    · rw [ZMod.natCast_mod]
      push_cast
      rw [← pow_mul, mul_comm, ← e]
      apply ZMod.pow_card_sub_one_eq_one
      intro h0
      exact ha ((ZMod.natCast_eq_zero_iff _ _).mp h0)

theorem smallPrime_small (n : Nat) (h : n ≤ 100) : smallPrime n = true ↔ Nat.Prime n := by
  unfold smallPrime; rw [if_pos h]
  have : ∀ n ≤ 100, first25.contains n = true ↔ Nat.Prime n := by
    intro n hn
    interval_cases n <;> simp [first25] <;> norm_num
  exact this n h

/- ### The sieve -/

theorem multiClear_length (v : List Bool) (di p : Nat) : (multiClear v di p).length = v.length := by
  fun_induction multiClear v di p with
  | case1 v di h ih => simpa using ih
  | case2 => rfl

theorem multiClear_get (v : List Bool) (di p j : Nat) (hp : 0 < p) (hj : j < v.length) :
    (multiClear v di p)[j]? = some true ↔ v[j]? = some true ∧ ¬ ∃ t, j = di + p * t := by
  fun_induction multiClear v di p with
  | case1 v di h ih =>
    rw [ih (by simpa using hj), List.getElem?_set]
    by_cases hd : di = j
    · rw [if_pos hd]
      simp only [hd, hj, if_true]
      constructor
      · rintro ⟨h, -⟩; simp at h
      · rintro ⟨-, h⟩; exact absurd ⟨0, by omega⟩ h
    · rw [if_neg hd]
      constructor
      · rintro ⟨h1, h2⟩
        refine ⟨h1, ?_⟩
        rintro ⟨t, ht⟩
        cases t with
        | zero => omega
        | succ t => exact h2 ⟨t, by rw [ht]; ring⟩
      · rintro ⟨h1, h2⟩
        refine ⟨h1, ?_⟩
        rintro ⟨t, ht⟩
        exact h2 ⟨t + 1, by rw [ht]; ring⟩
  | case2 v di h =>
    have : v.length ≤ di := by omega
    constructor
    · intro h1; refine ⟨h1, ?_⟩
      rintro ⟨t, ht⟩; omega
    · exact fun h => h.1

theorem takeFirstTerm_spec (a0 d lb : Nat) (hd : 0 < d) (x : Nat) (hx : lb ≤ x) :
    lb ≤ takeFirstTerm a0 d lb ∧ ((∃ t, x = takeFirstTerm a0 d lb + d * t) ↔ ∃ t, x = a0 + d * t) := by
  unfold takeFirstTerm
  by_cases h : lb ≤ a0
  · rw [if_pos h]; exact ⟨h, Iff.rfl⟩
  · rw [if_neg h]
    set q := (lb - a0 + d - 1) / d with hq
    have h1 : d * q + (lb - a0 + d - 1) % d = lb - a0 + d - 1 := Nat.div_add_mod _ _
    have h2 := Nat.mod_lt (lb - a0 + d - 1) hd
    refine ⟨by omega, ?_⟩
    constructor
    · rintro ⟨t, rfl⟩; exact ⟨q + t, by ring⟩
    · rintro ⟨t, rfl⟩
      have : q ≤ t := by
        by_contra hlt
        have : d * (t + 1) ≤ d * q := Nat.mul_le_mul_left d (by omega)
        rw [Nat.mul_add] at this; omega
      obtain ⟨u, rfl⟩ := Nat.exists_eq_add_of_le this
      exact ⟨u, by ring⟩

theorem segmentSieve_length (ps : List Nat) (v : List Bool) (start root : Nat) : (segmentSieve v start root ps).length = v.length := by
  induction ps generalizing v with
  | nil => rfl
  | cons p qs ih =>
    rw [segmentSieve]
    by_cases h : p ≤ root
    · rw [if_pos h, ih, multiClear_length]
    · rw [if_neg h]

theorem half_eq (p m start j : Nat) (hp : p % 2 = 1) (hs : start % 2 = 1) (hpm : p ≤ m) (hm : m % 2 = 1) (h : start + 2 * j = p * m) :
    ∃ t, j + start / 2 = p * p / 2 + p * t := by
  refine ⟨(m - p) / 2, ?_⟩
  have e : m = p + 2 * ((m - p) / 2) := by omega
  generalize (m - p) / 2 = u at e ⊢
  have h3 : p * m = p * p + 2 * (p * u) := by rw [e]; ring
  have h4 : p * p % 2 = 1 := by rw [Nat.mul_mod, hp]
  omega

theorem segmentSieve_get (ps : List Nat) (v : List Bool) (start root j : Nat) (hj : j < v.length) (hs : start % 2 = 1)
    (hsorted : ps.Pairwise (· < ·)) (hodd : ∀ p ∈ ps, p % 2 = 1) :
    (segmentSieve v start root ps)[j]? = some true ↔
      v[j]? = some true ∧ ∀ p ∈ ps, p ≤ root → ¬ ∃ m, p ≤ m ∧ start + 2 * j = p * m := by
  induction ps generalizing v with
  | nil => simp [segmentSieve]
  | cons p qs ih =>
    rw [segmentSieve]
    have hpo := hodd p (by simp)
    have hmod : ∀ m, start + 2 * j = p * m → m % 2 = 1 := by
      intro m hm
      by_contra hc
      have : p * m % 2 = 0 := by rw [Nat.mul_mod, show m % 2 = 0 by omega]; simp
      omega
    by_cases h : p ≤ root
    · rw [if_pos h, ih _ (by rw [multiClear_length]; exact hj) (List.Pairwise.of_cons hsorted) (fun q hq => hodd q (by simp [hq])),
        multiClear_get _ _ _ _ (by omega) hj]
      obtain ⟨g1, g2⟩ := takeFirstTerm_spec (p * p / 2) p (start / 2) (by omega) (j + start / 2) (by omega)
      have key : (∃ t, j = takeFirstTerm (p * p / 2) p (start / 2) - start / 2 + p * t) ↔ ∃ m, p ≤ m ∧ start + 2 * j = p * m := by
        constructor
        · rintro ⟨t, ht⟩
          obtain ⟨u, hu⟩ := g2.mp ⟨t, by omega⟩
          refine ⟨p + 2 * u, by omega, ?_⟩
          have h4 : p * p % 2 = 1 := by rw [Nat.mul_mod, hpo]
          rw [Nat.mul_add, Nat.mul_left_comm]; omega
        · rintro ⟨m, hm1, hm2⟩
          obtain ⟨t, ht⟩ := half_eq p m start j hpo hs hm1 (hmod m hm2) hm2
          obtain ⟨u, hu⟩ := g2.mpr ⟨t, ht⟩
          exact ⟨u, by omega⟩
      rw [key]
      constructor
      · rintro ⟨⟨h1, h2⟩, h3⟩
        refine ⟨h1, fun q hq => ?_⟩
        rcases List.mem_cons.mp hq with rfl | hq
        · exact fun _ => h2
        · exact h3 q hq
      · rintro ⟨h1, h2⟩
        exact ⟨⟨h1, h2 p (by simp) h⟩, fun q hq => h2 q (by simp [hq])⟩
    · rw [if_neg h]
      constructor
      · intro h1
        refine ⟨h1, fun q hq hr => ?_⟩
        rcases List.mem_cons.mp hq with rfl | hq
        · exact absurd hr h
        · have := (List.pairwise_cons.mp hsorted).1 q hq; omega
      · exact fun h => h.1

theorem sieveValues_mem (start : Nat) (v : List Bool) (j x : Nat) :
    x ∈ sieveValues start v j ↔ ∃ i, v[i]? = some true ∧ x = (j + i) * 2 + start := by
  induction v generalizing j with
  | nil => simp [sieveValues]
  | cons b v ih =>
    have aux : (∃ i, (b :: v)[i]? = some true ∧ x = (j + i) * 2 + start) ↔
        (b = true ∧ x = j * 2 + start) ∨ ∃ i, v[i]? = some true ∧ x = (j + 1 + i) * 2 + start := by
      constructor
      · rintro ⟨i, h1, h2⟩
        cases i with
        | zero => left; simp at h1; exact ⟨h1, by simpa using h2⟩
        | succ i => right; exact ⟨i, by simpa using h1, by rw [h2]; ring⟩
      · rintro (⟨h1, h2⟩ | ⟨i, h1, h2⟩)
        · exact ⟨0, by simp [h1], by simpa using h2⟩
        · exact ⟨i + 1, by simpa using h1, by rw [h2]; ring⟩
    rw [aux, sieveValues]
    cases b with
    | false => simp [ih]
    | true => simp [ih]

theorem sieveValues_sorted (start : Nat) (v : List Bool) (j : Nat) :
    (sieveValues start v j).Pairwise (· < ·) := by
  induction v generalizing j with
  | nil => simp [sieveValues]
  | cons b v ih =>
    rw [sieveValues]
    by_cases hb : b = true
    · rw [if_pos hb]
      refine List.pairwise_cons.mpr ⟨fun y hy => ?_, ih _⟩
      obtain ⟨i, -, h⟩ := (sieveValues_mem start v (j + 1) y).mp hy
      omega
    · rw [if_neg hb]; exact ih _

theorem smallPrimes_mem (bound n : Nat) : n ∈ smallPrimes bound ↔ n < bound ∧ Nat.Prime n := by
  simp only [smallPrimes, List.mem_filter, List.mem_range, Bool.and_eq_true, decide_eq_true_eq, List.all_eq_true, Bool.or_eq_true]
  constructor
  · rintro ⟨h1, h2, h3⟩
    refine ⟨h1, ?_⟩
    rw [Nat.prime_def_le_sqrt]
    refine ⟨h2, fun m hm hs hd => ?_⟩
    have := h3 m (by omega)
    have hm0 := Nat.mod_eq_zero_of_dvd hd
    omega
  · rintro ⟨h1, h2⟩
    refine ⟨h1, h2.two_le, fun j hj => ?_⟩
    by_contra hc
    push Not at hc
    obtain ⟨c1, c2⟩ := hc
    have hd : j ∣ n := Nat.dvd_of_mod_eq_zero (by omega)
    rcases (Nat.dvd_prime h2).mp hd with h | h
    · omega
    · have : n ≤ Nat.sqrt n := by omega
      have := Nat.sqrt_lt_self (n := n) (by omega)
      omega

/-- A segment contains exactly its primes, if all the primes below are known. -/
theorem segmentPrimes_mem (size start : Nat) (primes : List Nat) (he : size % 2 = 0) (hs : start % 2 = 1) (h3 : 3 ≤ start)
    (hroot : Nat.sqrt (start + size - 1) < start)
    (hmem : ∀ p, p ∈ primes ↔ p < start ∧ Nat.Prime p) (hsorted : primes.Pairwise (· < ·)) (x : Nat) :
    x ∈ segmentPrimes size start primes ↔ start ≤ x ∧ x < start + size ∧ Nat.Prime x := by
  have h2mem : 2 ∈ primes := (hmem 2).mpr ⟨by omega, Nat.prime_two⟩
  obtain ⟨q, tl, rfl⟩ : ∃ q tl, primes = q :: tl := by
    cases primes with
    | nil => simp at h2mem
    | cons q tl => exact ⟨q, tl, rfl⟩
  have hq : q = 2 := by
    rcases List.mem_cons.mp h2mem with h | h
    · exact h.symm
    · have a := (List.pairwise_cons.mp hsorted).1 2 h
      have b := ((hmem q).mp (by simp)).2.two_le
      omega
  have htl : ∀ p, p ∈ tl ↔ p < start ∧ Nat.Prime p ∧ p ≠ 2 := by
    intro p
    constructor
    · intro hp
      have a := (List.pairwise_cons.mp hsorted).1 p hp
      obtain ⟨b, c⟩ := (hmem p).mp (by simp [hp])
      exact ⟨b, c, by omega⟩
    · rintro ⟨a, b, c⟩
      have := (hmem p).mpr ⟨a, b⟩
      rcases List.mem_cons.mp this with h | h
      · omega
      · exact h
  have hodd : ∀ p ∈ tl, p % 2 = 1 := fun p hp => by
    obtain ⟨-, b, c⟩ := (htl p).mp hp
    exact (b.eq_two_or_odd).resolve_left c
  unfold segmentPrimes
  rw [sieveValues_mem, List.tail_cons]
  constructor
  · rintro ⟨i, h1, h2⟩
    have hlen : i < size / 2 := by
      have hh := (List.getElem?_eq_some_iff.mp h1).1
      rw [segmentSieve_length, List.length_replicate] at hh; exact hh
    rw [segmentSieve_get _ _ _ _ _ (by simpa using hlen) hs (List.pairwise_cons.mp hsorted).2 hodd] at h1
    refine ⟨by omega, by omega, ?_⟩
    by_contra hc
    have hx2 : 2 ≤ x := by omega
    have hmp := Nat.minFac_prime (show x ≠ 1 by omega)
    have hmd := Nat.minFac_dvd x
    have hsq := Nat.minFac_sq_le_self (show 0 < x by omega) hc
    have hle : x.minFac ≤ Nat.sqrt (start + size - 1) := by
      rw [Nat.le_sqrt]; rw [pow_two] at hsq; omega
    have hne2 : x.minFac ≠ 2 := by
      intro h; rw [h] at hmd; omega
    obtain ⟨m, hm⟩ := hmd
    refine h1.2 _ ((htl _).mpr ⟨by omega, hmp, hne2⟩) hle ⟨m, ?_, by omega⟩
    rw [pow_two] at hsq
    by_contra hlt
    have : x.minFac * m < x.minFac * x.minFac := Nat.mul_lt_mul_of_pos_left (by omega) hmp.pos
    omega
  · rintro ⟨h1, h2, h3'⟩
    have hxo : x % 2 = 1 := (h3'.eq_two_or_odd).resolve_left (by omega)
    refine ⟨(x - start) / 2, ?_, by omega⟩
    rw [segmentSieve_get _ _ _ _ _ (by simp; omega) hs (List.pairwise_cons.mp hsorted).2 hodd]
    refine ⟨by rw [List.getElem?_replicate]; simp; omega, fun p hp hr => ?_⟩
    rintro ⟨m, hm1, hm2⟩
    obtain ⟨b, c, -⟩ := (htl p).mp hp
    have hx : x = p * m := by omega
    rcases (Nat.dvd_prime h3').mp ⟨m, hx⟩ with h | h
    · exact c.one_lt.ne' h
    · omega

theorem smallPrimes_sorted (bound : Nat) : (smallPrimes bound).Pairwise (· < ·) :=
  List.Pairwise.filter _ List.pairwise_lt_range

theorem primesUpTo_spec (size first : Nat) (he : size % 2 = 0) (hf : first % 2 = 1) (h3 : 3 ≤ first)
    (hroot : ∀ k, Nat.sqrt (first + size * k + size - 1) < first + size * k) (k : Nat) :
    (primesUpTo size first k).Pairwise (· < ·) ∧ ∀ p, p ∈ primesUpTo size first k ↔ p < first + size * k ∧ Nat.Prime p := by
  induction k with
  | zero => exact ⟨smallPrimes_sorted _, by simpa [primesUpTo] using smallPrimes_mem first⟩
  | succ k ih =>
    obtain ⟨i1, i2⟩ := ih
    have hodd : (first + size * k) % 2 = 1 := by
      have : size * k % 2 = 0 := by rw [Nat.mul_mod, he]; simp
      omega
    have hm := segmentPrimes_mem size (first + size * k) _ he hodd (by omega) (hroot k) i2 i1
    rw [primesUpTo]
    refine ⟨List.pairwise_append.mpr ⟨i1, sieveValues_sorted _ _ _, ?_⟩, ?_⟩
    · intro a ha b hb
      have := ((i2 a).mp ha).1
      have := ((hm b).mp hb).1
      omega
    · intro p
      rw [List.mem_append, i2, hm, Nat.mul_add, mul_one]
      constructor
      · rintro (⟨a, b⟩ | ⟨a, b, c⟩)
        · exact ⟨by omega, b⟩
        · exact ⟨by omega, c⟩
      · rintro ⟨a, b⟩
        by_cases h : p < first + size * k
        · exact Or.inl ⟨h, b⟩
        · exact Or.inr ⟨by omega, by omega, b⟩

end Gauche.Prime

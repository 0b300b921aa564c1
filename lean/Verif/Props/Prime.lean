import Verif.Proof.Prime2
import Mathlib.NumberTheory.PrimeCounting
/-
C53: the sequence of primes and the primality tests; C54: factorization, Jacobi symbol and totients.
The specifications are Mathlib's `Nat.Prime`, `jacobiSym`, `Nat.primeFactorsList`, `Nat.totient` and `ArithmeticFunction.carmichael`.
-/
namespace Gauche.Prime

/- ### C53 -/

theorem sqrt_lt_start (k : Nat) : Nat.sqrt (firstSegmentStart + segmentSize * k + segmentSize - 1) < firstSegmentStart + segmentSize * k := by
  rw [Nat.sqrt_lt]
  unfold firstSegmentStart segmentSize
  have : 661 + 50000 * k + 50000 - 1 < 661 + 50000 * k + 50000 := by omega
  nlinarith

/-- `primes`: however many segments have been generated, what has been generated is exactly the primes below the end of the last
segment, in ascending order. -/
theorem C53_primes (k : Nat) :
    (primesUpTo segmentSize firstSegmentStart k).Pairwise (· < ·) ∧
      ∀ p, p ∈ primesUpTo segmentSize firstSegmentStart k ↔ p < firstSegmentStart + segmentSize * k ∧ Nat.Prime p :=
  primesUpTo_spec segmentSize firstSegmentStart (by decide) (by decide) (by decide) sqrt_lt_start k

/-- So every prime appears. -/
theorem C53_primes_complete (p : Nat) (hp : Nat.Prime p) : ∃ k, p ∈ primesUpTo segmentSize firstSegmentStart k :=
  ⟨p, ((C53_primes p).2 p).mpr ⟨by unfold firstSegmentStart segmentSize; omega, hp⟩⟩

/-- A Miller-Rabin round never rejects an odd prime, whatever the base, unless the base is a multiple of the number tested. -/
theorem C53_miller_rabin_round (a n : Nat) (hp : Nat.Prime n) (h2 : n ≠ 2) (ha : ¬ n ∣ a) : millerRabinTest a n = true :=
  millerRabinTest_prime a n hp h2 ha

/-- `small-prime?` answers exactly up to 100, and never rejects a prime below its bound. -/
theorem C53_small_prime_partial (n : Nat) :
    (n ≤ 100 → (smallPrime n = true ↔ Nat.Prime n)) ∧ (n < smallPrimeBound → Nat.Prime n → smallPrime n = true) ∧
      (smallPrimeBound ≤ n → smallPrime n = false) := by
  refine ⟨smallPrime_small n, fun hb hp => ?_, fun hb => ?_⟩
  · by_cases h : n ≤ 100
    · exact (smallPrime_small n h).mpr hp
    · unfold smallPrime
      have hodd : n % 2 = 1 := hp.eq_two_or_odd.resolve_left (by omega)
      rw [if_neg h, if_neg (by omega)]
      cases hf : deterministicWitnesses.find? fun p => n < p.1 with
      | none =>
        rw [List.find?_eq_none] at hf
        have := hf (341550071728321, [2, 3, 5, 7, 11, 13, 17]) (by simp [deterministicWitnesses])
        simp at this; unfold smallPrimeBound at hb; omega
      | some p =>
        dsimp only
        rw [List.all_eq_true]
        intro a ha
        apply millerRabinTest_prime a n hp (by omega)
        intro hd
        have hmem := List.mem_of_find?_eq_some hf
        have hle : 0 < a ∧ a ≤ 73 := by
          simp only [deterministicWitnesses, List.mem_cons, List.not_mem_nil, or_false] at hmem
          rcases hmem with rfl | rfl | rfl | rfl | rfl | rfl <;> simp at ha <;> omega
        have := Nat.le_of_dvd hle.1 hd
        omega
  · unfold smallPrime
    unfold smallPrimeBound at hb
    rw [if_neg (by omega)]
    by_cases h2 : n % 2 = 0
    · rw [if_pos h2]
    · rw [if_neg h2]
      have : (deterministicWitnesses.find? fun p => n < p.1) = none := by
        rw [List.find?_eq_none]
        intro p hp
        simp only [deterministicWitnesses, List.mem_cons, List.not_mem_nil, or_false] at hp
        rcases hp with rfl | rfl | rfl | rfl | rfl | rfl <;> simp <;> omega
      rw [this]

/-- `miller-rabin-prime?` never rejects an odd prime, whatever the random bases (they are between 1 and `n - 1`). -/
theorem C53_miller_rabin_no_false_negative (n : Nat) (bases : List Nat) (hp : Nat.Prime n) (h2 : n ≠ 2) (hb : ∀ a ∈ bases, 0 < a ∧ a < n) :
    millerRabinPrime n bases = true := by
  unfold millerRabinPrime
  have hodd : n % 2 = 1 := hp.eq_two_or_odd.resolve_left h2
  rw [if_neg (by omega)]
  by_cases h : n < smallPrimeBound
  · rw [if_pos h]; exact (C53_small_prime_partial n).2.1 h hp
  · rw [if_neg h, List.all_eq_true]
    intro a ha
    apply millerRabinTest_prime a n hp h2
    intro hd
    have := Nat.le_of_dvd (hb a ha).1 hd
    have := (hb a ha).2
    omega

/-- `(miller-rabin-prime? 2)` is `#f`. -/
theorem C53_bug_miller_rabin_two (bases : List Nat) : millerRabinPrime 2 bases = false ∧ Nat.Prime 2 := ⟨rfl, Nat.prime_two⟩

/- Non-vacuity. -/
example : primesUpTo 10 5 3 = [2, 3, 5, 7, 11, 13, 17, 19, 23, 29, 31] := by decide +kernel
example : millerRabinTest 2 1009 = true ∧ millerRabinTest 2 1007 = false ∧ smallPrime 1009 = true ∧ smallPrime 2047 = false := by
  decide +kernel

/- ### C54 -/

/-- `(jacobi a n)` is the Jacobi symbol for every integer `a` and every odd `n > 0`, and an error for even `n`. -/
theorem C54_jacobi (a : Int) (n : Nat) : (n % 2 = 1 → jacobi a n = some (jacobiSym a n)) ∧ (n % 2 = 0 → jacobi a n = none) := by
  refine ⟨fun hn => ?_, fun hn => by unfold jacobi; rw [if_pos hn]⟩
  unfold jacobi
  rw [if_neg (by omega)]
  by_cases ha : a < 0
  · rw [if_pos ha, jacobiLoop_spec _ _ _ hn]
    congr 1
    have e : ((-a).toNat : Int) = -a := Int.toNat_of_nonneg (by omega)
    rw [e]
    have := jacobiSym.neg (-a) (Nat.odd_iff.mpr hn)
    rw [neg_neg] at this
    rw [this]
    congr 1
    by_cases h4 : n % 4 = 1
    · rw [if_pos h4, ZMod.χ₄_nat_one_mod_four h4]
    · rw [if_neg h4, ZMod.χ₄_nat_three_mod_four (by omega)]
  · rw [if_neg ha, jacobiLoop_spec _ _ _ hn, one_mul, Int.toNat_of_nonneg (by omega)]

/-- `(naive-factorize n)` for every `n ≥ 1` terminates with the prime factors of `n` in ascending order with multiplicity, and leaves the memo
table correct, if the table was correct before: so it does after any history of calls without divisor limit. -/
theorem C54_naive_factorize (prime : Nat → Nat) (sp : Nat → Bool) (hps : PrimeSeq prime) (hsp : ∀ n, sp n = true → Nat.Prime n)
    (fuel n : Nat) (m : Memo) (hm : MemoOk (fun n l => l = n.primeFactorsList) m) (hn : 1 ≤ n) (hf : n + 1 ≤ fuel) :
    ∃ m', naiveFactorize prime sp none fuel n m = some (n.primeFactorsList, m') ∧ MemoOk (fun n l => l = n.primeFactorsList) m' := by
  obtain ⟨l, m', e, hl, hm'⟩ := naiveFactorize_spec (fun n l => l = n.primeFactorsList) prime sp none
    (fun m hm fuel n ho h3 hf => factor1_spec _ prime sp none hps hsp
      (fun n hn => (Nat.primeFactorsList_prime hn).symm)
      (fun p hp => by
        show [p, p] = (p * p).primeFactorsList
        rw [primeFactorsList_cons p p hp hp.pos (fun r hr hlt hd => by
          rcases (Nat.dvd_prime hp).mp hd with h | h
          · exact hr.one_lt.ne' h
          · omega), Nat.primeFactorsList_prime hp])
      (fun p q l hp hq hno hl => by
        show p :: l = (p * q).primeFactorsList
        rw [primeFactorsList_cons p q hp (by omega) hno, hl])
      (fun n p _ h => by simp [beyond] at h)
      fuel true n 0 m ho h3 (fun q hq hlt => by
        obtain ⟨k, rfl⟩ := hps.all q hq
        have := hps.strictMono.lt_iff_lt.mp hlt
        omega) hm (by omega) (by omega))
    (by simp) (fun n hn => (Nat.primeFactorsList_prime hn).symm)
    (fun k q l hq hl => by
      show _ = (2 ^ k * q).primeFactorsList
      rw [primeFactorsList_twos k q (by omega), hl])
    fuel n m hm hn hf
  exact ⟨m', by rw [e, hl], hm'⟩

/-- A factorization with all prime factors up to `L` taken out. -/
def LimitedOk (L : Nat) (n : Nat) (l : List Nat) : Prop :=
  l.prod = n ∧ ∀ f ∈ l, Nat.Prime f ∨ ∀ p, Nat.Prime p → p ≤ L → ¬ p ∣ f

/-- With a divisor limit at least `L` the factors multiply to `n`, and each is prime or has no prime factor up to `L`; this holds after any history of
calls with limits at least `L`. -/
theorem C54_naive_factorize_limited (prime : Nat → Nat) (sp : Nat → Bool) (hps : PrimeSeq prime) (hsp : ∀ n, sp n = true → Nat.Prime n)
    (L limit fuel n : Nat) (hL : L ≤ limit) (m : Memo) (hm : MemoOk (LimitedOk L) m) (hn : 1 ≤ n) (hf : n + 1 ≤ fuel) :
    ∃ l m', naiveFactorize prime sp (some limit) fuel n m = some (l, m') ∧ LimitedOk L n l ∧ MemoOk (LimitedOk L) m' := by
  have hprime : ∀ n, Nat.Prime n → LimitedOk L n [n] := fun n hn => ⟨by simp, by simp [hn]⟩
  refine naiveFactorize_spec (LimitedOk L) prime sp (some limit)
    (fun m hm fuel n ho h3 hf => factor1_spec _ prime sp (some limit) hps hsp hprime
      (fun p hp => ⟨by simp, by simp [hp]⟩)
      (fun p q l hp hq hno hl => ⟨by rw [List.prod_cons, hl.1], fun f hf => ?_⟩)
      (fun n p h2 h hno => ⟨by simp, fun f hf => ?_⟩)
      fuel true n 0 m ho h3 (fun q hq hlt => by
        obtain ⟨k, rfl⟩ := hps.all q hq
        have := hps.strictMono.lt_iff_lt.mp hlt
        omega) hm (by omega) (by omega))
    ⟨by simp, by simp⟩ hprime (fun k q l hq hl => ⟨by rw [List.prod_append, List.prod_replicate, hl.1], fun f hf => ?_⟩) fuel n m hm hn hf
  · rcases List.mem_cons.mp hf with rfl | hf
    · exact Or.inl hp
    · exact hl.2 f hf
  · right
    rw [List.mem_singleton] at hf
    subst hf
    intro r hr hle
    apply hno r hr
    simp [beyond] at h; omega
  · rcases List.mem_append.mp hf with hf | hf
    · left; rw [(List.mem_replicate.mp hf).2]; exact Nat.prime_two
    · exact hl.2 f hf

/-- But a call with a limit spoils later calls without: after `(naive-factorize 31209 10)`, `(naive-factorize 31209)` answers `(3 10403)`, although
10403 = 101 * 103.  (`prime` need only start with the first five primes.) -/
theorem C54_bug_memo_limited (prime : Nat → Nat) (h0 : prime 0 = 2) (h1 : prime 1 = 3) (h2 : prime 2 = 5) (h3 : prime 3 = 7) (h4 : prime 4 = 11)
    (sp : Nat → Bool) (hsp : ∀ n, sp n = true → Nat.Prime n) :
    ∃ m m', naiveFactorize prime sp (some 10) 10 31209 (fun _ => none) = some ([3, 10403], m) ∧
      naiveFactorize prime sp none 10 31209 m = some ([3, 10403], m') ∧ ¬ Nat.Prime 10403 := by
  have s1 : sp 31209 = false := by
    by_contra h; have := hsp _ (by simpa using h); revert this; norm_num
  have s2 : sp 10403 = false := by
    by_contra h; have := hsp _ (by simpa using h); revert this; norm_num
  have t : twosExponentFactor 31209 = 0 := by unfold twosExponentFactor; simp
  refine ⟨memoSet (fun _ => none) 15604 [3, 10403], memoSet (fun _ => none) 15604 [3, 10403], ?_, ?_, by norm_num⟩
  · simp [naiveFactorize, t, factor1, beyond, h0, h1, h2, h3, h4, s1, s2]
  · simp [naiveFactorize, t, factor1, memoSet, memoizable]

/-- `(totient n)` is Euler's function, if the factorizer answers the sorted prime factors. -/
theorem C54_totient (factors : Nat → List Nat) (hf : ∀ n, factors n = n.primeFactorsList) (n : Nat) (hn : 1 ≤ n) :
    totient factors n = Nat.totient n := by
  unfold totient
  by_cases h2 : n ≤ 2
  · rw [if_pos h2]; interval_cases n <;> simp
  · rw [if_neg h2]
    unfold twosExponent
    by_cases ht : n = 2 ^ twosExponentFactor n
    · rw [if_pos ht]; dsimp only
      have hk : twosExponentFactor n ≠ 0 := by intro h; rw [h] at ht; omega
      conv_rhs => rw [ht]
      rw [Nat.totient_prime_pow Nat.prime_two (by omega)]; simp
    · rw [if_neg ht]; dsimp only
      rw [hf]
      have hs : (n.primeFactorsList).Pairwise (· ≤ ·) := (Nat.primeFactorsList_sorted n).pairwise
      obtain ⟨g1, g2, g3, -⟩ := group_spec _ hs
      rw [foldl_totient _ (fun pk hpk => ⟨Nat.prime_of_mem_primeFactorsList (g1 pk hpk).1, (g1 pk hpk).2⟩) g2, g3,
        Nat.prod_primeFactorsList (by omega), one_mul]

/-- `(reduced-totient n)` is the Carmichael function. -/
theorem C54_reduced_totient (factors : Nat → List Nat) (hf : ∀ n, factors n = n.primeFactorsList) (n : Nat) (hn : 1 ≤ n) :
    reducedTotient factors n = ArithmeticFunction.carmichael n := by
  unfold reducedTotient
  have hc1 : ArithmeticFunction.carmichael 1 = 1 := by
    simpa using ArithmeticFunction.carmichael_two_pow_of_le_two (n := 0) (by norm_num)
  have hc2 : ArithmeticFunction.carmichael 2 = 1 := by
    simpa using ArithmeticFunction.carmichael_two_pow_of_le_two (n := 1) (by norm_num)
  have hc4 : ArithmeticFunction.carmichael 4 = 2 := by
    simpa using ArithmeticFunction.carmichael_two_pow_of_le_two (n := 2) (by norm_num)
  by_cases h12 : n = 1 ∨ n = 2
  · rw [if_pos h12]; rcases h12 with rfl | rfl
    · exact hc1.symm
    · exact hc2.symm
  rw [if_neg h12]
  by_cases h4 : n = 4
  · rw [if_pos h4, h4]; exact hc4.symm
  rw [if_neg h4]; dsimp only
  obtain ⟨he, ho⟩ := tef_div n (by omega)
  generalize twosExponentFactor n = k at he ho ⊢
  generalize n / 2 ^ k = r at he ho ⊢
  by_cases hr : r = 1 ∧ k > 2
  · rw [if_pos hr, he, hr.1, mul_one, ArithmeticFunction.carmichael_two_pow_of_ne_two (by omega)]
  · rw [if_neg hr, hf]
    have hs : (r.primeFactorsList).Pairwise (· ≤ ·) := (Nat.primeFactorsList_sorted r).pairwise
    obtain ⟨g1, g2, g3, -⟩ := group_spec _ hs
    have hr0 : r ≠ 0 := by rintro rfl; simp at ho
    have hodd : ∀ p ∈ r.primeFactorsList, p ≠ 2 := by
      intro p hp h; subst h
      have := Nat.dvd_of_mem_primeFactorsList hp
      omega
    rw [foldl_carmichael _ (fun pk hpk => ⟨Nat.prime_of_mem_primeFactorsList (g1 pk hpk).1, (g1 pk hpk).2, hodd _ (g1 pk hpk).1⟩) g2, g3,
        Nat.prod_primeFactorsList hr0, he,
        ArithmeticFunction.carmichael_mul (Nat.Coprime.pow_left k (Nat.coprime_two_left.mpr (Nat.odd_iff.mpr ho)))]
    by_cases hk : k > 2
    · rw [if_pos hk, ArithmeticFunction.carmichael_two_pow_of_ne_two (by omega)]
    · rw [if_neg hk]
      by_cases hk2 : k = 2
      · subst hk2
        have hr1 : r ≠ 1 := by rintro rfl; simp at he; exact h4 he
        rw [show (2 : Nat) ^ 2 = 4 by rfl, hc4, Nat.lcm_one_left]
        symm
        apply Nat.lcm_eq_right
        -- an odd number above 1 has an even Carmichael value
        obtain ⟨p, hp, hd⟩ := Nat.exists_prime_and_dvd hr1
        have hpc := ArithmeticFunction.carmichael_dvd hd
        have hp2 : p ≠ 2 := by rintro rfl; omega
        have := ArithmeticFunction.carmichael_pow_of_prime_ne_two 1 hp hp2
        rw [pow_one, Nat.totient_prime hp] at this
        rw [this] at hpc
        have hpo := hp.eq_two_or_odd.resolve_left hp2
        exact dvd_trans (by omega) hpc
      · have : k = 0 ∨ k = 1 := by omega
        rcases this with rfl | rfl
        · rw [pow_zero, hc1]
        · rw [pow_one, hc2]

/- Non-vacuity: the sequence of primes exists, and concrete values. -/
example : PrimeSeq (Nat.nth Nat.Prime) :=
  ⟨fun k => Nat.nth_mem_of_infinite Nat.infinite_setOf_prime k, fun k => Nat.nth_strictMono Nat.infinite_setOf_prime (by omega),
   fun p hp => ⟨_, Nat.nth_count hp⟩⟩
example : MemoOk (fun n l => l = n.primeFactorsList) (fun _ => none) := by intro i l h; cases h
example : jacobi 1001 9907 = some (-1) ∧ jacobi (-5) 21 = some 1 ∧ jacobi 6 9 = some 0 ∧ jacobi 3 8 = none := by
  simp [jacobi, jacobiLoop, twosExponentFactor]
example : (naiveFactorize (fun k => [2, 3, 5, 7, 11, 13].getD k 0) smallPrime none 30 (8 * 3 * 49 * 101) (fun _ => none)).map (·.1)
    = some [2, 2, 2, 3, 7, 7, 101] := by decide +kernel
example : totient (fun _ => [2, 2, 3, 7]) 84 = 24 ∧ reducedTotient (fun _ => [3, 7]) 84 = 6 := by decide +kernel

end Gauche.Prime

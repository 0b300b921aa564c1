import Verif.Proof.Prime
import Mathlib.Data.Nat.GCD.BigOperators
/-
Lemmas for factorization and the totients.
-/
namespace Gauche.Prime

/-- All the entries of the memo table are good factorizations, in the sense of `P`. -/
def MemoOk (P : Nat → List Nat → Prop) (m : Memo) : Prop := ∀ i l, m i = some l → P (2 * i + 1) l

theorem memoOk_set (P : Nat → List Nat → Prop) (m : Memo) (n : Nat) (l : List Nat) (hn : n % 2 = 1) (hm : MemoOk P m) (hl : P n l) :
    MemoOk P (memoSet m ((n - 1) / 2) l) := by
  unfold memoSet
  by_cases h : memoizable ((n - 1) / 2) = true
  · rw [if_pos h]
    intro i l' hi
    dsimp only at hi
    by_cases he : i = (n - 1) / 2
    · rw [if_pos he] at hi
      injection hi with hi
      subst hi
      rw [show 2 * i + 1 = n by omega]; exact hl
    · rw [if_neg he] at hi; exact hm i l' hi
  · rw [if_neg h]; exact hm

/-- The sequence of all primes in ascending order. -/
structure PrimeSeq (prime : Nat → Nat) : Prop where
  isPrime : ∀ k, Nat.Prime (prime k)
  mono : ∀ k, prime k < prime (k + 1)
  all : ∀ p, Nat.Prime p → ∃ k, prime k = p

theorem PrimeSeq.strictMono {prime : Nat → Nat} (h : PrimeSeq prime) : StrictMono prime := strictMono_nat_of_lt_succ h.mono

theorem PrimeSeq.le {prime : Nat → Nat} (h : PrimeSeq prime) (k : Nat) : k ≤ prime k := h.strictMono.le_apply

theorem PrimeSeq.next {prime : Nat → Nat} (h : PrimeSeq prime) (k q : Nat) (hq : Nat.Prime q) (hlt : q < prime (k + 1)) :
    q < prime k ∨ q = prime k := by
  obtain ⟨j, rfl⟩ := h.all q hq
  have : j < k + 1 := h.strictMono.lt_iff_lt.mp hlt
  rcases Nat.lt_or_ge j k with h1 | h1
  · exact Or.inl (h.strictMono h1)
  · rw [show j = k by omega]; exact Or.inr rfl

theorem prime_of_no_small (n p : Nat) (h2 : 2 ≤ n) (h : ∀ q, Nat.Prime q → q < p → ¬ q ∣ n) (hlt : n < p * p) : Nat.Prime n := by
  by_contra hc
  have h1 := Nat.minFac_sq_le_self (show 0 < n by omega) hc
  have h3 := Nat.minFac_prime (show n ≠ 1 by omega)
  refine h _ h3 ?_ (Nat.minFac_dvd n)
  by_contra hge
  rw [pow_two] at h1
  have := Nat.mul_le_mul (Nat.le_of_not_lt hge) (Nat.le_of_not_lt hge)
  omega

/-- The scheme common to the limited and the unlimited factorization. -/
theorem factor1_spec (P : Nat → List Nat → Prop) (prime : Nat → Nat) (sp : Nat → Bool) (limit : Option Nat) (hps : PrimeSeq prime)
    (hsp : ∀ n, sp n = true → Nat.Prime n)
    (hprime : ∀ n, Nat.Prime n → P n [n])
    (hsq : ∀ p, Nat.Prime p → P (p * p) [p, p])
    (hcons : ∀ p q l, Nat.Prime p → 2 ≤ q → (∀ r, Nat.Prime r → r < p → ¬ r ∣ q) → P q l → P (p * q) (p :: l))
    (hlim : ∀ n p, 2 ≤ n → beyond limit p = true → (∀ r, Nat.Prime r → r < p → ¬ r ∣ n) → P n [n]) :
    ∀ (fuel : Nat) (fresh : Bool) (n k : Nat) (m : Memo), n % 2 = 1 → 3 ≤ n → (∀ q, Nat.Prime q → q < prime k → ¬ q ∣ n) →
      MemoOk P m → n + 1 ≤ fuel + k → 1 ≤ fuel →
      ∃ l m', factor1 prime sp limit fuel fresh n k m = some (l, m') ∧ P n l ∧ MemoOk P m' := by
  intro fuel
  induction fuel with
  | zero => intro _ _ _ _ _ _ _ _ _ h; omega
  | succ fuel ih =>
    intro fresh n k m hodd h3 hno hm hf _
    have hloop : ∃ l m', (if beyond limit (prime k) then some ([n], m)
      else if n < prime k * prime k then some ([n], memoSet m ((n - 1) / 2) [n])
      else if n = prime k * prime k then some ([prime k, prime k], memoSet m ((n - 1) / 2) [prime k, prime k])
      else if n % prime k = 0 then
        match factor1 prime sp limit fuel true (n / prime k) k m with
        | none => none
        | some (l, m') => some (prime k :: l, memoSet m' ((n - 1) / 2) (prime k :: l))
      else factor1 prime sp limit fuel false n (k + 1) m) = some (l, m') ∧ P n l ∧ MemoOk P m' := by
      have hp := hps.isPrime k
      have hkp := hps.le k
      by_cases h1 : beyond limit (prime k) = true
      · rw [if_pos h1]; exact ⟨_, _, rfl, hlim n _ (by omega) h1 hno, hm⟩
      rw [if_neg h1]
      by_cases h2 : n < prime k * prime k
      · rw [if_pos h2]
        have := hprime n (prime_of_no_small n _ (by omega) hno h2)
        exact ⟨_, _, rfl, this, memoOk_set P m n _ hodd hm this⟩
      rw [if_neg h2]
      by_cases h4 : n = prime k * prime k
      · rw [if_pos h4]
        have : P n [prime k, prime k] := by rw [h4]; exact hsq _ hp
        exact ⟨_, _, rfl, this, memoOk_set P m n _ hodd hm this⟩
      rw [if_neg h4]
      have hlt : prime k * prime k < n := by omega
      have hp2 := hp.two_le
      have hkn : k < n := by
        have : prime k ≤ prime k * prime k := Nat.le_mul_self _
        omega
      by_cases h5 : n % prime k = 0
      · rw [if_pos h5]
        obtain ⟨q, hq⟩ := Nat.dvd_of_mod_eq_zero h5
        have hdiv : n / prime k = q := by rw [hq]; exact Nat.mul_div_cancel_left q hp.pos
        have hqp : prime k < q := by
          rw [hq] at hlt; exact Nat.lt_of_mul_lt_mul_left hlt
        have hqo : q % 2 = 1 := by
          by_contra hc
          have : prime k * q % 2 = 0 := by rw [Nat.mul_mod, show q % 2 = 0 by omega]; simp
          omega
        have hpo : prime k ≠ 2 := by
          intro h; rw [h] at hq; omega
        have hqn : q < n := by
          rw [hq]
          calc q = 1 * q := by rw [one_mul]
            _ < prime k * q := Nat.mul_lt_mul_of_pos_right (by omega) (by omega)
        have hno' : ∀ r, Nat.Prime r → r < prime k → ¬ r ∣ q := fun r hr hlt hd => hno r hr hlt (by rw [hq]; exact Dvd.dvd.mul_left hd _)
        obtain ⟨l, m', e, hl, hm'⟩ := ih true q k m hqo (by omega) hno' hm (by omega) (by omega)
        rw [hdiv, e]
        have : P n (prime k :: l) := by rw [hq]; exact hcons _ _ _ hp (by omega) hno' hl
        exact ⟨_, _, rfl, this, memoOk_set P m' n _ hodd hm' this⟩
      · rw [if_neg h5]
        refine ih false n (k + 1) m hodd h3 ?_ hm (by omega) (by omega)
        intro q hq hlt hd
        rcases hps.next k q hq hlt with h | h
        · exact hno q hq h hd
        · rw [h] at hd; exact h5 (Nat.mod_eq_zero_of_dvd hd)
    unfold factor1; dsimp only
    cases fresh with
    | false => simp only [Bool.false_eq_true, if_false]; exact hloop
    | true =>
      simp only [if_true]
      cases hmm : (if memoizable ((n - 1) / 2) = true then m ((n - 1) / 2) else none) with
      | some l =>
        dsimp only
        by_cases hmz : memoizable ((n - 1) / 2) = true
        · rw [if_pos hmz] at hmm
          have := hm _ _ hmm
          rw [show 2 * ((n - 1) / 2) + 1 = n by omega] at this
          exact ⟨_, _, rfl, this, hm⟩
        · rw [if_neg hmz] at hmm; cases hmm
      | none =>
        dsimp only
        by_cases hs : sp n = true
        · rw [if_pos hs]
          have := hprime n (hsp n hs)
          exact ⟨_, _, rfl, this, memoOk_set P m n _ hodd hm this⟩
        · rw [if_neg hs]; exact hloop

theorem primeFactorsList_cons (p q : Nat) (hp : Nat.Prime p) (hq : 1 ≤ q) (h : ∀ r, Nat.Prime r → r < p → ¬ r ∣ q) :
    (p * q).primeFactorsList = p :: q.primeFactorsList := by
  have h2 := hp.two_le
  have hpq : p ≤ p * q := Nat.le_mul_of_pos_right p hq
  obtain ⟨j, hj⟩ : ∃ j, p * q = j + 2 := ⟨p * q - 2, by omega⟩
  have hmin : (p * q).minFac = p := by
    apply le_antisymm (Nat.minFac_le_of_dvd h2 ⟨q, rfl⟩)
    by_contra hc
    have hm := Nat.minFac_prime (show p * q ≠ 1 by omega)
    rcases hm.dvd_mul.mp (Nat.minFac_dvd (p * q)) with hd | hd
    · rcases (Nat.dvd_prime hp).mp hd with h' | h'
      · exact hm.one_lt.ne' h'
      · omega
    · exact h _ hm (by omega) hd
  rw [hj, Nat.primeFactorsList_add_two, ← hj, hmin, Nat.mul_div_cancel_left q hp.pos]

theorem primeFactorsList_twos (k q : Nat) (hq : 1 ≤ q) : (2 ^ k * q).primeFactorsList = List.replicate k 2 ++ q.primeFactorsList := by
  induction k with
  | zero => simp
  | succ k ih =>
    rw [pow_succ', mul_assoc, primeFactorsList_cons 2 _ Nat.prime_two (by have : 0 < 2 ^ k * q := by positivity
                                                                          omega), ih]
    · rfl
    · intro r hr hlt; have := hr.two_le; omega

/-- Lifting of a factorization of the odd part. -/
theorem naiveFactorize_spec (P : Nat → List Nat → Prop) (prime : Nat → Nat) (sp : Nat → Bool) (limit : Option Nat)
    (h1 : ∀ m, MemoOk P m → ∀ fuel n, n % 2 = 1 → 3 ≤ n → n + 1 ≤ fuel → ∃ l m', factor1 prime sp limit fuel true n 0 m = some (l, m') ∧
      P n l ∧ MemoOk P m')
    (hone : P 1 []) (hprime : ∀ n, Nat.Prime n → P n [n])
    (htwos : ∀ k q l, q % 2 = 1 → P q l → P (2 ^ k * q) (List.replicate k 2 ++ l))
    (fuel n : Nat) (m : Memo) (hm : MemoOk P m) (hn : 1 ≤ n) (hf : n + 1 ≤ fuel) :
    ∃ l m', naiveFactorize prime sp limit fuel n m = some (l, m') ∧ P n l ∧ MemoOk P m' := by
  unfold naiveFactorize
  by_cases e1 : n = 1
  · subst e1; exact ⟨_, _, rfl, hone, hm⟩
  rw [if_neg e1]
  by_cases e3 : n ≤ 3
  · rw [if_pos e3]
    refine ⟨_, _, rfl, hprime n ?_, hm⟩
    interval_cases n
    · exact absurd rfl e1
    · exact Nat.prime_two
    · exact Nat.prime_three
  rw [if_neg e3]; dsimp only
  obtain ⟨he, ho⟩ := tef_div n (by omega)
  set k := twosExponentFactor n
  by_cases hk : k = 0
  · rw [if_pos hk]
    rw [hk] at ho
    exact h1 m hm fuel n (by simpa using ho) (by omega) hf
  rw [if_neg hk]
  have hqn : n / 2 ^ k ≤ n := Nat.div_le_self _ _
  generalize n / 2 ^ k = q at he ho hqn ⊢
  by_cases hq1 : q = 1
  · rw [if_pos hq1]
    have : P n (List.replicate k 2) := by
      have := htwos k 1 [] rfl hone
      rw [he, hq1]; simpa using this
    exact ⟨_, _, rfl, this, hm⟩
  rw [if_neg hq1]
  by_cases hq3 : q ≤ 3
  · rw [if_pos hq3]
    have : q = 3 := by clear he; omega
    refine ⟨_, _, rfl, ?_, hm⟩
    rw [he]
    apply htwos k q [q] ho
    rw [this]; exact hprime 3 Nat.prime_three
  rw [if_neg hq3]
  obtain ⟨l, m', e, hl, hm'⟩ := h1 m hm fuel q ho (Nat.le_of_lt (Nat.lt_of_not_le hq3)) (le_trans (Nat.succ_le_succ hqn) hf)
  rw [e]
  refine ⟨_, _, rfl, ?_, hm'⟩
  rw [he]; exact htwos k q l ho hl

/- ### Totients -/

/-- What `group` does to a sorted list. -/
theorem group_spec (l : List Nat) (hs : l.Pairwise (· ≤ ·)) :
    (∀ pk ∈ group l, pk.1 ∈ l ∧ 1 ≤ pk.2) ∧ (group l).Pairwise (fun a b => a.1 < b.1) ∧ ((group l).map fun pk => pk.1 ^ pk.2).prod = l.prod ∧
      (∀ p t, l = p :: t → ∃ k r, group l = (p, k) :: r) := by
  induction l with
  | nil => simp [group]
  | cons p l ih =>
    obtain ⟨hmin, hs'⟩ := List.pairwise_cons.mp hs
    obtain ⟨i1, i2, i3, i4⟩ := ih hs'
    unfold group
    cases hl : l with
    | nil => simp [group]
    | cons q t =>
      obtain ⟨k, r, hg⟩ := i4 q t hl
      rw [← hl, hg]; dsimp only
      rw [hg] at i1 i2 i3
      have hpq : p ≤ q := hmin q (by simp [hl])
      obtain ⟨j1, j2⟩ := List.pairwise_cons.mp i2
      have i1q := i1 (q, k) (by simp)
      by_cases h : p = q
      · rw [if_pos h]
        refine ⟨?_, ?_, ?_, ?_⟩
        · intro pk hpk
          rcases List.mem_cons.mp hpk with rfl | hpk
          · exact ⟨by simp [h], by simp⟩
          · have := i1 pk (by simp [hpk]); exact ⟨by simp [this.1], this.2⟩
        · exact List.pairwise_cons.mpr ⟨j1, j2⟩
        · rw [List.prod_cons, ← i3]; simp [h, pow_succ]; ring
        · intro p' t' e; injection e with e1 e2; subst e1; exact ⟨_, _, by rw [h]⟩
      · rw [if_neg h]
        refine ⟨?_, ?_, ?_, ?_⟩
        · intro pk hpk
          rcases List.mem_cons.mp hpk with rfl | hpk
          · exact ⟨by simp, by simp⟩
          · have := i1 pk hpk; exact ⟨by simp [this.1], this.2⟩
        · refine List.pairwise_cons.mpr ⟨?_, i2⟩
          intro b hb
          rcases List.mem_cons.mp hb with rfl | hb
          · show p < q; omega
          · have := j1 b hb; show p < b.1; dsimp only at this; omega
        · rw [List.prod_cons, ← i3]; simp
        · intro p' t' e; injection e with e1 e2; subst e1; exact ⟨_, _, rfl⟩

theorem coprime_rest (p k : Nat) (r : List (Nat × Nat)) (hp : Nat.Prime p) (hr : ∀ b ∈ r, Nat.Prime b.1 ∧ p < b.1) :
    Nat.Coprime (p ^ k) ((r.map fun pk => pk.1 ^ pk.2).prod) := by
  apply Nat.Coprime.pow_left
  rw [Nat.coprime_list_prod_right_iff]
  intro x hx
  obtain ⟨b, hb, rfl⟩ := List.mem_map.mp hx
  apply Nat.Coprime.pow_right
  rw [Nat.coprime_primes hp (hr b hb).1]
  have := (hr b hb).2; omega

theorem foldl_totient (g : List (Nat × Nat)) (hp : ∀ pk ∈ g, Nat.Prime pk.1 ∧ 1 ≤ pk.2) (hs : g.Pairwise (fun a b => a.1 < b.1)) (acc : Nat) :
    g.foldl (fun phi pk => phi * pk.1 ^ (pk.2 - 1) * (pk.1 - 1)) acc = acc * Nat.totient ((g.map fun pk => pk.1 ^ pk.2).prod) := by
  induction g generalizing acc with
  | nil => simp
  | cons pk g ih =>
    obtain ⟨a, b⟩ := hp pk (by simp)
    obtain ⟨s1, s2⟩ := List.pairwise_cons.mp hs
    rw [List.foldl_cons, ih (fun x hx => hp x (by simp [hx])) s2, List.map_cons, List.prod_cons,
      Nat.totient_mul (coprime_rest _ _ _ a (fun x hx => ⟨(hp x (by simp [hx])).1, s1 x hx⟩)), Nat.totient_prime_pow a (by omega)]
    ring

theorem foldl_carmichael (g : List (Nat × Nat)) (hp : ∀ pk ∈ g, Nat.Prime pk.1 ∧ 1 ≤ pk.2 ∧ pk.1 ≠ 2) (hs : g.Pairwise (fun a b => a.1 < b.1))
    (acc : Nat) :
    g.foldl (fun l pk => Nat.lcm l (pk.1 ^ (pk.2 - 1) * (pk.1 - 1))) acc =
      Nat.lcm acc (ArithmeticFunction.carmichael ((g.map fun pk => pk.1 ^ pk.2).prod)) := by
  induction g generalizing acc with
  | nil =>
    have : ArithmeticFunction.carmichael 1 = 1 := by
      have := ArithmeticFunction.carmichael_two_pow_of_le_two (n := 0) (by norm_num); simpa using this
    simp [this]
  | cons pk g ih =>
    obtain ⟨a, b, c⟩ := hp pk (by simp)
    obtain ⟨s1, s2⟩ := List.pairwise_cons.mp hs
    rw [List.foldl_cons, ih (fun x hx => hp x (by simp [hx])) s2, List.map_cons, List.prod_cons,
      ArithmeticFunction.carmichael_mul (coprime_rest _ _ _ a (fun x hx => ⟨(hp x (by simp [hx])).1, s1 x hx⟩)),
      ArithmeticFunction.carmichael_pow_of_prime_ne_two _ a c, Nat.totient_prime_pow a (by omega), Nat.lcm_assoc]

end Gauche.Prime

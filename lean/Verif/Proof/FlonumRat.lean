import Verif.Proof.FlonumStart
/-
Ratios of integers to doubles: `ratToDouble` rounds correctly from `2^-1022` on.
-/
namespace Gauche.Flonum
open Gauche.Spec

theorem lowest1_spec : ∀ fuel n, 0 < n → n < fuel → ∃ l N : Nat, lowest1 fuel n = (l : Int) ∧ n = N * 2 ^ l ∧ N % 2 = 1
  | 0, _, _, h => absurd h (Nat.not_lt_zero _)
  | fuel + 1, n, h0, hf => by
    unfold lowest1
    rw [if_neg (by omega)]
    by_cases h1 : n % 2 = 1
    · rw [if_pos h1]
      exact ⟨0, n, rfl, by simp, h1⟩
    · rw [if_neg h1]
      obtain ⟨l, N, e1, e2, e3⟩ := lowest1_spec fuel (n / 2) (by omega) (by omega)
      refine ⟨l + 1, N, by rw [e1]; push_cast; ring, ?_, e3⟩
      have : n = n / 2 * 2 := by omega
      rw [this, e2, pow_succ]
      ring

/-- A number that `double_precision` accepts has 53 significant bits. -/
theorem doublePrecision_spec {n : Nat} (hn : 0 < n) (h : doublePrecision n = true) :
    ∃ l N : Nat, n = N * 2 ^ l ∧ 0 < N ∧ N < 2 ^ 53 ∧ Nat.log2 n - 52 ≤ l := by
  obtain ⟨l, N, e1, e2, e3⟩ := lowest1_spec (n + 1) n hn (by omega)
  unfold doublePrecision at h
  rw [decide_eq_true_eq, e1] at h
  unfold highest1 at h
  rw [if_neg (by omega)] at h
  refine ⟨l, N, e2, by omega, ?_, by omega⟩
  refine Classical.byContradiction fun hc => ?_
  have h2 : 2 ^ (53 + l) ≤ n := by
    rw [pow_add]; conv => rhs; rw [e2]
    exact Nat.mul_le_mul_right _ (by omega)
  have h3 : 53 + l ≤ Nat.log2 n := (Nat.le_log2 (by omega)).2 h2
  omega

theorem exact_double {n : Nat} (hn : 0 < n) (h : doublePrecision n = true) {m : Nat} {k : Int} (hd : intToDouble n = .fin m k) :
    dval m k = n := by
  obtain ⟨l, N, e, h0, hN, _⟩ := doublePrecision_spec hn h
  obtain ⟨M, K, hc, hv⟩ := small_double hN
  have hK : 2 ^ 52 ≤ M := by
    rcases hc.2.2.2 with g | g
    · exact g
    · exfalso
      subst g
      unfold dval at hv
      have h1 : (1 : ℚ) ≤ N := by exact_mod_cast h0
      have h2 : (M : ℚ) ≤ 2 ^ 53 := by exact_mod_cast hc.1.le
      have h3 : (2 : ℚ) ^ (-1074 : Int) * 2 ^ 53 < 1 := by
        rw [← zpow_natCast, ← zpow_add₀ (by norm_num)]
        exact zpow_lt_one_of_neg₀ (by norm_num) (by norm_num)
      have := two_pos (-1074)
      nlinarith
  have hcu : CanonU M (K + l) := ⟨hc.1, by have := hc.2.1; omega, Or.inl hK⟩
  have hv' : dval M (K + l) = n := by
    have : dval M (K + l) = dval M K * 2 ^ l := by unfold dval; rw [zpow_add₀ (by norm_num), zpow_natCast]; ring
    rw [this, hv, e]; push_cast; rfl
  have hr := intToDouble_spec n
  rw [hd, ← hv'] at hr
  have := rounds_fin_RU (dval_nonneg _ _) hr (RU_self hcu)
  injection this with a b
  rw [a, b, hv']

/-- The short way is one rounding. -/
theorem fdivD_spec {m m' : Nat} {k k' : Int} (hm : 0 < m') : Rounds (dval m k / dval m' k') (fdivD (.fin m k) (.fin m' k')) := by
  unfold fdivD
  have h2 : (m' : ℚ) ≠ 0 := by positivity
  by_cases h : k < k'
  · simp only [h, if_true]
    have := rnd_spec m (m' * 2 ^ (k' - k).toNat) (by positivity)
    convert this using 1
    unfold dval
    push_cast
    rw [← zpow_natCast, show ((k' - k).toNat : Int) = k' - k by omega, zpow_sub₀ (by norm_num)]
    have := (two_pos k).ne'
    have := (two_pos k').ne'
    field_simp
  · simp only [h, if_false]
    have := rnd_spec (m * 2 ^ (k - k').toNat) m' hm
    convert this using 1
    unfold dval
    push_cast
    rw [← zpow_natCast, show ((k - k').toNat : Int) = k - k' by omega, zpow_sub₀ (by norm_num)]
    have := (two_pos k).ne'
    have := (two_pos k').ne'
    field_simp

/-- Scaling by a power of two commutes with rounding as long as the result is not subnormal. -/
theorem RU_scale {x : ℚ} {M : Nat} {K : Int} (h : RU x M K) (hM : 2 ^ 52 ≤ M) (hK : -1074 < K) {s : Nat} (hs : -1074 ≤ K - s) :
    RU (x * 2 ^ (-(s : Int))) M (K - s) := by
  obtain ⟨hc, hu, hl⟩ := h
  have hp := two_pos (-(s : Int))
  have hv : dval M (K - s) = dval M K * 2 ^ (-(s : Int)) := by
    unfold dval; rw [sub_eq_add_neg, zpow_add₀ (by norm_num)]; ring
  have hk : (2 : ℚ) ^ (K - s) = 2 ^ K * 2 ^ (-(s : Int)) := by rw [sub_eq_add_neg, zpow_add₀ (by norm_num)]
  refine ⟨⟨hc.1, hs, Or.inl hM⟩, ?_, ?_⟩
  · rw [hv, hk]
    rcases hu with g | ⟨g, g'⟩
    · left; nlinarith
    · right; exact ⟨by rw [g]; ring, g'⟩
  · have hlow : low M K * 2 ^ (-(s : Int)) ≤ low M (K - s) := by
      unfold low
      by_cases hm : M = 2 ^ 52
      · rw [if_pos ⟨hm, hK⟩]
        by_cases hk' : -1074 < K - s
        · rw [if_pos ⟨hm, hk'⟩, hk]; linarith
        · rw [if_neg (fun h => hk' h.2), hk]
          have := two_pos K
          nlinarith [mul_pos this hp]
      · rw [if_neg (fun h => hm h.1), if_neg (fun h => hm h.1), hk]
    rw [hv]
    rcases hl with g | ⟨g, g'⟩
    · left; nlinarith
    · rcases eq_or_lt_of_le hlow with q | q
      · right; refine ⟨?_, g'⟩; rw [g, ← q]; ring
      · left; rw [g]; nlinarith

/-- The last step of the long way: a number that rounds to the same as the quotient is converted and scaled back. -/
theorem ldexp_back {x : ℚ} {q M : Nat} {K : Int} {s : Nat} (hx : RU x M K) (hq : RU (q : ℚ) M K) (hM : 2 ^ 52 ≤ M) (hK : -1074 < K)
    (hs : -1074 ≤ K - s) (hs0 : 971 < K → s = 0) : Rounds (x * 2 ^ (-(s : Int))) (ldexp (intToDouble q) (-(s : Int))) := by
  have e : intToDouble q = clip M K := rounds_unique (by positivity) (intToDouble_spec q) (rounds_clip hq)
  rw [e]
  by_cases h : 971 < K
  · have := hs0 h
    subst this
    unfold clip
    rw [if_pos h]
    have := rounds_inf hx h
    simpa [ldexp] using this
  · unfold clip
    rw [if_neg h]
    have h1 := RU_scale hx hM hK hs
    have h2 := ldexp_spec M K (-(s : Int))
    have hv : dval M K * 2 ^ (-(s : Int)) = dval M (K - s) := by
      unfold dval; rw [sub_eq_add_neg, zpow_add₀ (by norm_num)]; ring
    rw [hv] at h2
    have h3 : Rounds (dval M (K - s)) (clip M (K - s)) := rounds_clip (RU_self h1.1)
    rw [rounds_unique (dval_nonneg _ _) h2 h3]
    exact rounds_clip h1

/-- The number that is converted to a double in the long way. -/
def adjusted (quo rem : Nat) : Nat :=
  if doublePrecision quo then quo
  else if quo / 2 ^ (Nat.log2 quo - 53) % 2 = 0 then quo
  else if rem ≠ 0 ∨ quo % 2 ^ (Nat.log2 quo - 53) ≠ 0 then quo + 2 ^ (Nat.log2 quo - 53)
  else if quo / 2 ^ (Nat.log2 quo - 52) % 2 = 0 then quo - 2 ^ (Nat.log2 quo - 53)
  else quo

theorem RU_units {n r q K : Nat} (hn : n < 2 ^ 53) (hnk : 2 ^ 52 ≤ n) (hr : r < q) (x : ℚ) (hx : x = ((n : ℚ) + (r : ℚ) / q) * 2 ^ K) :
    RU x (roundUp n r q K).1 (roundUp n r q K).2 := by
  have := roundUp_RU (k := (K : Int)) hn (by omega) (Or.inl hnk) hr
  rw [zpow_natCast] at this
  rw [hx]; exact this

theorem roundUp_down {n r q : Nat} {k : Int} (h : 2 * r < q) : roundUp n r q k = (n, k) := by
  unfold roundUp; rw [if_neg (by omega)]

/-- What is converted rounds to the same double as the exact quotient. -/
theorem adjusted_spec {quo rem d : Nat} (hr : rem < d) (h53 : 2 ^ 53 ≤ quo) :
    ∃ M, ∃ K : Int, RU ((quo : ℚ) + (rem : ℚ) / d) M K ∧ RU (adjusted quo rem : ℚ) M K ∧ 2 ^ 52 ≤ M ∧
      ((Nat.log2 quo : Int) - 52 = K ∨ (Nat.log2 quo : Int) - 51 = K) := by
  have hd : 0 < d := by omega
  have hq0 : quo ≠ 0 := by omega
  have hlo := Nat.log2_self_le hq0
  have hhi : quo < 2 ^ (Nat.log2 quo + 1) := Nat.lt_log2_self
  have hh : 53 ≤ Nat.log2 quo := (Nat.le_log2 hq0).2 h53
  have hdp : doublePrecision quo = true → quo % 2 ^ (Nat.log2 quo - 52) = 0 := by
    intro h
    obtain ⟨l, N, e, _, _, hl⟩ := doublePrecision_spec (by omega) h
    refine Nat.mod_eq_zero_of_dvd ?_
    conv => rhs; rw [e]
    exact Dvd.dvd.mul_left (pow_dvd_pow 2 hl) N
  unfold adjusted
  revert hdp hlo hhi
  obtain ⟨j, hj⟩ : ∃ j, Nat.log2 quo = 53 + j := ⟨Nat.log2 quo - 53, by omega⟩
  rw [hj, show 53 + j - 53 = j by omega, show 53 + j - 52 = j + 1 by omega]
  intro hlo hhi hdp
  have hP : 0 < 2 ^ j := by positivity
  have hu : 2 ^ (j + 1) = 2 * 2 ^ j := by rw [pow_succ]; ring
  have ht : quo % 2 ^ (j + 1) < 2 ^ (j + 1) := Nat.mod_lt _ (by positivity)
  have hdm := Nat.div_add_mod quo (2 ^ (j + 1))
  have hN1 : 2 ^ 52 ≤ quo / 2 ^ (j + 1) := by
    rw [Nat.le_div_iff_mul_le (by positivity), ← pow_add]
    rw [show 52 + (j + 1) = 53 + j by omega]; exact hlo
  have hN2 : quo / 2 ^ (j + 1) < 2 ^ 53 := by
    rw [Nat.div_lt_iff_lt_mul (by positivity), ← pow_add]
    rw [show 53 + (j + 1) = 53 + j + 1 by omega]; exact hhi
  have hbit : quo / 2 ^ j % 2 = if quo % 2 ^ (j + 1) < 2 ^ j then 0 else 1 := by
    have h1 : quo / 2 ^ j % 2 = quo % 2 ^ (j + 1) / 2 ^ j := by
      rw [pow_succ, Nat.mod_mul_right_div_self]
    rw [h1]
    by_cases h : quo % 2 ^ (j + 1) < 2 ^ j
    · rw [if_pos h, Nat.div_eq_of_lt h]
    · rw [if_neg h]
      rw [Nat.div_eq_iff hP]
      omega
  have hmod : quo % 2 ^ j = if quo % 2 ^ (j + 1) < 2 ^ j then quo % 2 ^ (j + 1) else quo % 2 ^ (j + 1) - 2 ^ j := by
    have h1 : quo % 2 ^ j = quo % 2 ^ (j + 1) % 2 ^ j := by
      rw [Nat.mod_mod_of_dvd]; exact pow_dvd_pow 2 (by omega)
    rw [h1]
    by_cases h : quo % 2 ^ (j + 1) < 2 ^ j
    · rw [if_pos h, Nat.mod_eq_of_lt h]
    · rw [if_neg h, Nat.mod_eq_sub_mod (by omega), Nat.mod_eq_of_lt (by omega)]
  rw [hbit, hmod]
  generalize hNn : quo / 2 ^ (j + 1) = N at *
  generalize htt : quo % 2 ^ (j + 1) = t at *
  have hquo : (quo : ℚ) = (N : ℚ) * 2 ^ (j + 1) + t := by
    have : quo = N * 2 ^ (j + 1) + t := by rw [← hdm]; ring
    exact_mod_cast this
  -- the exact quotient
  have hrq : t * d + rem < 2 ^ (j + 1) * d := by
    have : t + 1 ≤ 2 ^ (j + 1) := ht
    nlinarith
  have hpj : (0 : ℚ) < 2 ^ (j + 1) := by positivity
  have hdq : (0 : ℚ) < d := by exact_mod_cast hd
  have hX : RU ((quo : ℚ) + (rem : ℚ) / d) (roundUp N (t * d + rem) (2 ^ (j + 1) * d) ((j + 1 : Nat) : Int)).1
      (roundUp N (t * d + rem) (2 ^ (j + 1) * d) ((j + 1 : Nat) : Int)).2 := by
    refine RU_units hN2 hN1 hrq _ ?_
    rw [hquo]
    push_cast
    field_simp
    ring
  have hQ : RU (quo : ℚ) (roundUp N t (2 ^ (j + 1)) ((j + 1 : Nat) : Int)).1 (roundUp N t (2 ^ (j + 1)) ((j + 1 : Nat) : Int)).2 := by
    refine RU_units hN2 hN1 ht _ ?_
    rw [hquo]
    push_cast
    field_simp
  have hMbd : ∀ r q, 2 ^ 52 ≤ (roundUp N r q ((j + 1 : Nat) : Int)).1 ∧
      (((53 + j : Nat) : Int) - 52 = (roundUp N r q ((j + 1 : Nat) : Int)).2 ∨ ((53 + j : Nat) : Int) - 51 = (roundUp N r q ((j + 1 : Nat) : Int)).2) := by
    intro r q
    unfold roundUp
    by_cases h : q < 2 * r ∨ (2 * r = q ∧ N % 2 = 1)
    · rw [if_pos h]
      by_cases h2 : N + 1 = 2 ^ 53
      · rw [if_pos h2]; exact ⟨le_refl _, Or.inr (by push_cast; ring)⟩
      · rw [if_neg h2]; exact ⟨by simp only []; omega, Or.inl (by push_cast; ring)⟩
    · rw [if_neg h]; exact ⟨hN1, Or.inl (by push_cast; ring)⟩
  refine ⟨_, _, hX, ?_, (hMbd _ _).1, (hMbd _ _).2⟩
  by_cases hA : t < 2 ^ j
  · have e1 : roundUp N (t * d + rem) (2 ^ (j + 1) * d) ((j + 1 : Nat) : Int) = (N, ((j + 1 : Nat) : Int)) := by
      refine roundUp_down ?_
      have : t + 1 ≤ 2 ^ j := hA
      rw [hu]; nlinarith
    have e2 : roundUp N t (2 ^ (j + 1)) ((j + 1 : Nat) : Int) = (N, ((j + 1 : Nat) : Int)) := roundUp_down (by omega)
    rw [if_pos hA]
    simp only [if_true]
    rw [e1]; rw [e2] at hQ
    simpa using hQ
  · have hnd : doublePrecision quo = false := by
      cases hq : doublePrecision quo with
      | false => rfl
      | true => have := hdp hq; omega
    rw [if_neg hA, hnd, if_neg hA]
    simp only [Bool.false_eq_true, if_false, one_ne_zero]
    by_cases hB : rem ≠ 0 ∨ t - 2 ^ j ≠ 0
    · rw [if_pos hB]
      have hgt : 2 ^ (j + 1) * d < 2 * (t * d + rem) := by
        rw [hu]
        rcases Nat.lt_or_ge (2 ^ j) t with g | g
        · have : 2 ^ j + 1 ≤ t := g
          nlinarith
        · have : t = 2 ^ j := by omega
          have h1 : 0 < rem := by omega
          rw [this]; nlinarith
      have e1 : roundUp N (t * d + rem) (2 ^ (j + 1) * d) ((j + 1 : Nat) : Int) =
          if N + 1 = 2 ^ 53 then (2 ^ 52, ((j + 1 : Nat) : Int) + 1) else (N + 1, ((j + 1 : Nat) : Int)) := by
        unfold roundUp; rw [if_pos (Or.inl hgt)]
      rw [e1]
      have hsum : ((quo + 2 ^ j : Nat) : ℚ) = ((N : ℚ) + 1) * 2 ^ (j + 1) + ((t - 2 ^ j : Nat) : ℚ) := by
        rw [Nat.cast_add, hquo, Nat.cast_sub (by omega)]
        push_cast
        rw [pow_succ]; ring
      by_cases hc : N + 1 = 2 ^ 53
      · rw [if_pos hc]
        have e2 : roundUp (2 ^ 52) (t - 2 ^ j) (2 ^ (j + 2)) ((j + 2 : Nat) : Int) = (2 ^ 52, ((j + 2 : Nat) : Int)) :=
          roundUp_down (by rw [pow_succ]; omega)
        have := RU_units (n := 2 ^ 52) (r := t - 2 ^ j) (q := 2 ^ (j + 2)) (K := j + 2) (by norm_num) (le_refl _) (by rw [pow_succ]; omega)
          ((quo + 2 ^ j : Nat) : ℚ) (by
            rw [hsum]
            have : (N : ℚ) + 1 = 2 ^ 53 := by exact_mod_cast hc
            rw [this]
            push_cast
            rw [show (2 : ℚ) ^ (j + 2) = 2 * 2 ^ (j + 1) by rw [pow_succ (2 : ℚ) (j + 1)]; ring]
            field_simp
            ring)
        rw [e2] at this
        convert this using 1
        push_cast
        ring
      · rw [if_neg hc]
        have e2 : roundUp (N + 1) (t - 2 ^ j) (2 ^ (j + 1)) ((j + 1 : Nat) : Int) = (N + 1, ((j + 1 : Nat) : Int)) :=
          roundUp_down (by omega)
        have := RU_units (n := N + 1) (r := t - 2 ^ j) (q := 2 ^ (j + 1)) (K := j + 1) (by omega) (by omega) (by omega)
          ((quo + 2 ^ j : Nat) : ℚ) (by
            rw [hsum]
            push_cast
            field_simp)
        rw [e2] at this
        exact this
    · rw [if_neg hB]
      have h0 : rem = 0 ∧ t = 2 ^ j := by omega
      obtain ⟨rfl, rfl⟩ := h0
      have e0 : roundUp N (2 ^ j * d + 0) (2 ^ (j + 1) * d) ((j + 1 : Nat) : Int) = roundUp N (2 ^ j) (2 ^ (j + 1)) ((j + 1 : Nat) : Int) := by
        have hn : ¬ 2 ^ (j + 1) * d < 2 * (2 ^ j * d + 0) := by rw [hu]; nlinarith
        have he : 2 * (2 ^ j * d + 0) = 2 ^ (j + 1) * d := by rw [hu]; ring
        unfold roundUp
        simp only [hn, he, hu, lt_irrefl, false_or, true_and]
      rw [e0]
      by_cases hE : N % 2 = 0
      · rw [if_pos hE]
        have e1 : roundUp N (2 ^ j) (2 ^ (j + 1)) ((j + 1 : Nat) : Int) = (N, ((j + 1 : Nat) : Int)) := by
          unfold roundUp; rw [if_neg (by omega)]
        rw [e1]
        have := RU_units (n := N) (r := 0) (q := 2 ^ (j + 1)) (K := j + 1) hN2 hN1 (by positivity) ((quo - 2 ^ j : Nat) : ℚ) (by
          rw [Nat.cast_sub (by omega), hquo]
          push_cast
          simp)
        rw [roundUp_down (by positivity)] at this
        exact this
      · rw [if_neg hE]
        exact hQ

theorem fullpath_eq {n d : Nat} (h : (54 - (highest1 n - highest1 d)).toNat ≤ 1077) : ∃ s, s = (54 - (highest1 n - highest1 d)).toNat ∧
    fullpath n d = ldexp (intToDouble (adjusted (n * 2 ^ s / d) (n * 2 ^ s % d))) (-(s : Int)) := by
  refine ⟨_, rfl, ?_⟩
  have e : (if highest1 n - highest1 d < 54 then (54 - (highest1 n - highest1 d)).toNat else 0) = (54 - (highest1 n - highest1 d)).toNat := by
    by_cases g : highest1 n - highest1 d < 54
    · rw [if_pos g]
    · rw [if_neg g]; omega
  unfold fullpath adjusted
  simp only [e]
  generalize (54 - (highest1 n - highest1 d)).toNat = s at h ⊢
  have e2 : (if s > 1076 then n * 2 ^ s / d / 2 ^ (s - 1077) * 2 ^ (s - 1077) else n * 2 ^ s / d) = n * 2 ^ s / d := by
    by_cases g : s > 1076
    · rw [if_pos g, show s - 1077 = 0 by omega]; simp
    · rw [if_neg g]
  simp only [e2]
  generalize n * 2 ^ s / d = q
  generalize n * 2 ^ s % d = r
  by_cases h1 : doublePrecision q = true
  · simp only [h1, if_true]
  · simp only [h1, if_false]
    by_cases h2 : q / 2 ^ (Nat.log2 q - 53) % 2 = 0
    · simp only [h2, if_true, Bool.false_eq_true, if_false]
    · simp only [h2, if_false, Bool.false_eq_true]
      by_cases h3 : r ≠ 0 ∨ q % 2 ^ (Nat.log2 q - 53) ≠ 0
      · rw [if_pos h3, if_pos h3]
      · rw [if_neg h3, if_neg h3]
        by_cases h4 : q / 2 ^ (Nat.log2 q - 52) % 2 = 0
        · rw [if_pos h4, if_pos h4]
        · rw [if_neg h4, if_neg h4]

theorem fullpath_spec {n d : Nat} (hn : 0 < n) (hd : 0 < d) (hx : (2 : ℚ) ^ (-1022 : Int) ≤ (n : ℚ) / d) : Rounds ((n : ℚ) / d) (fullpath n d) := by
  obtain ⟨b1, b2⟩ := quot_bounds hn hd
  have hnd : highest1 n - highest1 d = (Nat.log2 n : Int) - Nat.log2 d := by
    unfold highest1; rw [if_neg (by omega), if_neg (by omega)]
  rw [← hnd] at b1 b2
  have hge : -1022 ≤ highest1 n - highest1 d := by
    have := (zpow_lt_zpow_iff_right₀ (a := (2 : ℚ)) (by norm_num)).1 (lt_of_le_of_lt hx b2)
    omega
  obtain ⟨s, hs, he⟩ := fullpath_eq (n := n) (d := d) (by omega)
  rw [he]
  generalize highest1 n - highest1 d = nd at *
  have hdq : (0 : ℚ) < d := by exact_mod_cast hd
  have hp2 : (0 : ℚ) < 2 ^ s := by positivity
  have hxs : (n : ℚ) / d * 2 ^ s = ((n * 2 ^ s / d : Nat) : ℚ) + ((n * 2 ^ s % d : Nat) : ℚ) / d := by
    have h := Nat.div_add_mod (n * 2 ^ s) d
    have h' : (d : ℚ) * ((n * 2 ^ s / d : Nat) : ℚ) + ((n * 2 ^ s % d : Nat) : ℚ) = (n : ℚ) * 2 ^ s := by exact_mod_cast h
    field_simp
    linarith
  have hr : n * 2 ^ s % d < d := Nat.mod_lt _ hd
  have hquo : 2 ^ 53 ≤ n * 2 ^ s / d := by
    rw [Nat.le_div_iff_mul_le hd]
    have h1 : (2 : ℚ) ^ 53 ≤ (n : ℚ) / d * 2 ^ s := by
      have h2 : (2 : ℚ) ^ 53 ≤ 2 ^ (nd - 1) * 2 ^ s := by
        rw [← zpow_natCast, ← zpow_natCast, ← zpow_add₀ (by norm_num)]
        exact zpow_le_zpow_right₀ (by norm_num) (by push_cast; omega)
      nlinarith
    have h3 : (2 : ℚ) ^ 53 * d ≤ n * 2 ^ s := by
      rw [div_mul_eq_mul_div, le_div_iff₀ hdq] at h1; exact h1
    exact_mod_cast h3
  obtain ⟨M, K, hX, hQ, hM, hK⟩ := adjusted_spec (d := d) hr hquo
  rw [← hxs] at hX
  have hq0 : 0 < n * 2 ^ s / d := lt_of_lt_of_le (by positivity) hquo
  obtain ⟨l1, l2⟩ := log2_bounds hq0
  have hh : 53 ≤ Nat.log2 (n * 2 ^ s / d) := (Nat.le_log2 (by omega)).2 hquo
  have hlt : (n : ℚ) / d * 2 ^ s < 2 ^ ((Nat.log2 (n * 2 ^ s / d) : Int) + 1) := by
    have hn1 : n * 2 ^ s < d * (n * 2 ^ s / d + 1) := Nat.lt_mul_div_succ _ hd
    have hle : n * 2 ^ s / d + 1 ≤ 2 ^ (Nat.log2 (n * 2 ^ s / d) + 1) := Nat.lt_log2_self
    have h1 : n * 2 ^ s < d * 2 ^ (Nat.log2 (n * 2 ^ s / d) + 1) := lt_of_lt_of_le hn1 (Nat.mul_le_mul_left _ hle)
    have h2 : (n : ℚ) * 2 ^ s < d * 2 ^ (Nat.log2 (n * 2 ^ s / d) + 1) := by exact_mod_cast h1
    rw [div_mul_eq_mul_div, div_lt_iff₀ hdq]
    calc (n : ℚ) * 2 ^ s < d * 2 ^ (Nat.log2 (n * 2 ^ s / d) + 1) := h2
      _ = _ := by rw [← zpow_natCast]; push_cast; ring
  have hge2 : ((Nat.log2 (n * 2 ^ s / d) : Int)) ≤ nd + s := by
    have h1 : ((n * 2 ^ s / d : Nat) : ℚ) ≤ (n : ℚ) / d * 2 ^ s := by
      rw [hxs]
      have : (0 : ℚ) ≤ ((n * 2 ^ s % d : Nat) : ℚ) / d := by positivity
      linarith
    have h2 : (n : ℚ) / d * 2 ^ s < 2 ^ (nd + 1 + s) := by
      rw [zpow_add₀ (by norm_num) (nd + 1), zpow_natCast]
      nlinarith
    have := (zpow_lt_zpow_iff_right₀ (a := (2 : ℚ)) (by norm_num)).1 (lt_of_le_of_lt (le_trans l1 h1) h2)
    omega
  have hlow : -1022 ≤ (Nat.log2 (n * 2 ^ s / d) : Int) - s := by
    have h1 : (2 : ℚ) ^ (-1022 + (s : Int)) ≤ (n : ℚ) / d * 2 ^ s := by
      rw [zpow_add₀ (by norm_num), zpow_natCast]; nlinarith
    have := (zpow_lt_zpow_iff_right₀ (a := (2 : ℚ)) (by norm_num)).1 (lt_of_le_of_lt h1 hlt)
    omega
  have := ldexp_back (s := s) hX hQ hM (by omega) (by omega) (by intro h; omega)
  have hcancel : (n : ℚ) / d * 2 ^ s * 2 ^ (-(s : Int)) = (n : ℚ) / d := by
    rw [mul_assoc, ← zpow_natCast, ← zpow_add₀ (by norm_num)]; simp
  rw [hcancel] at this
  exact this

theorem ratToDouble_short {n d : Nat} (hn : 0 < n) (hd : 0 < d) (h1 : doublePrecision n = true) (h2 : doublePrecision d = true)
    (f1 : intToDouble n ≠ .inf) (f2 : intToDouble d ≠ .inf) : Rounds ((n : ℚ) / d) (ratToDouble n d) := by
  unfold ratToDouble
  rw [h1, h2]
  simp only [Bool.and_self, if_true]
  rw [if_pos ⟨f1, f2⟩]
  cases e1 : intToDouble n with
  | inf => exact absurd e1 f1
  | fin m k =>
    cases e2 : intToDouble d with
    | inf => exact absurd e2 f2
    | fin m' k' =>
      have v1 := exact_double hn h1 e1
      have v2 := exact_double hd h2 e2
      rw [← v1, ← v2]
      refine fdivD_spec ?_
      rcases Nat.eq_zero_or_pos m' with g | g
      · subst g
        unfold dval at v2
        simp only [Nat.cast_zero, zero_mul] at v2
        have : (0 : ℚ) < d := by exact_mod_cast hd
        linarith
      · exact g

theorem doublePrecision_of {N i : Nat} (h0 : 0 < N) (h : N < 2 ^ 53) : doublePrecision (N * 2 ^ i) = true := by
  have hp : 0 < N * 2 ^ i := by positivity
  obtain ⟨l, M, e1, e2, e3⟩ := lowest1_spec (N * 2 ^ i + 1) (N * 2 ^ i) hp (by omega)
  unfold doublePrecision highest1
  rw [decide_eq_true_eq, e1, if_neg (by omega)]
  have hil : i ≤ l := by
    refine Classical.byContradiction fun hc => ?_
    obtain ⟨j, rfl⟩ : ∃ j, i = l + 1 + j := ⟨i - l - 1, by omega⟩
    have : N * 2 ^ (1 + j) * 2 ^ l = M * 2 ^ l := by rw [← e2, add_assoc, pow_add 2 l]; ring
    have := Nat.eq_of_mul_eq_mul_right (by positivity) this
    rw [pow_add, pow_one] at this
    have h2 : N * (2 * 2 ^ j) = 2 * (N * 2 ^ j) := by ring
    omega
  have hlt : N * 2 ^ i < 2 ^ (53 + i) := by rw [pow_add]; exact Nat.mul_lt_mul_of_pos_right h (by positivity)
  have := (Nat.log2_lt (by omega)).2 hlt
  omega

theorem finite_of_lt {n : Nat} (h : n < 2 ^ 1023) : intToDouble n ≠ .inf := by
  intro hi
  have hs := intToDouble_spec n
  rw [hi] at hs
  have h1 : ((2 : ℚ) ^ 54 - 1) * 2 ^ 970 ≤ n := hs
  have h2 : (n : ℚ) < 2 ^ 1023 := by exact_mod_cast h
  have h3 : (2 : ℚ) ^ 1023 = 2 ^ 53 * 2 ^ 970 := pow_add 2 53 970
  rw [h3] at h2
  have h4 : (0 : ℚ) < 2 ^ 970 := by positivity
  clear hs hi h h3
  generalize (2 : ℚ) ^ 970 = P at *
  linarith

theorem ratToDouble_spec {n d : Nat} (hn : 0 < n) (hd : 0 < d) (hx : (2 : ℚ) ^ (-1022 : Int) ≤ (n : ℚ) / d) :
    Rounds ((n : ℚ) / d) (ratToDouble n d) := by
  by_cases h : (doublePrecision n = true ∧ doublePrecision d = true) ∧ intToDouble n ≠ .inf ∧ intToDouble d ≠ .inf
  · exact ratToDouble_short hn hd h.1.1 h.1.2 h.2.1 h.2.2
  · have : ratToDouble n d = fullpath n d := by
      unfold ratToDouble
      by_cases g : (doublePrecision n && doublePrecision d) = true
      · rw [if_pos g]
        rw [Bool.and_eq_true] at g
        simp only []
        rw [if_neg (fun q => h ⟨g, q⟩)]
      · rw [if_neg g]
    rw [this]; exact fullpath_spec hn hd hx

/-- Exact division and conversion. -/
theorem divToDouble_spec {n d : Nat} (hn : 0 < n) (hd : 0 < d) (hx : (2 : ℚ) ^ (-1022 : Int) ≤ (n : ℚ) / d) :
    Rounds ((n : ℚ) / d) (divToDouble n d) := by
  have hg : 0 < Nat.gcd n d := Nat.gcd_pos_of_pos_left _ hn
  obtain ⟨a, ha⟩ := Nat.gcd_dvd_left n d
  obtain ⟨b, hb⟩ := Nat.gcd_dvd_right n d
  have hq : (n : ℚ) / d = ((n / Nat.gcd n d : Nat) : ℚ) / ((d / Nat.gcd n d : Nat) : ℚ) := by
    have hgq : ((Nat.gcd n d : Nat) : ℚ) ≠ 0 := by positivity
    have e1 : (n : ℚ) = (Nat.gcd n d : Nat) * ((n / Nat.gcd n d : Nat) : ℚ) := by exact_mod_cast (Nat.mul_div_cancel' (Nat.gcd_dvd_left n d)).symm
    have e2 : (d : ℚ) = (Nat.gcd n d : Nat) * ((d / Nat.gcd n d : Nat) : ℚ) := by exact_mod_cast (Nat.mul_div_cancel' (Nat.gcd_dvd_right n d)).symm
    conv => lhs; rw [e1, e2]
    exact mul_div_mul_left _ _ hgq
  have hn' : 0 < n / Nat.gcd n d := Nat.div_pos (Nat.le_of_dvd hn (Nat.gcd_dvd_left n d)) hg
  have hd' : 0 < d / Nat.gcd n d := Nat.div_pos (Nat.le_of_dvd hd (Nat.gcd_dvd_right n d)) hg
  unfold divToDouble
  rw [hq] at hx ⊢
  by_cases h : d / Nat.gcd n d = 1
  · simp only [h, if_true]
    simpa using intToDouble_spec _
  · simp only [h, if_false]
    exact ratToDouble_spec hn' hd' hx

end Gauche.Flonum

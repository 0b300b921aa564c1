import Verif.Proof.FlonumRound
/-
The rounding function of the model rounds to nearest, ties to even.
-/
namespace Gauche.Flonum
open Gauche.Spec

theorem scaled_spec (p q : Nat) (hq : 0 < q) (k : Int) : let s := scaled p q k
    0 < s.2.2 ∧ s.2.1 < s.2.2 ∧ (p : ℚ) / q = ((s.1 : ℚ) + (s.2.1 : ℚ) / s.2.2) * 2 ^ k := by
  have key : ∀ p' q' : Nat, 0 < q' → ((p' / q' : Nat) : ℚ) + ((p' % q' : Nat) : ℚ) / q' = (p' : ℚ) / q' := by
    intro p' q' h
    have hq : (q' : ℚ) ≠ 0 := by positivity
    have := Nat.div_add_mod p' q'
    have h2 : (q' : ℚ) * ((p' / q' : Nat) : ℚ) + ((p' % q' : Nat) : ℚ) = p' := by exact_mod_cast this
    field_simp
    linarith
  intro s
  have hq0 : (q : ℚ) ≠ 0 := by positivity
  by_cases hk : k < 0
  · have e : s = (p * 2 ^ (-k).toNat / q, p * 2 ^ (-k).toNat % q, q) := by simp [s, scaled, hk]
    rw [e]
    refine ⟨hq, Nat.mod_lt _ hq, ?_⟩
    simp only []
    rw [key _ _ hq]
    have h2 : (2 : ℚ) ^ k * 2 ^ (-k).toNat = 1 := by
      rw [← zpow_natCast, ← zpow_add₀ (by norm_num)]
      rw [show k + ((-k).toNat : Int) = 0 by omega]; norm_num
    push_cast
    rw [div_mul_eq_mul_div, mul_assoc, mul_comm ((2:ℚ)^(-k).toNat), h2, mul_one]
  · have hq' : 0 < q * 2 ^ k.toNat := Nat.mul_pos hq (Nat.two_pow_pos _)
    have e : s = (p / (q * 2 ^ k.toNat), p % (q * 2 ^ k.toNat), q * 2 ^ k.toNat) := by simp [s, scaled, hk]
    rw [e]
    refine ⟨hq', Nat.mod_lt _ hq', ?_⟩
    simp only []
    rw [key _ _ hq']
    have h2 : (2 : ℚ) ^ k = 2 ^ k.toNat := by
      rw [← zpow_natCast]; congr 1; omega
    rw [h2]
    push_cast
    have : (2 : ℚ) ^ k.toNat ≠ 0 := by positivity
    field_simp

theorem roundUp_RU {n r q : Nat} {k : Int} (hn : n < 2 ^ 53) (hk : -1074 ≤ k) (hnk : 2 ^ 52 ≤ n ∨ k = -1074) (hr : r < q) :
    RU (((n : ℚ) + (r : ℚ) / q) * 2 ^ k) (roundUp n r q k).1 (roundUp n r q k).2 := by
  have hu := two_pos k
  have hq : (0 : ℚ) < q := by have : 0 < q := by omega
                              exact_mod_cast this
  obtain ⟨t, ht⟩ : ∃ t, t = (r : ℚ) / q := ⟨_, rfl⟩
  have ht0 : 0 ≤ t := by rw [ht]; positivity
  have ht1 : t < 1 := by rw [ht, div_lt_one hq]; exact_mod_cast hr
  have hup : (q < 2 * r) ↔ 1 / 2 < t := by
    rw [ht, lt_div_iff₀ hq]
    constructor
    · intro h; have : (q : ℚ) < 2 * r := by exact_mod_cast h
      linarith
    · intro h; have : (q : ℚ) < 2 * r := by linarith
      exact_mod_cast this
  have heq : (2 * r = q) ↔ t = 1 / 2 := by
    rw [ht, div_eq_iff hq.ne']
    constructor
    · intro h; have : 2 * (r : ℚ) = q := by exact_mod_cast h
      linarith
    · intro h; have : 2 * (r : ℚ) = q := by linarith
      exact_mod_cast this
  rw [← ht]
  unfold roundUp
  by_cases hc : q < 2 * r ∨ (2 * r = q ∧ n % 2 = 1)
  · rw [if_pos hc, hup, heq] at *
    rw [hup, heq] at hc
    have hge : 1 / 2 ≤ t := by rcases hc with h | ⟨h, _⟩ <;> linarith
    have htie : t = 1 / 2 → n % 2 = 1 := by
      intro h; rcases hc with h' | ⟨_, h'⟩
      · linarith
      · exact h'
    have hne : t ≠ 1 / 2 → 1 / 2 < t := fun h => lt_of_le_of_ne hge (Ne.symm h)
    by_cases hcar : n + 1 = 2 ^ 53
    · rw [if_pos hcar]
      have hlow : low (2 ^ 52) (k + 1) = 2 ^ k := by
        unfold low; rw [if_pos ⟨rfl, by omega⟩, zpow_add₀ (by norm_num)]; norm_num
      have hv : dval (2 ^ 52) (k + 1) = ((n : ℚ) + 1) * 2 ^ k := by
        have : (n : ℚ) + 1 = 2 ^ 53 := by exact_mod_cast hcar
        unfold dval; rw [this, zpow_add₀ (by norm_num)]; push_cast; ring
      refine ⟨⟨by norm_num, by simp; omega, Or.inl (by simp)⟩, Or.inl ?_, ?_⟩
      · simp only []; rw [hv]; have := two_pos (k + 1); nlinarith
      · simp only []; rw [hv, hlow]
        by_cases h : t = 1 / 2
        · exact Or.inr ⟨by rw [h]; ring, by norm_num⟩
        · left; have := hne h; nlinarith
    · rw [if_neg hcar]
      have hlow : low (n + 1) k = 2 ^ k := by
        unfold low; rw [if_neg]; intro h; omega
      have hv : dval (n + 1) k = ((n : ℚ) + 1) * 2 ^ k := by unfold dval; push_cast; ring
      refine ⟨⟨by simp; omega, hk, by simp; omega⟩, Or.inl ?_, ?_⟩
      · simp only []; rw [hv]; nlinarith
      · simp only []; rw [hv, hlow]
        by_cases h : t = 1 / 2
        · exact Or.inr ⟨by rw [h]; ring, by have := htie h; omega⟩
        · left; have := hne h; nlinarith
  · rw [if_neg hc]
    rw [hup, heq] at hc
    have hle : t ≤ 1 / 2 := by
      rcases lt_or_ge (1 / 2) t with h | h
      · exact absurd (Or.inl h) hc
      · exact h
    have hv : dval n k = (n : ℚ) * 2 ^ k := rfl
    refine ⟨⟨hn, hk, hnk⟩, ?_, Or.inl ?_⟩
    · simp only []; rw [hv]
      by_cases h : t = 1 / 2
      · refine Or.inr ⟨by rw [h]; ring, ?_⟩
        have : ¬ n % 2 = 1 := fun hh => hc (Or.inr ⟨h, hh⟩)
        omega
      · left; have : t < 1 / 2 := lt_of_le_of_ne hle h
        nlinarith
    · simp only []; rw [hv]; have := low_pos n k; nlinarith

theorem log2_bounds {p : Nat} (hp : 0 < p) : (2 : ℚ) ^ (Nat.log2 p : Int) ≤ p ∧ (p : ℚ) < 2 ^ ((Nat.log2 p : Int) + 1) := by
  constructor
  · rw [zpow_natCast]; exact_mod_cast Nat.log2_self_le (by omega)
  · have h : p < 2 ^ (Nat.log2 p + 1) := Nat.lt_log2_self
    have : (p : ℚ) < 2 ^ (Nat.log2 p + 1) := by exact_mod_cast h
    rw [← zpow_natCast] at this
    simpa using this

theorem quot_bounds {p q : Nat} (hp : 0 < p) (hq : 0 < q) :
    (2 : ℚ) ^ ((Nat.log2 p : Int) - Nat.log2 q - 1) < (p : ℚ) / q ∧ (p : ℚ) / q < 2 ^ ((Nat.log2 p : Int) - Nat.log2 q + 1) := by
  obtain ⟨a1, a2⟩ := log2_bounds hp
  obtain ⟨b1, b2⟩ := log2_bounds hq
  have hq0 : (0 : ℚ) < q := by exact_mod_cast hq
  have hp0 : (0 : ℚ) < p := by exact_mod_cast hp
  constructor
  · rw [lt_div_iff₀ hq0]
    have e : (2 : ℚ) ^ ((Nat.log2 p : Int) - Nat.log2 q - 1) * 2 ^ ((Nat.log2 q : Int) + 1) = 2 ^ (Nat.log2 p : Int) := by
      rw [← zpow_add₀ (by norm_num)]; congr 1; omega
    have := two_pos ((Nat.log2 p : Int) - Nat.log2 q - 1)
    nlinarith
  · rw [div_lt_iff₀ hq0]
    have e : (2 : ℚ) ^ ((Nat.log2 p : Int) - Nat.log2 q + 1) * 2 ^ (Nat.log2 q : Int) = 2 ^ ((Nat.log2 p : Int) + 1) := by
      rw [← zpow_add₀ (by norm_num)]; congr 1; omega
    have := two_pos ((Nat.log2 p : Int) - Nat.log2 q + 1)
    nlinarith

/-- The quotient in units of `2^k`, compared with a natural number. -/
theorem scaled_le {p q : Nat} (hq : 0 < q) (k : Int) (N : Nat) : N ≤ (scaled p q k).1 ↔ (N : ℚ) * 2 ^ k ≤ (p : ℚ) / q := by
  obtain ⟨h1, h2, h3⟩ := scaled_spec p q hq k
  rw [h3]
  have hq' : (0 : ℚ) < (scaled p q k).2.2 := by exact_mod_cast h1
  have ht0 : 0 ≤ ((scaled p q k).2.1 : ℚ) / (scaled p q k).2.2 := by positivity
  have ht1 : ((scaled p q k).2.1 : ℚ) / (scaled p q k).2.2 < 1 := by rw [div_lt_one hq']; exact_mod_cast h2
  rw [mul_le_mul_iff_left₀ (two_pos k)]
  constructor
  · intro h; have : (N : ℚ) ≤ (scaled p q k).1 := by exact_mod_cast h
    linarith
  · intro h
    have : (N : ℚ) < ((scaled p q k).1 + 1 : Nat) := by push_cast; linarith
    have := Nat.cast_lt.1 this
    omega

theorem unitOf_spec {p q : Nat} (hp : 0 < p) (hq : 0 < q) :
    -1074 ≤ unitOf p q ∧ (scaled p q (unitOf p q)).1 < 2 ^ 53 ∧ (2 ^ 52 ≤ (scaled p q (unitOf p q)).1 ∨ unitOf p q = -1074) := by
  obtain ⟨b1, b2⟩ := quot_bounds hp hq
  generalize hL : (Nat.log2 p : Int) - Nat.log2 q = L at b1 b2
  have hk0 : (Nat.log2 p : Int) - Nat.log2 q - 53 = L - 53 := by omega
  unfold unitOf
  simp only [hk0]
  generalize hk : max (-1074) (L - 53) = k0
  have hk1 : -1074 ≤ k0 := by omega
  have key : ∀ (k : Int) (N : Nat), (scaled p q k).1 < N ↔ (p : ℚ) / q < (N : ℚ) * 2 ^ k := by
    intro k N
    rw [← not_le, scaled_le hq, not_le]
  by_cases hc : 2 ^ 53 ≤ (scaled p q k0).1
  · rw [if_pos hc]
    have hc' := (scaled_le hq k0 _).1 hc
    have e : ((2 ^ 52 : Nat) : ℚ) * 2 ^ (k0 + 1) = ((2 ^ 53 : Nat) : ℚ) * 2 ^ k0 := by
      rw [zpow_add₀ (by norm_num)]; push_cast; ring
    refine ⟨by omega, ?_, Or.inl ?_⟩
    · rw [key]
      have hle : (2 : ℚ) ^ (L + 1) ≤ 2 ^ (k0 + 54) := zpow_le_zpow_right₀ (by norm_num) (by omega)
      have e2 : ((2 ^ 53 : Nat) : ℚ) * 2 ^ (k0 + 1) = 2 ^ (k0 + 54) := by
        rw [show k0 + 54 = (k0 + 1) + (53 : Nat) by omega, zpow_add₀ (by norm_num : (2:ℚ) ≠ 0) (k0+1), zpow_natCast]; push_cast; ring
      rw [e2]; linarith
    · rw [scaled_le hq, e]; exact hc'
  · rw [if_neg hc]
    refine ⟨hk1, by omega, ?_⟩
    rcases le_or_gt (L - 53) (-1074) with h | h
    · right; omega
    · left
      rw [scaled_le hq]
      have : k0 = L - 53 := by omega
      rw [this]
      have e2 : ((2 ^ 52 : Nat) : ℚ) * 2 ^ (L - 53) = 2 ^ (L - 1) := by
        rw [show L - 1 = (L - 53) + (52 : Nat) by omega, zpow_add₀ (by norm_num : (2:ℚ) ≠ 0) (L - 53), zpow_natCast]; push_cast; ring
      rw [e2]; exact b1.le

theorem rnd0_RU {p q : Nat} (hp : 0 < p) (hq : 0 < q) : RU ((p : ℚ) / q) (rnd0 p q).1 (rnd0 p q).2 := by
  obtain ⟨h1, h2, h3⟩ := unitOf_spec hp hq
  obtain ⟨s1, s2, s3⟩ := scaled_spec p q hq (unitOf p q)
  rw [s3]
  exact roundUp_RU h2 h1 h3 s2

theorem zero_RU : RU 0 0 (-1074) := by
  refine ⟨⟨by norm_num, le_refl _, Or.inr rfl⟩, Or.inl ?_, Or.inl ?_⟩
  · unfold dval; have := two_pos (-1074); push_cast; linarith
  · unfold dval; have := low_pos 0 (-1074); push_cast; linarith

/-- The machine operation of the model is IEEE rounding. -/
theorem rnd_spec (p q : Nat) (hq : 0 < q) : Rounds ((p : ℚ) / q) (rnd p q) := by
  unfold rnd
  by_cases hp : p = 0
  · rw [if_pos hp, hp]
    simpa using rounds_of zero_RU (by norm_num)
  · rw [if_neg hp]; exact rounds_clip (rnd0_RU (by omega) hq)

/-- Every non-negative rational has a rounded value without a limit on exponents. -/
theorem RU_exists (x : ℚ) (hx : 0 ≤ x) : ∃ m k, RU x m k := by
  rcases eq_or_lt_of_le hx with h | h
  · exact ⟨0, -1074, h ▸ zero_RU⟩
  · have hn : 0 < x.num := Rat.num_pos.2 h
    have := rnd0_RU (p := x.num.toNat) (q := x.den) (by omega) x.den_pos
    have e : ((x.num.toNat : ℚ)) / x.den = x := by
      have h2 : ((x.num.toNat : Int) : ℚ) = (x.num : ℚ) := by congr 1; omega
      have h3 : (x.num.toNat : ℚ) = ((x.num.toNat : Int) : ℚ) := (Int.cast_natCast _).symm
      rw [h3, h2]; exact Rat.num_div_den x
    rw [e] at this
    exact ⟨_, _, this⟩

/-- Rounding is a function. -/
theorem rounds_unique {x : ℚ} (hx : 0 ≤ x) {d d' : Dbl} (h : Rounds x d) (h' : Rounds x d') : d = d' := by
  obtain ⟨m, k, hT⟩ := RU_exists x hx
  cases d with
  | inf =>
    cases d' with
    | inf => rfl
    | fin m' k' => exact absurd h (not_le.2 h'.2.1)
  | fin m1 k1 =>
    cases d' with
    | inf => exact absurd h' (not_le.2 h.2.1)
    | fin m' k' =>
      have a := rounds_fin_RU hx h hT
      have b := rounds_fin_RU hx h' hT
      have c := a.trans b.symm
      injection c with c1 c2
      rw [c1, c2]

theorem rnd_unique {p q : Nat} (hq : 0 < q) {d : Dbl} (h : Rounds ((p : ℚ) / q) d) : rnd p q = d :=
  rounds_unique (by positivity) (rnd_spec p q hq) h

theorem rnd_congr {p q p' q' : Nat} (hq : 0 < q) (hq' : 0 < q') (h : (p : ℚ) / q = p' / q') : rnd p q = rnd p' q' :=
  rnd_unique hq (h ▸ rnd_spec p' q' hq')

end Gauche.Flonum

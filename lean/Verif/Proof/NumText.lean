import Verif.Model.NumText
import Verif.Spec.NumText
import Verif.Proof.Radix
import Verif.Proof.BignumDiv2
import Verif.Proof.Rational
namespace Gauche.NumText
open Gauche.Bignum Gauche.Integer Gauche.Rational Gauche.Radix Spec

/-! ### digits -/

theorem tab_small : ∀ c ∈ tab, c.toNat < 128 ∧ c ≠ '_' ∧ c ≠ '#' ∧ c ≠ '/' := by decide

theorem toLower_big {c : Char} (h : 128 ≤ c.toNat) : c.toLower = c := by
  unfold Char.toLower
  have h1 : ¬ (c.val ≥ 'A'.val ∧ c.val ≤ 'Z'.val) := by
    rintro ⟨_, h2⟩
    have : c.toNat ≤ 90 := h2
    omega
  exact dif_neg h1

theorem digval_table : ∀ r, r < 37 → ∀ c, c < 128 → digval r (Char.ofNat c).toLower = digitOf r (Char.ofNat c) := by
  decide +kernel

theorem digval_eq {r : Nat} (hr : r ≤ 36) (c : Char) : digval r c.toLower = digitOf r c := by
  by_cases h : c.toNat < 128
  · have := digval_table r (by omega) c.toNat h
    rwa [Char.ofNat_toNat] at this
  · have h' : 128 ≤ c.toNat := by omega
    rw [toLower_big h']
    have h1 : digitOf r c = none := by
      unfold digitOf
      rw [if_neg (by omega), if_neg (by omega), if_neg (by omega)]; rfl
    rw [h1]
    unfold digval
    rw [List.idxOf?_eq_none_iff]
    intro hm
    have := (tab_small c (List.mem_of_mem_take hm)).1
    omega

theorem lower_table : ∀ c, c < 128 → ((Char.ofNat c).toLower = '_' ↔ Char.ofNat c = '_') ∧ ((Char.ofNat c).toLower = '#' ↔ Char.ofNat c = '#') := by
  decide +kernel

theorem lower_us (c : Char) : (c.toLower = '_' ↔ c = '_') ∧ (c.toLower = '#' ↔ c = '#') := by
  by_cases h : c.toNat < 128
  · have := lower_table c.toNat h
    rwa [Char.ofNat_toNat] at this
  · rw [toLower_big (by omega)]; exact ⟨Iff.rfl, Iff.rfl⟩

theorem digitOf_lt {r : Nat} {c : Char} {d : Nat} (h : digitOf r c = some d) : d < r := by
  unfold digitOf at h
  simp only [Option.filter_eq_some_iff] at h
  simpa using h.2

theorem digitOf_us (r : Nat) : digitOf r '_' = none := by
  unfold digitOf; simp

theorem digitOf_slash (r : Nat) : digitOf r '/' = none := by
  unfold digitOf; simp
theorem digitOf_hash (r : Nat) : digitOf r '#' = none := by
  unfold digitOf; simp

/-! ### the tables -/

theorem limit_table : ∀ r, r < 37 → 2 ≤ r → (longlimit r + 1) * r ≤ 18446744073709551616 ∧ longlimit r < 9223372036854775808 ∧ 0 < longlimit r := by
  decide +kernel

theorem dig_table : ∀ r, r < 37 → 2 ≤ r → bigdig r = r ^ (longdigs r + 1) ∧ bigdig r < 9223372036854775808 := by
  decide +kernel

/-! ### the accumulator -/

/-- The number read so far. -/
def Acc.val (r : Nat) (a : Acc) : Nat :=
  match a.big with
  | none => a.int
  | some b => Bignum.val b * r ^ a.digits + a.int

/-- What the loop keeps true. -/
def Acc.Inv (r : Nat) (a : Acc) : Prop :=
  match a.big with
  | none => a.int ≤ longlimit r
  | some b => Words b ∧ b ≠ [] ∧ a.digits ≤ longdigs r ∧ a.int < r ^ a.digits

theorem pow_le_bigdig {r : Nat} (hr : 2 ≤ r) (hr' : r ≤ 36) {k : Nat} (hk : k ≤ longdigs r + 1) : r ^ k < 9223372036854775808 := by
  obtain ⟨h1, h2⟩ := dig_table r (by omega) hr
  have := Nat.pow_le_pow_right (n := r) (by omega) hk
  omega

theorem accDigit_spec {r : Nat} (hr : 2 ≤ r) (hr' : r ≤ 36) {a : Acc} (ha : a.Inv r) {d : Nat} (hd : d < r) :
    (accDigit r a d).Inv r ∧ (accDigit r a d).val r = a.val r * r + d := by
  obtain ⟨l1, l2, _⟩ := limit_table r (by omega) hr
  obtain ⟨t1, t2⟩ := dig_table r (by omega) hr
  obtain ⟨big, int, digits⟩ := a
  cases big with
  | none =>
    replace ha : int ≤ longlimit r := ha
    have hm : int * r ≤ longlimit r * r := Nat.mul_le_mul_right _ ha
    have hlt : int * r + d < W64 := by
      have : (longlimit r + 1) * r = longlimit r * r + r := by ring
      omega
    have e : accDigit r ⟨none, int, digits⟩ d = if int * r + d ≥ longlimit r then ⟨some [int * r + d, 0, 0, 0], 0, 0⟩ else ⟨none, int * r + d, digits + 1⟩ := by
      show (if (int * r + d) % W64 ≥ _ then _ else _) = _
      rw [Nat.mod_eq_of_lt hlt]
    rw [e]
    by_cases h : int * r + d ≥ longlimit r
    · rw [if_pos h]
      refine ⟨⟨?_, by simp, by simp, by simp⟩, ?_⟩
      · intro w hw; simp at hw; rcases hw with rfl | rfl <;> omega
      · show Bignum.val [int * r + d, 0, 0, 0] * r ^ 0 + 0 = int * r + d
        simp [Bignum.val]
    · rw [if_neg h]
      exact ⟨show int * r + d ≤ _ by omega, rfl⟩
  | some b =>
    obtain ⟨h1, h2, h3, h4⟩ : Words b ∧ b ≠ [] ∧ digits ≤ longdigs r ∧ int < r ^ digits := ha
    have hlt0 : int * r + d < r ^ (digits + 1) := by
      have : (int + 1) * r ≤ r ^ digits * r := Nat.mul_le_mul_right _ h4
      rw [pow_succ]
      have : (int + 1) * r = int * r + r := by ring
      omega
    have hp := pow_le_bigdig hr hr' (k := digits + 1) (by omega)
    have hlt : int * r + d < W64 := by omega
    have e : accDigit r ⟨some b, int, digits⟩ d = if digits + 1 > longdigs r then ⟨some (accMultAdd b (bigdig r) (int * r + d)), 0, 0⟩
        else ⟨some b, int * r + d, digits + 1⟩ := by
      show (if digits + 1 > _ then (⟨some (accMultAdd b (bigdig r) ((int * r + d) % W64)), 0, 0⟩ : Acc) else ⟨some b, (int * r + d) % W64, digits + 1⟩) = _
      rw [Nat.mod_eq_of_lt hlt]
    have hv : Bignum.val b * r ^ (digits + 1) + (int * r + d) = (Bignum.val b * r ^ digits + int) * r + d := by rw [pow_succ]; ring
    rw [e]
    by_cases h : digits + 1 > longdigs r
    · rw [if_pos h]
      obtain ⟨m1, m2, m3⟩ := accMultAdd_spec h1 h2 (coef := bigdig r) (c := int * r + d) (by omega) hlt
      refine ⟨⟨m1, m2, by simp, by simp⟩, ?_⟩
      show Bignum.val (accMultAdd b (bigdig r) (int * r + d)) * r ^ 0 + 0 = (Bignum.val b * r ^ digits + int) * r + d
      rw [m3, t1, ← hv, show longdigs r + 1 = digits + 1 by omega]; simp
    · rw [if_neg h]
      exact ⟨⟨h1, h2, by show digits + 1 ≤ _; omega, hlt0⟩, hv⟩

theorem accFinish_spec {r : Nat} (hr : 2 ≤ r) (hr' : r ≤ 36) {a : Acc} (ha : a.Inv r) : (accFinish r a).IsInt (a.val r) := by
  obtain ⟨l1, l2, _⟩ := limit_table r (by omega) hr
  obtain ⟨big, int, digits⟩ := a
  cases big with
  | none =>
    replace ha : int ≤ longlimit r := ha
    show (makeInteger (Int.bmod int W64)).IsInt int
    rw [show Int.bmod (int : Int) W64 = int by
      apply Int.bmod_eq_of_le <;> omega]
    exact makeInteger_isInt (by omega)
  | some b =>
    obtain ⟨h1, h2, h3, h4⟩ : Words b ∧ b ≠ [] ∧ digits ≤ longdigs r ∧ int < r ^ digits := ha
    have hp := pow_le_bigdig hr hr' (k := digits) (by omega)
    show (normalize ⟨1, if digits > 0 then accMultAdd b (r ^ digits % W64) int else b⟩).IsInt ((Bignum.val b * r ^ digits + int : Nat) : Int)
    by_cases h : digits > 0
    · rw [if_pos h, Nat.mod_eq_of_lt (by omega)]
      obtain ⟨m1, m2, m3⟩ := accMultAdd_spec h1 h2 (coef := r ^ digits) (c := int) (by omega) (by omega)
      have := normalize_spec (s := 1) (Or.inl rfl) m2 m1
      rwa [m3, one_mul] at this
    · have h0 : digits = 0 := by omega
      subst h0
      rw [if_neg h]
      have := normalize_spec (s := 1) (Or.inl rfl) h2 h1
      rw [one_mul] at this
      have : int = 0 := by simpa using h4
      subst this
      simpa

/-! ### the digit loop -/

/-- The texts the loop accepts and the digits in them; `dr`: something was read before, `us`: the last character was `_`. -/
def TokOk (r : Nat) (strict : Bool) : Bool → Bool → List Char → List Nat → Prop
  | dr, us, [], ds => dr = true ∧ us = false ∧ ds = []
  | dr, us, c :: cs, ds => (c = '_' ∧ strict = false ∧ dr = true ∧ us = false ∧ TokOk r strict dr true cs ds) ∨
      (∃ d ds', digitOf r c = some d ∧ ds = d :: ds' ∧ TokOk r strict true false cs ds')

/-- The text does not go on with a digit, `_` or `#`. -/
def Stop (r : Nat) (s : List Char) : Prop := ∀ c cs, s = c :: cs → c ≠ '_' ∧ c ≠ '#' ∧ digitOf r c = none

theorem ruLoop_nil (r : Nat) (strict dr us : Bool) (a : Acc) :
    ruLoop r strict (!dr) dr us a [] = if dr = false then .bad else if us then .bad else .ok (accFinish r a) [] := by
  cases dr <;> rfl

theorem ruLoop_cons {r : Nat} (hr : r ≤ 36) (strict dr us : Bool) (a : Acc) (c : Char) (cs : List Char) :
    ruLoop r strict (!dr) dr us a (c :: cs) =
      if c = '_' then (if strict then .bad else if dr = false ∨ us = true then .bad else ruLoop r strict false dr true a cs)
      else if dr = true ∧ c = '#' then .pad
      else match digitOf r c with
        | none => if dr = false then .bad else if us then .bad else .ok (accFinish r a) (c :: cs)
        | some d => ruLoop r strict false true false (accDigit r a d) cs := by
  rw [ruLoop]
  simp only [digval_eq hr, (lower_us c).1, (lower_us c).2]
  cases dr <;> cases us <;> cases digitOf r c <;> simp

theorem ruLoop_iff {r : Nat} (hr : r ≤ 36) (strict : Bool) (s : List Char) : ∀ (dr us : Bool) (a : Acc) (n : Num) (rest : List Char),
    ruLoop r strict (!dr) dr us a s = .ok n rest ↔
      ∃ tok ds, s = tok ++ rest ∧ TokOk r strict dr us tok ds ∧ Stop r rest ∧ n = accFinish r (ds.foldl (accDigit r) a) := by
  have key0 : ∀ (dr us : Bool) (a : Acc) (n : Num) (rest s : List Char),
      ((dr = true ∧ us = false) ∧ Stop r s ∧ n = accFinish r a ∧ rest = s) → 
      ∃ tok ds, s = tok ++ rest ∧ TokOk r strict dr us tok ds ∧ Stop r rest ∧ n = accFinish r (ds.foldl (accDigit r) a) := by
    rintro dr us a n rest s ⟨⟨h1, h2⟩, h3, h4, rfl⟩
    exact ⟨[], [], rfl, ⟨h1, h2, rfl⟩, h3, h4⟩
  induction s with
  | nil =>
    intro dr us a n rest
    rw [ruLoop_nil]
    constructor
    · intro h
      by_cases h1 : dr = false
      · rw [if_pos h1] at h; simp at h
      · rw [if_neg h1] at h
        cases us with
        | true => simp at h
        | false =>
          simp only [Bool.false_eq_true, if_false, RU.ok.injEq] at h
          obtain ⟨rfl, rfl⟩ := h
          exact key0 _ _ _ _ _ _ ⟨⟨by simpa using h1, rfl⟩, by intro c cs h; simp at h, rfl, rfl⟩
    · rintro ⟨tok, ds, h1, h2, h3, h4⟩
      have ht : tok = [] ∧ rest = [] := by simpa using h1.symm
      obtain ⟨rfl, rfl⟩ := ht
      obtain ⟨k1, k2, k3⟩ := h2
      subst k1 k2 k3 h4
      rfl
  | cons c cs ih =>
    intro dr us a n rest
    rw [ruLoop_cons hr]
    have hcons : ∀ (tok : List Char), c :: cs = tok ++ rest → (tok = [] ∧ rest = c :: cs) ∨ ∃ t, tok = c :: t ∧ cs = t ++ rest := by
      intro tok h
      cases tok with
      | nil => left; exact ⟨rfl, h.symm⟩
      | cons x t => right; simp at h; exact ⟨t, by rw [h.1], h.2⟩
    by_cases hc : c = '_'
    · rw [if_pos hc]
      subst hc
      constructor
      · intro h
        cases hs : strict with
        | true => rw [hs] at h; simp at h
        | false =>
          rw [hs] at h ih
          simp only [Bool.false_eq_true, if_false] at h
          by_cases hd : dr = false ∨ us = true
          · rw [if_pos hd] at h; simp at h
          · rw [if_neg hd] at h
            have hd' : dr = true ∧ us = false := by simpa using hd
            obtain ⟨rfl, rfl⟩ := hd'
            obtain ⟨tok, ds, h1, h2, h3, h4⟩ := (ih true true a n rest).1 h
            exact ⟨'_' :: tok, ds, by rw [h1]; rfl, Or.inl ⟨rfl, rfl, rfl, rfl, h2⟩, h3, h4⟩
      · rintro ⟨tok, ds, h1, h2, h3, h4⟩
        rcases hcons tok h1 with ⟨rfl, rfl⟩ | ⟨t, rfl, h5⟩
        · exact absurd rfl (h3 _ _ rfl).1
        · rcases h2 with ⟨_, k1, k2, k3, k4⟩ | ⟨d, ds', k1, _⟩
          · subst k1 k2 k3
            simp only [Bool.false_eq_true, if_false, Bool.true_eq_false, false_or]
            exact (ih true true a n rest).2 ⟨t, ds, h5, k4, h3, h4⟩
          · rw [digitOf_us] at k1; cases k1
    · rw [if_neg hc]
      by_cases hp : dr = true ∧ c = '#'
      · rw [if_pos hp]
        refine ⟨fun h => (by simp at h), ?_⟩
        rintro ⟨tok, ds, h1, h2, h3, h4⟩
        rcases hcons tok h1 with ⟨rfl, rfl⟩ | ⟨t, rfl, h5⟩
        · exact absurd hp.2 (h3 _ _ rfl).2.1
        · rcases h2 with ⟨k1, _⟩ | ⟨d, ds', k1, _⟩
          · exact absurd k1 hc
          · rw [hp.2, digitOf_hash] at k1; cases k1
      · rw [if_neg hp]
        cases hd : digitOf r c with
        | none =>
          simp only
          constructor
          · intro h
            by_cases h1 : dr = false
            · rw [if_pos h1] at h; simp at h
            · rw [if_neg h1] at h
              cases us with
              | true => simp at h
              | false =>
                simp only [Bool.false_eq_true, if_false, RU.ok.injEq] at h
                obtain ⟨rfl, rfl⟩ := h
                have h1' : dr = true := by simpa using h1
                refine key0 _ _ _ _ _ _ ⟨⟨h1', rfl⟩, ?_, rfl, rfl⟩
                intro c' cs' he
                simp at he
                obtain ⟨rfl, rfl⟩ := he
                exact ⟨hc, fun h => hp ⟨h1', h⟩, hd⟩
          · rintro ⟨tok, ds, h1, h2, h3, h4⟩
            rcases hcons tok h1 with ⟨rfl, rfl⟩ | ⟨t, rfl, h5⟩
            · obtain ⟨k1, k2, k3⟩ := h2
              subst k1 k2 k3 h4
              rfl
            · rcases h2 with ⟨k1, _⟩ | ⟨d, ds', k1, _⟩
              · exact absurd k1 hc
              · rw [hd] at k1; cases k1
        | some d =>
          simp only
          rw [show false = !true from rfl, ih]
          constructor
          · rintro ⟨tok, ds, h1, h2, h3, h4⟩
            exact ⟨c :: tok, d :: ds, by rw [h1]; rfl, Or.inr ⟨d, ds, hd, rfl, h2⟩, h3, h4⟩
          · rintro ⟨tok, ds, h1, h2, h3, h4⟩
            rcases hcons tok h1 with ⟨rfl, rfl⟩ | ⟨t, rfl, h5⟩
            · rw [(h3 _ _ rfl).2.2] at hd; cases hd
            · rcases h2 with ⟨k1, _⟩ | ⟨d', ds', k1, k2, k3⟩
              · exact absurd k1 hc
              · rw [hd] at k1; cases k1
                subst k2
                exact ⟨t, ds', h5, k3, h3, h4⟩

/-- While no bignum is needed the digit count plays no role. -/
theorem ruLoop_digits {r : Nat} (hr : r ≤ 36) (strict : Bool) (s : List Char) : ∀ (us : Bool) (i k k' : Nat),
    ruLoop r strict false true us ⟨none, i, k⟩ s = ruLoop r strict false true us ⟨none, i, k'⟩ s := by
  induction s with
  | nil => intro us i k k'; rfl
  | cons c cs ih =>
    intro us i k k'
    have e : accFinish r ⟨none, i, k⟩ = accFinish r ⟨none, i, k'⟩ := rfl
    have e1 : ∀ k d, accDigit r ⟨none, i, k⟩ d = if (i * r + d) % W64 ≥ longlimit r then ⟨some [(i * r + d) % W64, 0, 0, 0], 0, 0⟩ else ⟨none, (i * r + d) % W64, k + 1⟩ := by
      intro k d; unfold accDigit; rfl
    have e2 := ruLoop_cons hr strict true us ⟨none, i, k⟩ c cs
    have e3 := ruLoop_cons hr strict true us ⟨none, i, k'⟩ c cs
    rw [show (!true) = false from rfl] at e2 e3
    rw [e2, e3, ih true i k k', e]
    by_cases h1 : c = '_'
    · rw [if_pos h1, if_pos h1]
    · rw [if_neg h1, if_neg h1]
      by_cases h2 : true = true ∧ c = '#'
      · rw [if_pos h2, if_pos h2]
      · rw [if_neg h2, if_neg h2]
        cases hd : digitOf r c with
        | none => rfl
        | some d =>
          simp only
          rw [e1, e1]
          by_cases h : (i * r + d) % W64 ≥ longlimit r
          · rw [if_pos h, if_pos h]
          · rw [if_neg h, if_neg h]; exact ih _ _ _ _

theorem digitOf_zero {r : Nat} (hr : 2 ≤ r) : digitOf r '0' = some 0 := by
  unfold digitOf; simp; omega

theorem ruLoop_zero {r : Nat} (hr : 2 ≤ r) (hr' : r ≤ 36) (strict dr : Bool) (k : Nat) (cs : List Char) :
    ruLoop r strict (!dr) dr false ⟨none, 0, k⟩ ('0' :: cs) = ruLoop r strict false true false ⟨none, 0, 0⟩ cs := by
  rw [ruLoop_cons hr', if_neg (by decide), if_neg (by simp), digitOf_zero hr]
  simp only
  have : accDigit r ⟨none, 0, k⟩ 0 = ⟨none, 0, k + 1⟩ := by
    show (if (0 * r + 0) % W64 ≥ longlimit r then _ else _) = _
    rw [if_neg]
    · simp
    · have := (limit_table r (by omega) hr).2.2; simp; omega
  rw [this]
  exact ruLoop_digits hr' _ _ _ _ _ _

/-- Skipping leading zeros changes nothing. -/
theorem readUint_eq {r : Nat} (hr : 2 ≤ r) (hr' : r ≤ 36) (strict : Bool) (s : List Char) :
    readUint r strict s = ruLoop r strict true false false ⟨none, 0, 0⟩ s := by
  have key : ∀ s : List Char, ruLoop r strict false true false ⟨none, 0, 0⟩ (s.dropWhile (· = '0')) = ruLoop r strict false true false ⟨none, 0, 0⟩ s := by
    intro s
    induction s with
    | nil => rfl
    | cons c cs ih =>
      by_cases h : c = '0'
      · subst h
        rw [List.dropWhile_cons_of_pos (by simp), ih]
        exact (ruLoop_zero hr hr' strict true 0 cs).symm
      · rw [List.dropWhile_cons_of_neg (by simpa using h)]
  cases s with
  | nil => rfl
  | cons c cs =>
    unfold readUint
    by_cases h : c = '0'
    · subst h
      rw [List.takeWhile_cons_of_pos (by simp), List.dropWhile_cons_of_pos (by simp)]
      show ruLoop r strict false true false ⟨none, 0, 0⟩ (cs.dropWhile (· = '0')) = _
      rw [key]
      exact (ruLoop_zero hr hr' strict false 0 cs).symm
    · rw [List.takeWhile_cons_of_neg (by simpa using h), List.dropWhile_cons_of_neg (by simpa using h)]
      rfl

theorem fold_spec {r : Nat} (hr : 2 ≤ r) (hr' : r ≤ 36) (ds : List Nat) : ∀ (a : Acc), a.Inv r → (∀ d ∈ ds, d < r) →
    (ds.foldl (accDigit r) a).Inv r ∧ (ds.foldl (accDigit r) a).val r = ds.foldl (fun a d => a * r + d) (a.val r) := by
  induction ds with
  | nil => intro a h _; exact ⟨h, rfl⟩
  | cons d ds ih =>
    intro a h hd
    obtain ⟨h1, h2⟩ := accDigit_spec hr hr' h (hd d (by simp))
    obtain ⟨h3, h4⟩ := ih _ h1 (fun x hx => hd x (by simp [hx]))
    exact ⟨h3, by rw [List.foldl_cons, h4, h2]; rfl⟩

theorem TokOk.lt {r : Nat} {strict : Bool} : ∀ {tok : List Char} {dr us : Bool} {ds : List Nat}, TokOk r strict dr us tok ds → ∀ d ∈ ds, d < r := by
  intro tok
  induction tok with
  | nil => intro dr us ds h d hd; rw [h.2.2] at hd; simp at hd
  | cons c cs ih =>
    intro dr us ds h d hd
    rcases h with ⟨_, _, _, _, h⟩ | ⟨d', ds', h1, h2, h3⟩
    · exact ih h d hd
    · subst h2
      rcases List.mem_cons.1 hd with rfl | hd
      · exact digitOf_lt h1
      · exact ih h3 d hd

theorem readUint_iff {r : Nat} (hr : 2 ≤ r) (hr' : r ≤ 36) (strict : Bool) (s : List Char) (n : Num) (rest : List Char) :
    readUint r strict s = .ok n rest ↔ ∃ tok ds, s = tok ++ rest ∧ TokOk r strict false false tok ds ∧ Stop r rest ∧ n.IsInt (ofBE r ds) := by
  have hi : (⟨none, 0, 0⟩ : Acc).Inv r := Nat.zero_le _
  rw [readUint_eq hr hr', show true = !false from rfl, ruLoop_iff hr']
  constructor
  · rintro ⟨tok, ds, h1, h2, h3, h4⟩
    obtain ⟨f1, f2⟩ := fold_spec hr hr' ds _ hi h2.lt
    have := accFinish_spec hr hr' f1
    rw [f2] at this
    exact ⟨tok, ds, h1, h2, h3, by rw [h4]; exact this⟩
  · rintro ⟨tok, ds, h1, h2, h3, h4⟩
    obtain ⟨f1, f2⟩ := fold_spec hr hr' ds _ hi h2.lt
    have := accFinish_spec hr hr' f1
    rw [f2] at this
    exact ⟨tok, ds, h1, h2, h3, canon_unique h4.1 this.1 (h4.2.trans this.2.symm)⟩

/-! ### the grammar -/

/-- `TokOk` without recursion. -/
theorem tokOk_iff (r : Nat) (strict : Bool) (s : List Char) : ∀ (dr us : Bool) (ds : List Nat), TokOk r strict dr us s ds ↔
    ((s.filter (· ≠ '_')).map (digitOf r) = ds.map some ∧ (strict = true → '_' ∉ s) ∧ ¬ ['_', '_'] <:+: s ∧
      (s = [] → dr = true ∧ us = false) ∧ s.getLast? ≠ some '_' ∧ (s.head? = some '_' → dr = true ∧ us = false)) := by
  induction s with
  | nil =>
    intro dr us ds
    show (dr = true ∧ us = false ∧ ds = []) ↔ _
    simp
    constructor
    · rintro ⟨h1, h2, h3⟩; exact ⟨h3, h1, h2⟩
    · rintro ⟨h1, h2, h3⟩; exact ⟨h2, h3, h1⟩
  | cons c cs ih =>
    intro dr us ds
    rw [TokOk]
    simp only [ih]
    have hlast : (c :: cs).getLast? = some '_' ↔ (cs = [] ∧ c = '_') ∨ cs.getLast? = some '_' := by
      cases cs with
      | nil => simp
      | cons x t => rw [List.getLast?_cons_cons]; simp
    have hinf : ['_', '_'] <:+: c :: cs ↔ (c = '_' ∧ cs.head? = some '_') ∨ ['_', '_'] <:+: cs := by
      rw [List.infix_cons_iff]
      apply or_congr _ Iff.rfl
      rw [List.cons_prefix_cons]
      apply and_congr (eq_comm)
      cases cs with
      | nil => simp
      | cons x t => rw [List.cons_prefix_cons]; simp [eq_comm]
    rw [hinf]
    rw [show ((c :: cs).getLast? ≠ some '_') = ¬ ((cs = [] ∧ c = '_') ∨ cs.getLast? = some '_') from by
      rw [Ne, hlast]]
    by_cases hc : c = '_'
    · subst hc
      rw [List.filter_cons_of_neg (by simp)]
      simp only [digitOf_us, List.head?_cons]
      constructor
      · rintro (⟨_, h1, h2, h3, h4, h5, h6, h7, h8, h9⟩ | ⟨d, ds', h, _⟩)
        · refine ⟨h4, by rw [h1]; simp, ?_, by simp, ?_, fun _ => ⟨h2, h3⟩⟩
          · rintro (⟨_, h⟩ | h)
            · exact absurd (h9 h).2 (by simp)
            · exact h6 h
          · rintro (⟨h, _⟩ | h)
            · exact absurd (h7 h).2 (by simp)
            · exact h8 h
        · cases h
      · rintro ⟨h1, h2, h3, _, h5, h6⟩
        left
        obtain ⟨k1, k2⟩ := h6 trivial
        have hs : strict = false := by
          cases strict with
          | true => exact absurd (List.mem_cons_self) (h2 rfl)
          | false => rfl
        refine ⟨trivial, hs, k1, k2, h1, by rw [hs]; simp, fun h => h3 (Or.inr h), ?_, fun h => h5 (Or.inr h), ?_⟩
        · intro h; exact absurd (Or.inl ⟨h, trivial⟩) h5
        · intro h; exact absurd (Or.inl ⟨trivial, h⟩) h3
    · rw [List.filter_cons_of_pos (by simpa using hc)]
      simp only [hc, false_and, false_or, and_false, List.map_cons, List.head?_cons, List.mem_cons, reduceCtorEq, false_implies, true_and,
        Option.some.injEq, and_true]
      constructor
      · rintro ⟨d, ds', h1, rfl, h2, h3, h4, _, h6, _⟩
        exact ⟨by rw [h1, h2]; rfl, fun h => by
          rintro (h' | h')
          · exact hc h'.symm
          · exact h3 h h', h4, h6⟩
      · rintro ⟨h1, h2, h3, h4⟩
        cases ds with
        | nil => simp at h1
        | cons d ds' =>
          simp only [List.map_cons, List.cons.injEq] at h1
          exact ⟨d, ds', h1.1, rfl, h1.2, fun h h' => h2 h (Or.inr h'), h3, fun _ => trivial, h4, fun _ => trivial⟩

theorem uint_iff (r : Nat) (strict : Bool) (s : List Char) (n : Nat) :
    UIntText r strict s n ↔ ∃ ds, TokOk r strict false false s ds ∧ ofBE r ds = n := by
  unfold UIntText
  simp only [tokOk_iff]
  constructor
  · rintro ⟨⟨ds, h1, h2, h3⟩, h4, h5, h6, h7⟩
    refine ⟨ds, ⟨h1, h7, h6, ?_, h5, fun h => absurd h h4⟩, h3⟩
    intro h; subst h; simp at h1; exact absurd h1 h2
  · rintro ⟨ds, ⟨h1, h7, h6, h4, h5, h8⟩, h3⟩
    refine ⟨⟨ds, h1, ?_, h3⟩, ?_, h5, h6, h7⟩
    · intro h; subst h
      cases s with
      | nil => simpa using (h4 rfl).1
      | cons c cs =>
        by_cases hc : c = '_'
        · subst hc; simpa using (h8 rfl).1
        · rw [List.filter_cons_of_pos (by simpa using hc)] at h1; simp at h1
    · intro h; simpa using (h8 h).1

/-- What `read_uint` reads. -/
theorem readUint_iff' {r : Nat} (hr : 2 ≤ r) (hr' : r ≤ 36) (strict : Bool) (s : List Char) (n : Num) (rest : List Char) :
    readUint r strict s = .ok n rest ↔ ∃ tok, ∃ k : Nat, s = tok ++ rest ∧ UIntText r strict tok k ∧ Stop r rest ∧ n.IsInt k := by
  rw [readUint_iff hr hr']
  constructor
  · rintro ⟨tok, ds, h1, h2, h3, h4⟩
    exact ⟨tok, _, h1, (uint_iff _ _ _ _).2 ⟨ds, h2, rfl⟩, h3, h4⟩
  · rintro ⟨tok, k, h1, h2, h3, h4⟩
    obtain ⟨ds, k1, k2⟩ := (uint_iff _ _ _ _).1 h2
    exact ⟨tok, ds, h1, k1, h3, by rw [k2]; exact h4⟩

theorem uint_chars {r : Nat} {strict : Bool} {s : List Char} {n : Nat} (h : UIntText r strict s n) :
    ∀ c ∈ s, c = '_' ∨ ∃ d, digitOf r c = some d := by
  obtain ⟨⟨ds, h1, _⟩, _⟩ := h
  intro c hc
  by_cases hu : c = '_'
  · exact Or.inl hu
  · right
    have : digitOf r c ∈ ds.map some := by
      rw [← h1]; exact List.mem_map_of_mem (List.mem_filter.2 ⟨hc, by simpa using hu⟩)
    obtain ⟨d, _, h⟩ := List.mem_map.1 this
    exact ⟨d, h.symm⟩

theorem uint_head {r : Nat} {strict : Bool} {s : List Char} {n : Nat} (h : UIntText r strict s n) :
    ∃ c cs d, s = c :: cs ∧ digitOf r c = some d := by
  cases s with
  | nil =>
    obtain ⟨⟨ds, h1, h2, _⟩, _⟩ := h
    cases ds with
    | nil => exact absurd rfl h2
    | cons _ _ => simp at h1
  | cons c cs =>
    rcases uint_chars h c (by simp) with rfl | ⟨d, hd⟩
    · exact absurd rfl h.2.1
    · exact ⟨c, cs, d, rfl, hd⟩

/-! ### signed numbers -/

/-- The unsigned part of a number text. -/
def URat (r : Nat) (strict : Bool) (sgn : Int) (s : List Char) (v : ℚ) : Prop :=
  (∃ n : Nat, UIntText r strict s n ∧ v = sgn * n) ∨
  (∃ a b, ∃ n d : Nat, s = a ++ '/' :: b ∧ UIntText r strict a n ∧ UIntText r strict b d ∧ d ≠ 0 ∧ v = sgn * n / d)

theorem urat_chars {r : Nat} {strict : Bool} {sgn : Int} {s : List Char} {v : ℚ} (h : URat r strict sgn s v) :
    ∀ c ∈ s, c = '_' ∨ c = '/' ∨ ∃ d, digitOf r c = some d := by
  intro c hc
  rcases h with ⟨n, h, _⟩ | ⟨a, b, n, d, rfl, h1, h2, _⟩
  · rcases uint_chars h c hc with h | h
    · exact Or.inl h
    · exact Or.inr (Or.inr h)
  · rcases List.mem_append.1 hc with hc | hc
    · rcases uint_chars h1 c hc with h | h
      · exact Or.inl h
      · exact Or.inr (Or.inr h)
    · rcases List.mem_cons.1 hc with hc | hc
      · exact Or.inr (Or.inl hc)
      · rcases uint_chars h2 c hc with h | h
        · exact Or.inl h
        · exact Or.inr (Or.inr h)

theorem urat_head {r : Nat} {strict : Bool} {sgn : Int} {s : List Char} {v : ℚ} (h : URat r strict sgn s v) :
    ∃ c cs d, s = c :: cs ∧ digitOf r c = some d := by
  rcases h with ⟨n, h, _⟩ | ⟨a, b, n, d, rfl, h1, h2, _⟩
  · exact uint_head h
  · obtain ⟨c, cs, d, rfl, hd⟩ := uint_head h1
    exact ⟨c, cs ++ '/' :: b, d, rfl, hd⟩

theorem digitOf_table : ∀ r, r < 37 → digitOf r '.' = none ∧ digitOf r '+' = none ∧ digitOf r '-' = none ∧ digitOf r '#' = none := by
  decide +kernel

theorem lower_dot : ∀ c, c < 128 → ((Char.ofNat c).toLower = '.' → Char.ofNat c = '.') := by
  decide +kernel

theorem not_special {s : List Char} (h : '.' ∉ s) : isSpecial s = false := by
  unfold isSpecial
  have key : '.' ∉ (s.take 5).map Char.toLower := by
    intro hm
    obtain ⟨c, hc, he⟩ := List.mem_map.1 hm
    have : c = '.' := by
      by_cases h : c.toNat < 128
      · have := lower_dot c.toNat h
        rw [Char.ofNat_toNat] at this
        exact this he
      · rw [toLower_big (by omega)] at he; exact he
    subst this
    exact h (List.mem_of_mem_take hc)
  have h1 : (s.take 5).map Char.toLower ≠ "inf.0".toList := by
    intro h; rw [h] at key; exact key (by decide)
  have h2 : (s.take 5).map Char.toLower ≠ "nan.0".toList := by
    intro h; rw [h] at key; exact key (by decide)
  show (_ == _ || _ == _) = false
  rw [beq_false_of_ne h1, beq_false_of_ne h2]; rfl

theorem stop_nil (r : Nat) : Stop r [] := by intro c cs h; cases h
theorem stop_slash (r : Nat) (s : List Char) : Stop r ('/' :: s) := by
  intro c cs h; simp at h
  obtain ⟨rfl, _⟩ := h
  exact ⟨by decide, by decide, digitOf_slash r⟩

theorem readUint_full {r : Nat} (hr : 2 ≤ r) (hr' : r ≤ 36) {strict : Bool} {s rest : List Char} {k : Nat} (h : UIntText r strict s k)
    (hs : Stop r rest) : ∃ n, readUint r strict (s ++ rest) = .ok n rest ∧ n.IsInt k := by
  have : ∃ n : Num, n.IsInt k := by
    obtain ⟨ds, h1, h2⟩ := (uint_iff _ _ _ _).1 h
    obtain ⟨f1, f2⟩ := fold_spec hr hr' ds ⟨none, 0, 0⟩ (Nat.zero_le _) h1.lt
    have := accFinish_spec hr hr' f1
    rw [f2] at this
    exact ⟨_, by rw [← h2]; exact this⟩
  obtain ⟨n, hn⟩ := this
  exact ⟨n, (readUint_iff' hr hr' strict _ n rest).2 ⟨s, k, rfl, h, hs, hn⟩, hn⟩

theorem signed_isInt {n : Num} {k : Nat} (hn : n.IsInt k) (mp : Bool) : (if mp then scmNegate n else n).IsInt ((if mp then -1 else 1) * (k : Int)) := by
  cases mp with
  | false => simpa using hn
  | true =>
    have := scmNegate_isInt hn.1
    rw [hn.2] at this
    simpa using this

theorem readUreal_iff {r : Nat} (hr : 2 ≤ r) (hr' : r ≤ 36) (strict : Bool) (ex : Exactness) (mp sg : Bool) (s : List Char) (q : Q)
    (hx : mp = true → ∀ a b, s = a ++ '/' :: b → ∀ d, UIntText r strict a 2305843009213693952 → UIntText r strict b d → ¬ 2305843009213693952 ∣ d) :
    readUreal r strict ex mp sg s = .num q [] ↔ ex ≠ .inexact ∧ ∃ v, URat r strict (if mp then -1 else 1) s v ∧ q.IsRat v := by
  have hrat : ∀ {a b : List Char} {n d : Num} {k m : Nat}, s = a ++ '/' :: b → UIntText r strict a k → UIntText r strict b m → n.IsInt k → d.IsInt m → m ≠ 0 →
      ∃ q, makeRational (if mp then scmNegate n else n) d = .ok q ∧ q.IsRat (((if mp then -1 else 1 : Int) : ℚ) * k / m) := by
    intro a b n d k m hs ha hb hn hd hm
    have h1 := signed_isInt hn mp
    obtain ⟨q, q1, q2⟩ := makeRational_spec h1.1 hd.1 (by rw [hd.2]; omega) (by
      rw [h1.2, hd.2, Int.sign_eq_one_of_pos (by omega), mul_one]
      rintro ⟨e1, e2⟩
      cases mp with
      | false => simp at e1
      | true =>
        simp only [if_true] at e1
        have hk : k = 2305843009213693952 := by omega
        subst hk
        exact hx rfl a b hs m ha hb (by exact_mod_cast e2))
    refine ⟨q, q1, ?_⟩
    rw [h1.2, hd.2] at q2
    push_cast at q2 ⊢
    exact q2
  constructor
  · intro h
    unfold readUreal at h
    by_cases h0 : s = []
    · rw [if_pos h0] at h; cases h
    rw [if_neg h0] at h
    by_cases h1 : (sg && isSpecial s) = true
    · rw [if_pos h1] at h; cases h
    rw [if_neg h1] at h
    by_cases h2 : s.head? = some '.'
    · rw [if_pos h2] at h; cases h
    rw [if_neg h2] at h
    cases hu : readUint r strict s with
    | pad => rw [hu] at h; cases h
    | bad => rw [hu] at h; cases h
    | ok n rest =>
      rw [hu] at h
      obtain ⟨tok, k, e1, e2, e3, e4⟩ := (readUint_iff' hr hr' _ _ _ _).1 hu
      cases rest with
      | nil =>
        simp only at h
        by_cases hi : ex = .inexact
        · rw [if_pos hi] at h; cases h
        · rw [if_neg hi] at h
          simp only [RR.num.injEq, and_true] at h
          rw [List.append_nil] at e1
          subst e1
          refine ⟨hi, _, Or.inl ⟨k, e2, rfl⟩, ?_⟩
          have := signed_isInt e4 mp
          rw [← h]
          exact ⟨this.1, by show ((Num.toInt _ : Int) : ℚ) = _; rw [this.2]; push_cast; rfl⟩
      | cons c rest' =>
        simp only at h
        by_cases hc : c = '/'
        · rw [if_pos hc] at h
          subst hc
          by_cases hr0 : rest' = []
          · rw [if_pos hr0] at h; cases h
          rw [if_neg hr0] at h
          cases hu2 : readUint r strict rest' with
          | pad => rw [hu2] at h; cases h
          | bad => rw [hu2] at h; cases h
          | ok d rest'' =>
            rw [hu2] at h
            simp only at h
            obtain ⟨tok2, m, g1, g2, g3, g4⟩ := (readUint_iff' hr hr' _ _ _ _).1 hu2
            by_cases hd : d = .fix 0
            · rw [if_pos hd] at h
              split at h <;> cases h
            rw [if_neg hd] at h
            by_cases hi : ex = .inexact
            · rw [if_pos hi] at h; cases h
            rw [if_neg hi] at h
            have hm : m ≠ 0 := by
              rintro rfl
              exact hd (canon_unique g4.1 (show FIXMIN ≤ (0 : Int) ∧ (0 : Int) ≤ FIXMAX by omega) (by rw [g4.2]; rfl))
            cases hq : makeRational (if mp then scmNegate n else n) d with
            | ok q' =>
              rw [hq] at h
              simp only [RR.num.injEq] at h
              obtain ⟨rfl, rfl⟩ := h
              rw [List.append_nil] at g1
              subst g1
              obtain ⟨q2, k1, k2⟩ := hrat e1 e2 g2 e4 g4 hm
              rw [hq] at k1
              simp only [Res.ok.injEq] at k1
              subst k1
              exact ⟨hi, _, Or.inr ⟨tok, rest', k, m, e1, e2, g2, hm, rfl⟩, k2⟩
            | err => rw [hq] at h; cases h
            | ub => rw [hq] at h; cases h
        · rw [if_neg hc] at h; cases h
  · rintro ⟨hi, v, hv, hq⟩
    have hch := urat_chars hv
    obtain ⟨c0, cs0, d0, he, hd0⟩ := urat_head hv
    have hdot : '.' ∉ s := by
      intro hm
      rcases hch _ hm with h | h | ⟨d, h⟩
      · exact absurd h (by decide)
      · exact absurd h (by decide)
      · rw [(digitOf_table r (by omega)).1] at h; cases h
    unfold readUreal
    rw [if_neg (by rw [he]; simp), not_special hdot, Bool.and_false, if_neg (by simp), if_neg (by
      intro h; rw [he] at h; simp at h; rw [h, (digitOf_table r (by omega)).1] at hd0; cases hd0)]
    rcases hv with ⟨n, h1, rfl⟩ | ⟨a, b, n, d, hs, h1, h2, h3, rfl⟩
    · obtain ⟨m, m1, m2⟩ := readUint_full hr hr' h1 (stop_nil r)
      rw [List.append_nil] at m1
      rw [m1]
      simp only
      rw [if_neg hi]
      have hm := signed_isInt m2 mp
      have : (Q.int (if mp then scmNegate m else m)) = q := by
        apply canonQ_unique (x := .int _) hm.1 hq.1
        rw [hq.2]
        show ((Num.toInt _ : Int) : ℚ) = _
        rw [hm.2]; push_cast; rfl
      rw [this]
    · obtain ⟨m, m1, m2⟩ := readUint_full hr hr' h1 (stop_slash r b)
      rw [← hs] at m1
      rw [m1]
      simp only [if_true]
      obtain ⟨cb, cbs, db, heb, _⟩ := uint_head h2
      rw [if_neg (by rw [heb]; simp)]
      obtain ⟨x, x1, x2⟩ := readUint_full hr hr' h2 (stop_nil r)
      rw [List.append_nil] at x1
      rw [x1]
      simp only
      have hx0 : x ≠ .fix 0 := by
        rintro rfl
        have : ((0 : Int)) = d := x2.2
        omega
      rw [if_neg hx0, if_neg hi]
      obtain ⟨q', q1, q2⟩ := hrat hs h1 h2 m2 x2 h3
      rw [q1]
      simp only
      rw [canonQ_unique q2.1 hq.1 (by rw [q2.2, hq.2])]

theorem digitOf_sign {r : Nat} (hr : r ≤ 36) {c : Char} {d : Nat} (h : digitOf r c = some d) : c ≠ '+' ∧ c ≠ '-' ∧ c ≠ '#' := by
  obtain ⟨_, h1, h2, h3⟩ := digitOf_table r (by omega)
  refine ⟨?_, ?_, ?_⟩ <;> rintro rfl
  · rw [h1] at h; cases h
  · rw [h2] at h; cases h
  · rw [h3] at h; cases h

theorem ratText_iff {r : Nat} (hr : r ≤ 36) (strict : Bool) (s : List Char) (v : ℚ) : RatText r strict s v ↔
    (∃ cs, s = '-' :: cs ∧ URat r strict (-1) cs v) ∨ (∃ cs, s = '+' :: cs ∧ URat r strict 1 cs v) ∨
    (s.head? ≠ some '-' ∧ s.head? ≠ some '+' ∧ URat r strict 1 s v) := by
  constructor
  · rintro ⟨sg, body, sgn, rfl, h1, h2⟩
    rcases h1 with ⟨rfl, rfl⟩ | ⟨rfl, rfl⟩ | ⟨rfl, rfl⟩
    · right; right
      have h2' : URat r strict 1 body v := h2
      obtain ⟨c, cs, d, rfl, hd⟩ := urat_head h2'
      obtain ⟨k1, k2, _⟩ := digitOf_sign hr hd
      exact ⟨by simpa using k2, by simpa using k1, h2'⟩
    · right; left; exact ⟨body, rfl, h2⟩
    · left; exact ⟨body, rfl, h2⟩
  · rintro (⟨cs, rfl, h⟩ | ⟨cs, rfl, h⟩ | ⟨_, _, h⟩)
    · exact ⟨['-'], cs, -1, rfl, Or.inr (Or.inr ⟨rfl, rfl⟩), h⟩
    · exact ⟨['+'], cs, 1, rfl, Or.inr (Or.inl ⟨rfl, rfl⟩), h⟩
    · exact ⟨[], s, 1, rfl, Or.inl ⟨rfl, rfl⟩, h⟩

theorem readReal_iff {r : Nat} (hr : 2 ≤ r) (hr' : r ≤ 36) (strict : Bool) (ex : Exactness) (s : List Char) (q : Q) (hf : ¬ FixminFraction r strict s) :
    readReal r strict ex s = .num q [] ↔ ex ≠ .inexact ∧ ∃ v, RatText r strict s v ∧ q.IsRat v := by
  have fin : ∀ {P : ℚ → Prop}, (∀ v, RatText r strict s v ↔ P v) →
      (readReal r strict ex s = .num q [] ↔ ex ≠ .inexact ∧ ∃ v, P v ∧ q.IsRat v) →
      (readReal r strict ex s = .num q [] ↔ ex ≠ .inexact ∧ ∃ v, RatText r strict s v ∧ q.IsRat v) := by
    intro P h1 h2
    rw [h2]
    simp only [h1]
  by_cases h1 : ∃ cs, s = '-' :: cs
  · obtain ⟨cs, rfl⟩ := h1
    refine fin (P := URat r strict (-1) cs) (fun v => ?_) (readUreal_iff hr hr' strict ex true true cs q ?_)
    · rw [ratText_iff hr']; simp
    · rintro - a b rfl d ha hb hd
      exact hf ⟨a, b, d, rfl, ha, hb, hd⟩
  · by_cases h2 : ∃ cs, s = '+' :: cs
    · obtain ⟨cs, rfl⟩ := h2
      refine fin (P := URat r strict 1 cs) (fun v => ?_) (readUreal_iff hr hr' strict ex false true cs q (by simp))
      rw [ratText_iff hr']; simp
    · have e : readReal r strict ex s = readUreal r strict ex false false s := by
        cases s with
        | nil => rfl
        | cons c cs =>
          have k1 : c ≠ '-' := fun h => h1 ⟨cs, by rw [h]⟩
          have k2 : c ≠ '+' := fun h => h2 ⟨cs, by rw [h]⟩
          unfold readReal
          split
          · next h => simp at h; exact absurd h.1 k1
          · next h => simp at h; exact absurd h.1 k2
          · rfl
      refine fin (P := URat r strict 1 s) (fun v => ?_) (by rw [e]; exact readUreal_iff hr hr' strict ex false false s q (by simp))
      rw [ratText_iff hr']
      constructor
      · rintro (⟨cs, h, _⟩ | ⟨cs, h, _⟩ | ⟨_, _, h⟩)
        · exact absurd ⟨cs, h⟩ h1
        · exact absurd ⟨cs, h⟩ h2
        · exact h
      · intro h
        refine Or.inr (Or.inr ⟨?_, ?_, h⟩) <;> intro hh
        · cases s with
          | nil => simp at hh
          | cons c cs => simp at hh; exact h1 ⟨cs, by rw [hh]⟩
        · cases s with
          | nil => simp at hh
          | cons c cs => simp at hh; exact h2 ⟨cs, by rw [hh]⟩

theorem imaginary_iff (s : List Char) : ImaginaryUnit s ↔
    (s.head? = some '+' ∨ s.head? = some '-') ∧ s.length = 2 ∧ (s[1]? = some 'i' ∨ s[1]? = some 'I') := by
  unfold ImaginaryUnit
  match s with
  | [] => simp
  | [a] => simp
  | [a, b] =>
    simp
    constructor
    · rintro (⟨rfl, rfl⟩ | ⟨rfl, rfl⟩ | ⟨rfl, rfl⟩ | ⟨rfl, rfl⟩) <;> simp
    · rintro ⟨rfl | rfl, rfl | rfl⟩ <;> simp
  | a :: b :: c :: t => simp

theorem readBody_iff {r : Nat} (hr : 2 ≤ r) (hr' : r ≤ 36) (strict : Bool) (ex : Exactness) (s : List Char) (q : Q) (hf : ¬ FixminFraction r strict s) :
    readBody r strict ex s = .num q ↔ ex ≠ .inexact ∧ ¬ ImaginaryUnit s ∧ ∃ v, RatText r strict s v ∧ q.IsRat v := by
  have hne : ∀ v, RatText r strict s v → s ≠ [] ∧ ¬ ((s.head? = some '+' ∨ s.head? = some '-') ∧ s.length = 1) := by
    intro v hv
    rw [ratText_iff hr'] at hv
    rcases hv with ⟨cs, rfl, h⟩ | ⟨cs, rfl, h⟩ | ⟨h1, h2, h⟩
    · obtain ⟨c, t, d, rfl, _⟩ := urat_head h; simp
    · obtain ⟨c, t, d, rfl, _⟩ := urat_head h; simp
    · obtain ⟨c, t, d, rfl, _⟩ := urat_head h
      exact ⟨by simp, fun hh => by rcases hh.1 with h | h; exact h2 h; exact h1 h⟩
  have hreal := readReal_iff hr hr' strict ex s q hf
  unfold readBody
  by_cases h0 : s = []
  · rw [if_pos h0]
    refine ⟨fun h => (by cases h), ?_⟩
    rintro ⟨_, _, v, hv, _⟩
    exact absurd h0 (hne v hv).1
  rw [if_neg h0]
  by_cases h1 : (s.head? = some '+' ∨ s.head? = some '-') ∧ s.length = 1
  · rw [if_pos h1]
    refine ⟨fun h => (by cases h), ?_⟩
    rintro ⟨_, _, v, hv, _⟩
    exact absurd h1 (hne v hv).2
  rw [if_neg h1]
  by_cases h2 : (s.head? = some '+' ∨ s.head? = some '-') ∧ s.length = 2 ∧ (s[1]? = some 'i' ∨ s[1]? = some 'I')
  · rw [if_pos h2]
    constructor
    · intro h; split at h <;> cases h
    · rintro ⟨_, h, _⟩
      exact absurd ((imaginary_iff s).2 h2) h
  rw [if_neg h2]
  have h2' : ¬ ImaginaryUnit s := fun h => h2 ((imaginary_iff s).1 h)
  have e : (ex ≠ .inexact ∧ ¬ ImaginaryUnit s ∧ ∃ v, RatText r strict s v ∧ q.IsRat v) ↔ readReal r strict ex s = .num q [] := by
    rw [hreal]
    exact ⟨fun h => ⟨h.1, h.2.2⟩, fun h => ⟨h.1, h2', h.2⟩⟩
  rw [e]
  cases readReal r strict ex s with
  | num q' rest =>
    cases rest with
    | nil => simp
    | cons c cs =>
      simp only [RR.num.injEq, reduceCtorEq, and_false, iff_false]
      split <;> simp
  | no => simp
  | other => simp

/-! ### prefixes -/

/-- The exactness markers of the code and of the specification. -/
def toMark : Exactness → Mark
  | .noexact => .none
  | .exact => .exact
  | .inexact => .inexact

theorem toMark_inexact (e : Exactness) : toMark e = .inexact ↔ e = .inexact := by cases e <;> simp [toMark]

/-- One step over a radix prefix. -/
theorem parseDigits_run (t : Char) (rest : List Char) (ht : ¬ (48 ≤ t.toNat ∧ t.toNat < 58)) (w : List Char) : ∀ (val k : Nat) (ds : List Nat),
    w.map (digitOf 10) = ds.map some → ds.foldl (fun a d => a * 10 + d) val ≤ 36 →
    parseDigits val k (w ++ t :: rest) = .ok (some (ds.foldl (fun a d => a * 10 + d) val), t :: rest) := by
  have mono : ∀ (ds : List Nat) (v : Nat), v ≤ ds.foldl (fun a d => a * 10 + d) v := by
    intro ds
    induction ds with
    | nil => intro v; exact Nat.le_refl _
    | cons d ds ih => intro v; have := ih (v * 10 + d); rw [List.foldl_cons]; omega
  induction w with
  | nil =>
    intro val k ds h1 h2
    cases ds with
    | nil => rw [List.nil_append, parseDigits, if_neg ht]; rfl
    | cons d ds => simp at h1
  | cons c w ih =>
    intro val k ds h1 h2
    cases ds with
    | nil => simp at h1
    | cons d ds =>
      simp only [List.map_cons, List.cons.injEq] at h1
      have hd := h1.1
      have hc : (48 ≤ c.toNat ∧ c.toNat < 58) ∧ c.toNat - 48 = d := by
        unfold digitOf at hd
        by_cases a1 : 48 ≤ c.toNat ∧ c.toNat ≤ 57
        · rw [if_pos a1, Option.filter_eq_some_iff] at hd
          simp at hd; omega
        · rw [if_neg a1] at hd
          by_cases a2 : 97 ≤ c.toNat ∧ c.toNat ≤ 122
          · rw [if_pos a2, Option.filter_eq_some_iff] at hd; simp at hd; omega
          · rw [if_neg a2] at hd
            by_cases a3 : 65 ≤ c.toNat ∧ c.toNat ≤ 90
            · rw [if_pos a3, Option.filter_eq_some_iff] at hd; simp at hd; omega
            · rw [if_neg a3] at hd; cases hd
      have hm := mono ds (val * 10 + d)
      rw [List.foldl_cons] at h2 ⊢
      rw [List.cons_append, parseDigits, if_pos hc.1, if_neg (by omega), if_neg (by omega), hc.2]
      exact ih _ _ _ h1.2 h2

theorem parseDigits_inv (s : List Char) : ∀ (val k r : Nat) (t : Char) (rest : List Char), parseDigits val k s = .ok (some r, t :: rest) →
    ∃ w, ∃ ds : List Nat, s = w ++ t :: rest ∧ w.map (digitOf 10) = ds.map some ∧ r = ds.foldl (fun a d => a * 10 + d) val ∧ ¬ (48 ≤ t.toNat ∧ t.toNat < 58) := by
  induction s with
  | nil =>
    intro val k r t rest h
    unfold parseDigits at h
    split at h <;> simp at h
  | cons c cs ih =>
    intro val k r t rest h
    rw [parseDigits] at h
    by_cases hc : 48 ≤ c.toNat ∧ c.toNat < 58
    · rw [if_pos hc] at h
      by_cases h1 : val ≥ 9223372036854775807 / 10 + 1
      · rw [if_pos h1] at h; simp at h
      rw [if_neg h1] at h
      by_cases h2 : val * 10 + (c.toNat - 48) > 9223372036854775807
      · rw [if_pos h2] at h; simp at h
      rw [if_neg h2] at h
      obtain ⟨w, ds, e1, e2, e3, e4⟩ := ih _ _ _ _ _ h
      refine ⟨c :: w, (c.toNat - 48) :: ds, by rw [e1]; rfl, ?_, by rw [e3]; rfl, e4⟩
      rw [List.map_cons, List.map_cons, e2]
      congr 1
      unfold digitOf
      rw [if_pos (by omega)]
      simp [Option.filter]; omega
    · rw [if_neg hc] at h
      simp only [Res.ok.injEq, Prod.mk.injEq, Option.some.injEq, List.cons.injEq] at h
      obtain ⟨rfl, rfl, rfl⟩ := h
      exact ⟨[], [], rfl, rfl, rfl, hc⟩

theorem readPrefix_hash (f : Nat) (cx : Ctx) (rs es : Bool) (c : Char) (cs : List Char) :
    readPrefix (f + 1) cx rs es ('#' :: c :: cs) =
      (if c = 'x' ∨ c = 'X' then (if cx.noRadixPrefix || rs then .no else readPrefix f { cx with radix := 16 } true es cs)
      else if c = 'o' ∨ c = 'O' then (if cx.noRadixPrefix || rs then .no else readPrefix f { cx with radix := 8 } true es cs)
      else if c = 'b' ∨ c = 'B' then (if cx.noRadixPrefix || rs then .no else readPrefix f { cx with radix := 2 } true es cs)
      else if c = 'd' ∨ c = 'D' then (if cx.noRadixPrefix || rs then .no else readPrefix f { cx with radix := 10 } true es cs)
      else if c = 'e' ∨ c = 'E' then (if es then .no else readPrefix f { cx with ex := .exact } rs true cs)
      else if c = 'i' ∨ c = 'I' then (if es then .no else readPrefix f { cx with ex := .inexact } rs true cs)
      else if 48 ≤ c.toNat ∧ c.toNat < 58 then
        if cx.noRadixPrefix || cx.strict || rs then .no
        else
          match parseDigits 0 0 (c :: cs) with
          | .ok (some r, t :: rest) =>
            if r < 2 ∨ r > 36 then .no
            else if t = 'r' ∨ t = 'R' then readPrefix f { cx with radix := r } true es rest
            else .no
          | .ok _ => .no
          | _ => .ub
      else .no) := by rfl

theorem readPrefix_body (f : Nat) (cx : Ctx) (rs es : Bool) (s : List Char) (h : s.head? ≠ some '#') :
    readPrefix (f + 1) cx rs es s = readBody cx.radix cx.strict cx.ex s := by
  rw [readPrefix]
  · intro c cs h'; rw [h'] at h; simp at h
  · intro h'; rw [h'] at h; simp at h

theorem radix_step {cx : Ctx} {p : List Char} {r : Nat} (h : RadixPrefix cx.strict p r) (hn : cx.noRadixPrefix = false) (f : Nat) (es : Bool) (t : List Char) :
    readPrefix (f + 1) cx false es (p ++ t) = readPrefix f { cx with radix := r } true es t := by
  rcases h with ⟨h, rfl⟩ | ⟨h, rfl⟩ | ⟨h, rfl⟩ | ⟨h, rfl⟩ | ⟨hs, h2, h36, w, ds, c, rfl, hc, hw, hne, hv⟩
  iterate 4
    · simp only [List.mem_cons, List.not_mem_nil, or_false] at h
      rcases h with rfl | rfl <;>
      · show readPrefix (f + 1) cx false es ('#' :: _ :: t) = _
        rw [readPrefix_hash]
        simp [hn]
  cases w with
  | nil => cases ds with
    | nil => exact absurd rfl hne
    | cons _ _ => simp at hw
  | cons c0 w =>
    have hc0 : 48 ≤ c0.toNat ∧ c0.toNat < 58 := by
      cases ds with
      | nil => simp at hw
      | cons d ds =>
        simp only [List.map_cons, List.cons.injEq] at hw
        have hd := hw.1
        unfold digitOf at hd
        by_cases a1 : 48 ≤ c0.toNat ∧ c0.toNat ≤ 57
        · omega
        · rw [if_neg a1] at hd
          by_cases a2 : 97 ≤ c0.toNat ∧ c0.toNat ≤ 122
          · rw [if_pos a2, Option.filter_eq_some_iff] at hd; simp at hd; omega
          · rw [if_neg a2] at hd
            by_cases a3 : 65 ≤ c0.toNat ∧ c0.toNat ≤ 90
            · rw [if_pos a3, Option.filter_eq_some_iff] at hd; simp at hd; omega
            · rw [if_neg a3] at hd; cases hd
    have hct : ¬ (48 ≤ c.toNat ∧ c.toNat < 58) := by rcases hc with rfl | rfl <;> decide
    have hrun := parseDigits_run c t hct (c0 :: w) 0 0 ds hw (by
      show ofBE 10 ds ≤ 36; omega)
    have hnc : ∀ x : Char, ¬ (48 ≤ x.toNat ∧ x.toNat < 58) → c0 ≠ x := by rintro x hx rfl; exact hx hc0
    have e : '#' :: (c0 :: w) ++ [c] ++ t = '#' :: c0 :: (w ++ c :: t) := by simp
    rw [e, readPrefix_hash]
    rw [if_neg, if_neg, if_neg, if_neg, if_neg, if_neg, if_pos hc0, if_neg (by simp [hn, hs])]
    · rw [List.cons_append] at hrun
      rw [hrun]
      simp only
      rw [show ds.foldl (fun a d => a * 10 + d) 0 = r from hv, if_neg (by omega), if_pos hc]
    all_goals
      rintro (h | h)
      · exact hnc _ (by decide) h
      · exact hnc _ (by decide) h

theorem mark_step {cx : Ctx} {p : List Char} {e : Exactness} (h : MarkPrefix p (toMark e)) (f : Nat) (rs : Bool) (t : List Char) :
    readPrefix (f + 1) cx rs false (p ++ t) = readPrefix f { cx with ex := e } rs true t := by
  rcases h with ⟨h, he⟩ | ⟨h, he⟩
  · have : e = .exact := by cases e <;> simp [toMark] at he ⊢
    subst this
    simp only [List.mem_cons, List.not_mem_nil, or_false] at h
    rcases h with rfl | rfl <;>
    · show readPrefix (f + 1) cx rs false ('#' :: _ :: t) = _
      rw [readPrefix_hash]
      simp
  · have : e = .inexact := by cases e <;> simp [toMark] at he ⊢
    subst this
    simp only [List.mem_cons, List.not_mem_nil, or_false] at h
    rcases h with rfl | rfl <;>
    · show readPrefix (f + 1) cx rs false ('#' :: _ :: t) = _
      rw [readPrefix_hash]
      simp

theorem prefix_inv {f : Nat} {cx : Ctx} {rs es : Bool} {s : List Char} {q : Q} (h : readPrefix (f + 1) cx rs es s = .num q) :
    (s.head? ≠ some '#' ∧ readBody cx.radix cx.strict cx.ex s = .num q) ∨
    (∃ p t r, s = p ++ t ∧ 2 ≤ p.length ∧ cx.noRadixPrefix = false ∧ rs = false ∧ RadixPrefix cx.strict p r ∧ readPrefix f { cx with radix := r } true es t = .num q) ∨
    (∃ p t e, s = p ++ t ∧ 2 ≤ p.length ∧ es = false ∧ MarkPrefix p (toMark e) ∧ readPrefix f { cx with ex := e } rs true t = .num q) := by
  by_cases hh : s.head? ≠ some '#'
  · rw [readPrefix_body _ _ _ _ _ hh] at h
    exact Or.inl ⟨hh, h⟩
  right
  match s, hh with
  | [], hh => simp at hh
  | [c], hh =>
    simp at hh
    subst hh
    simp [readPrefix] at h
  | c0 :: c :: cs, hh =>
    simp at hh
    subst hh
    rw [readPrefix_hash] at h
    have rad : ∀ {r : Nat}, (if cx.noRadixPrefix || rs then Out.no else readPrefix f { cx with radix := r } true es cs) = .num q →
        RadixPrefix cx.strict ['#', c] r → ∃ p t r, '#' :: c :: cs = p ++ t ∧ 2 ≤ p.length ∧ cx.noRadixPrefix = false ∧ rs = false ∧ RadixPrefix cx.strict p r ∧ readPrefix f { cx with radix := r } true es t = .num q := by
      intro r h hp
      by_cases hb : (cx.noRadixPrefix || rs) = true
      · rw [if_pos hb] at h; cases h
      · rw [if_neg hb] at h
        have hb' : cx.noRadixPrefix = false ∧ rs = false := by simpa using hb
        exact ⟨['#', c], cs, r, rfl, by simp, hb'.1, hb'.2, hp, h⟩
    have mk : ∀ {e : Exactness}, (if es then Out.no else readPrefix f { cx with ex := e } rs true cs) = .num q →
        MarkPrefix ['#', c] (toMark e) → ∃ p t e, '#' :: c :: cs = p ++ t ∧ 2 ≤ p.length ∧ es = false ∧ MarkPrefix p (toMark e) ∧ readPrefix f { cx with ex := e } rs true t = .num q := by
      intro e h hp
      cases es with
      | true => simp at h
      | false => exact ⟨['#', c], cs, e, rfl, by simp, rfl, hp, h⟩
    by_cases c1 : c = 'x' ∨ c = 'X'
    · rw [if_pos c1] at h
      exact Or.inl (rad h (Or.inl ⟨by rcases c1 with rfl | rfl <;> simp, rfl⟩))
    rw [if_neg c1] at h
    by_cases c2 : c = 'o' ∨ c = 'O'
    · rw [if_pos c2] at h
      exact Or.inl (rad h (Or.inr (Or.inl ⟨by rcases c2 with rfl | rfl <;> simp, rfl⟩)))
    rw [if_neg c2] at h
    by_cases c3 : c = 'b' ∨ c = 'B'
    · rw [if_pos c3] at h
      exact Or.inl (rad h (Or.inr (Or.inr (Or.inl ⟨by rcases c3 with rfl | rfl <;> simp, rfl⟩))))
    rw [if_neg c3] at h
    by_cases c4 : c = 'd' ∨ c = 'D'
    · rw [if_pos c4] at h
      exact Or.inl (rad h (Or.inr (Or.inr (Or.inr (Or.inl ⟨by rcases c4 with rfl | rfl <;> simp, rfl⟩)))))
    rw [if_neg c4] at h
    by_cases c5 : c = 'e' ∨ c = 'E'
    · rw [if_pos c5] at h
      exact Or.inr (mk h (Or.inl ⟨by rcases c5 with rfl | rfl <;> simp, rfl⟩))
    rw [if_neg c5] at h
    by_cases c6 : c = 'i' ∨ c = 'I'
    · rw [if_pos c6] at h
      exact Or.inr (mk h (Or.inr ⟨by rcases c6 with rfl | rfl <;> simp, rfl⟩))
    rw [if_neg c6] at h
    by_cases c7 : 48 ≤ c.toNat ∧ c.toNat < 58
    · rw [if_pos c7] at h
      by_cases hb : (cx.noRadixPrefix || cx.strict || rs) = true
      · rw [if_pos hb] at h; cases h
      rw [if_neg hb] at h
      have hb' : (cx.noRadixPrefix = false ∧ cx.strict = false) ∧ rs = false := by simpa using hb
      cases hp : parseDigits 0 0 (c :: cs) with
      | err => rw [hp] at h; cases h
      | ub => rw [hp] at h; cases h
      | ok x =>
        rw [hp] at h
        match x with
        | (none, _) => cases h
        | (some r, []) => cases h
        | (some r, t :: rest) =>
          simp only at h
          by_cases hr : r < 2 ∨ r > 36
          · rw [if_pos hr] at h; cases h
          rw [if_neg hr] at h
          by_cases ht : t = 'r' ∨ t = 'R'
          · rw [if_pos ht] at h
            obtain ⟨w, ds, e1, e2, e3, e4⟩ := parseDigits_inv _ _ _ _ _ _ hp
            have hw : w ≠ [] := by
              rintro rfl
              simp only [List.nil_append, List.cons.injEq] at e1
              exact e4 (by rw [← e1.1]; exact c7)
            have hds : ds ≠ [] := by
              rintro rfl; simp at e2; exact hw e2
            refine Or.inl ⟨'#' :: w ++ [t], rest, r, by rw [e1]; simp, ?_, hb'.1.1, hb'.2, ?_, h⟩
            · simp
            · exact Or.inr (Or.inr (Or.inr (Or.inr ⟨hb'.1.2, by omega, by omega, w, ds, t, rfl, ht, e2, hds, e3.symm⟩)))
          · rw [if_neg ht] at h; cases h
    · rw [if_neg c7] at h; cases h

/-- The prefixes the reader accepts, read from left to right. -/
inductive Pre (strict : Bool) (noRadix : Bool) : Bool → Bool → Nat → Exactness → List Char → Nat → Exactness → Prop
  | nil {rs es r e} : Pre strict noRadix rs es r e [] r e
  | radix {es r0 e0 p1 p2 r1 r e} : noRadix = false → RadixPrefix strict p1 r1 → 2 ≤ p1.length → Pre strict noRadix true es r1 e0 p2 r e →
      Pre strict noRadix false es r0 e0 (p1 ++ p2) r e
  | mark {rs r0 e0 p1 p2 e1 r e} : MarkPrefix p1 (toMark e1) → 2 ≤ p1.length → Pre strict noRadix rs true r0 e1 p2 r e →
      Pre strict noRadix rs false r0 e0 (p1 ++ p2) r e

theorem readPrefix_iff (strict nr : Bool) (q : Q) (fuel : Nat) : ∀ (r0 : Nat) (e0 : Exactness) (rs es : Bool) (s : List Char), s.length < fuel →
    (readPrefix fuel ⟨r0, strict, nr, e0⟩ rs es s = .num q ↔
      ∃ p b r e, s = p ++ b ∧ Pre strict nr rs es r0 e0 p r e ∧ b.head? ≠ some '#' ∧ readBody r strict e b = .num q) := by
  induction fuel with
  | zero => intro _ _ _ _ s h; omega
  | succ f ih =>
    intro r0 e0 rs es s hl
    constructor
    · intro h
      rcases prefix_inv h with ⟨h1, h2⟩ | ⟨p, t, r, rfl, hp, h1, h2, h3, h4⟩ | ⟨p, t, e, rfl, hp, h1, h2, h3⟩
      · exact ⟨[], s, r0, e0, rfl, .nil, h1, h2⟩
      · rw [List.length_append] at hl
        obtain ⟨p2, b, r', e', k1, k2, k3, k4⟩ := (ih r e0 true es t (by omega)).1 h4
        subst h2
        exact ⟨p ++ p2, b, r', e', by rw [k1, List.append_assoc], .radix h1 h3 hp k2, k3, k4⟩
      · rw [List.length_append] at hl
        obtain ⟨p2, b, r', e', k1, k2, k3, k4⟩ := (ih r0 e rs true t (by omega)).1 h3
        subst h1
        exact ⟨p ++ p2, b, r', e', by rw [k1, List.append_assoc], .mark h2 hp k2, k3, k4⟩
    · rintro ⟨p, b, r, e, rfl, hp, hb, hq⟩
      cases hp with
      | nil => rw [List.nil_append, readPrefix_body _ _ _ _ _ hb]; exact hq
      | radix h1 h2 h3 h4 =>
        rw [List.append_assoc, List.length_append] at hl
        rw [List.append_assoc, radix_step (cx := ⟨r0, strict, nr, e0⟩) h2 h1]
        exact (ih _ _ _ _ _ (by omega)).2 ⟨_, b, r, e, rfl, h4, hb, hq⟩
      | mark h2 h3 h4 =>
        rw [List.append_assoc, List.length_append] at hl
        rw [List.append_assoc, mark_step (cx := ⟨r0, strict, nr, e0⟩) h2]
        exact (ih _ _ _ _ _ (by omega)).2 ⟨_, b, r, e, rfl, h4, hb, hq⟩

theorem radixPrefix_len {strict : Bool} {p : List Char} {r : Nat} (h : RadixPrefix strict p r) : 2 ≤ p.length ∧ 2 ≤ r ∧ r ≤ 36 := by
  rcases h with ⟨h, rfl⟩ | ⟨h, rfl⟩ | ⟨h, rfl⟩ | ⟨h, rfl⟩ | ⟨_, h2, h36, w, ds, c, rfl, _, hw, hne, _⟩
  iterate 4
    · simp only [List.mem_cons, List.not_mem_nil, or_false] at h
      rcases h with rfl | rfl <;> simp
  exact ⟨by simp, h2, h36⟩

theorem markPrefix_len {p : List Char} {e : Mark} (h : MarkPrefix p e) : 2 ≤ p.length := by
  rcases h with ⟨h, _⟩ | ⟨h, _⟩ <;>
  · simp only [List.mem_cons, List.not_mem_nil, or_false] at h
    rcases h with rfl | rfl <;> simp

theorem pre_range {strict nr rs es : Bool} {r0 : Nat} {e0 : Exactness} {p : List Char} {r : Nat} {e : Exactness}
    (h : Pre strict nr rs es r0 e0 p r e) (h0 : 2 ≤ r0 ∧ r0 ≤ 36) : 2 ≤ r ∧ r ≤ 36 := by
  induction h with
  | nil => exact h0
  | radix _ h _ _ ih => exact ih (radixPrefix_len h).2
  | mark _ _ _ ih => exact ih h0

theorem markPrefix_exactness {p : List Char} {m : Mark} (h : MarkPrefix p m) : ∃ e, toMark e = m := by
  rcases h with ⟨_, rfl⟩ | ⟨_, rfl⟩
  · exact ⟨.exact, rfl⟩
  · exact ⟨.inexact, rfl⟩

theorem toMark_inj {a b : Exactness} (h : toMark a = toMark b) : a = b := by cases a <;> cases b <;> simp [toMark] at h ⊢

theorem pre_iff (strict nr : Bool) (r0 : Nat) (e0 : Exactness) (p : List Char) (r : Nat) (e : Exactness) :
    Pre strict nr false false r0 e0 p r e ↔ Prefixes strict nr r0 (toMark e0) p r (toMark e) := by
  constructor
  · intro h
    cases h with
    | nil => exact Or.inl ⟨rfl, rfl, rfl⟩
    | radix h1 h2 _ h3 =>
      cases h3 with
      | nil => exact Or.inr (Or.inl ⟨h1, by rw [List.append_nil]; exact h2, rfl⟩)
      | mark k1 _ k2 =>
        cases k2 with
        | nil => exact Or.inr (Or.inr (Or.inr ⟨h1, _, _, rfl, Or.inl ⟨h2, by rw [List.append_nil]; exact k1⟩⟩))
    | mark h2 _ h3 =>
      cases h3 with
      | nil => exact Or.inr (Or.inr (Or.inl ⟨rfl, by rw [List.append_nil]; exact h2⟩))
      | radix k0 k1 _ k2 =>
        cases k2 with
        | nil => exact Or.inr (Or.inr (Or.inr ⟨k0, _, _, rfl, Or.inr ⟨h2, by rw [List.append_nil]; exact k1⟩⟩))
  · rintro (⟨rfl, rfl, h⟩ | ⟨h1, h2, h3⟩ | ⟨rfl, h⟩ | ⟨h1, p1, p2, rfl, ⟨h2, h3⟩ | ⟨h2, h3⟩⟩)
    · rw [toMark_inj h]; exact .nil
    · have := Pre.radix (r0 := r0) (es := false) h1 h2 (radixPrefix_len h2).1 (Pre.nil (e := e0))
      rw [List.append_nil] at this
      rw [toMark_inj h3]; exact this
    · have := Pre.mark (e0 := e0) (noRadix := nr) (strict := strict) (rs := false) h (markPrefix_len h) (Pre.nil (r := r))
      rwa [List.append_nil] at this
    · have k := Pre.mark (e0 := e0) (noRadix := nr) (strict := strict) (rs := true) h3 (markPrefix_len h3) (Pre.nil (r := r))
      rw [List.append_nil] at k
      exact Pre.radix h1 h2 (radixPrefix_len h2).1 k
    · have k := Pre.radix (r0 := r0) (es := true) h1 h3 (radixPrefix_len h3).1 (Pre.nil (e := e))
      rw [List.append_nil] at k
      exact Pre.mark h2 (markPrefix_len h2) k

/-! ### all characters are ASCII -/

theorem digitOf_ascii {r : Nat} {c : Char} {d : Nat} (h : digitOf r c = some d) : c.toNat < 128 := by
  unfold digitOf at h
  by_contra hc
  rw [if_neg (by omega), if_neg (by omega), if_neg (by omega)] at h
  cases h

theorem ratText_ascii {r : Nat} (hr : r ≤ 36) {strict : Bool} {s : List Char} {v : ℚ} (h : RatText r strict s v) : ∀ c ∈ s, c.toNat < 128 := by
  have hu : ∀ {cs : List Char} {sgn : Int}, URat r strict sgn cs v → ∀ c ∈ cs, c.toNat < 128 := by
    intro cs sgn h c hc
    rcases urat_chars h c hc with rfl | rfl | ⟨d, hd⟩
    · decide
    · decide
    · exact digitOf_ascii hd
  rw [ratText_iff hr] at h
  rcases h with ⟨cs, rfl, h⟩ | ⟨cs, rfl, h⟩ | ⟨_, _, h⟩
  · intro c hc
    rcases List.mem_cons.1 hc with rfl | hc
    · decide
    · exact hu h c hc
  · intro c hc
    rcases List.mem_cons.1 hc with rfl | hc
    · decide
    · exact hu h c hc
  · exact hu h

theorem radixPrefix_ascii {strict : Bool} {p : List Char} {r : Nat} (h : RadixPrefix strict p r) : ∀ c ∈ p, c.toNat < 128 := by
  rcases h with ⟨h, rfl⟩ | ⟨h, rfl⟩ | ⟨h, rfl⟩ | ⟨h, rfl⟩ | ⟨_, h2, h36, w, ds, c, rfl, hc, hw, hne, _⟩
  iterate 4
    · simp only [List.mem_cons, List.not_mem_nil, or_false] at h
      rcases h with rfl | rfl <;> decide
  intro x hx
  simp only [List.cons_append, List.mem_cons, List.mem_append, List.not_mem_nil, or_false] at hx
  rcases hx with rfl | hx | rfl
  · decide
  · have : digitOf 10 x ∈ ds.map some := by rw [← hw]; exact List.mem_map_of_mem hx
    obtain ⟨d, _, h⟩ := List.mem_map.1 this
    exact digitOf_ascii h.symm
  · rcases hc with rfl | rfl <;> decide

theorem markPrefix_ascii {p : List Char} {e : Mark} (h : MarkPrefix p e) : ∀ c ∈ p, c.toNat < 128 := by
  rcases h with ⟨h, _⟩ | ⟨h, _⟩ <;>
  · simp only [List.mem_cons, List.not_mem_nil, or_false] at h
    rcases h with rfl | rfl <;> decide

theorem prefixes_ascii {strict nr : Bool} {r0 r : Nat} {e0 e : Mark} {p : List Char} (h : Prefixes strict nr r0 e0 p r e) : ∀ c ∈ p, c.toNat < 128 := by
  rcases h with ⟨rfl, _, _⟩ | ⟨_, h, _⟩ | ⟨_, h⟩ | ⟨_, p1, p2, rfl, ⟨h2, h3⟩ | ⟨h2, h3⟩⟩
  · simp
  · exact radixPrefix_ascii h
  · exact markPrefix_ascii h
  · intro c hc
    rcases List.mem_append.1 hc with hc | hc
    · exact radixPrefix_ascii h2 c hc
    · exact markPrefix_ascii h3 c hc
  · intro c hc
    rcases List.mem_append.1 hc with hc | hc
    · exact markPrefix_ascii h2 c hc
    · exact radixPrefix_ascii h3 c hc

theorem prefixes_mark {strict nr : Bool} {r0 r : Nat} {e0 : Exactness} {m : Mark} {p : List Char} (hp : Prefixes strict nr r0 (toMark e0) p r m) :
    ∃ e, toMark e = m := by
  rcases hp with ⟨_, _, rfl⟩ | ⟨_, _, rfl⟩ | ⟨_, h⟩ | ⟨_, p1, p2, _, ⟨_, h⟩ | ⟨h, _⟩⟩
  · exact ⟨_, rfl⟩
  · exact ⟨_, rfl⟩
  · exact markPrefix_exactness h
  · exact markPrefix_exactness h
  · exact markPrefix_exactness h

/-- Texts of the grammar are read. -/
theorem read_of_text {cx : Ctx} (hr : 2 ≤ cx.radix) (hr' : cx.radix ≤ 36) {p b : List Char} {r : Nat} {m : Mark} {v : ℚ} {q : Q}
    (hp : Prefixes cx.strict cx.noRadixPrefix cx.radix (toMark cx.ex) p r m) (hm : m ≠ .inexact) (hi : ¬ ImaginaryUnit b)
    (hv : RatText r cx.strict b v) (hq : q.IsRat v) (hf : ¬ FixminFraction r cx.strict b) : stringToNumber cx (p ++ b) = .num q := by
  obtain ⟨r0, strict, nr, e0⟩ := cx
  obtain ⟨e, rfl⟩ := prefixes_mark hp
  have hp' := (pre_iff _ _ _ _ _ _ _).2 hp
  obtain ⟨k1, k2⟩ := pre_range hp' ⟨hr, hr'⟩
  unfold stringToNumber
  have ha : ¬ (p ++ b).any (fun c => decide (c.toNat ≥ 128)) = true := by
    intro ha
    obtain ⟨c, hc, h⟩ := List.any_eq_true.1 ha
    have h128 : 128 ≤ c.toNat := by simpa using h
    rcases List.mem_append.1 hc with hc | hc
    · have := prefixes_ascii hp c hc; omega
    · have := ratText_ascii k2 hv c hc; omega
  rw [if_neg ha, if_neg (by omega)]
  refine (readPrefix_iff strict nr q ((p ++ b).length + 1) r0 e0 false false (p ++ b) (by omega)).2 ⟨p, b, r, e, rfl, hp', ?_,
    (readBody_iff k1 k2 strict e b q hf).2 ⟨fun h => hm ((toMark_inexact e).2 h), hi, v, hv, hq⟩⟩
  rw [ratText_iff k2] at hv
  rcases hv with ⟨cs, rfl, _⟩ | ⟨cs, rfl, _⟩ | ⟨_, _, h⟩
  · simp
  · simp
  · obtain ⟨c, cs, d, rfl, hd⟩ := urat_head h
    simpa using (digitOf_sign k2 hd).2.2

/-- `string->number` on texts of exact numbers. -/
theorem stringToNumber_iff {cx : Ctx} (hr : 2 ≤ cx.radix) (hr' : cx.radix ≤ 36) (s : List Char) (q : Q)
    (hf : ∀ p b r m, s = p ++ b → Prefixes cx.strict cx.noRadixPrefix cx.radix (toMark cx.ex) p r m → ¬ FixminFraction r cx.strict b) :
    stringToNumber cx s = .num q ↔ ∃ v, ExactText cx.strict cx.noRadixPrefix cx.radix (toMark cx.ex) s v ∧ q.IsRat v := by
  constructor
  · intro h
    obtain ⟨r0, strict, nr, e0⟩ := cx
    unfold stringToNumber at h
    by_cases ha : s.any (fun c => decide (c.toNat ≥ 128)) = true
    · rw [if_pos ha] at h; cases h
    rw [if_neg ha, if_neg (by omega)] at h
    obtain ⟨p, b, r, e, rfl, hp, _, hq⟩ := (readPrefix_iff strict nr q (s.length + 1) r0 e0 false false s (by omega)).1 h
    obtain ⟨k1, k2⟩ := pre_range hp ⟨hr, hr'⟩
    have hp' := (pre_iff _ _ _ _ _ _ _).1 hp
    obtain ⟨h1, h2, v, h3, h4⟩ := (readBody_iff k1 k2 strict e b q (hf p b r _ rfl hp')).1 hq
    exact ⟨v, ⟨p, b, r, toMark e, rfl, hp', fun h => h1 ((toMark_inexact e).1 h), h2, h3⟩, h4⟩
  · rintro ⟨v, ⟨p, b, r, m, rfl, hp, hm, h2, h3⟩, h4⟩
    exact read_of_text hr hr' hp hm h2 h3 h4 (hf p b r m rfl hp)

end Gauche.NumText

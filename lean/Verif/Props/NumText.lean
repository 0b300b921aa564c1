import Verif.Proof.NumPrint
/-
C19: text representation of exact integers and rationals: `number->string` and `string->number`.
-/
namespace Gauche.NumText
open Gauche.Bignum Gauche.Integer Gauche.Rational Gauche.Radix Spec

/-- What `(number->string x r flags)` prints: an optional radix prefix, an optional sign, the digits of the numerator, and for a fraction
the digits of the denominator; digits without leading zeros and without separators, letters in the requested case. -/
theorem C19_print {x : Q} (hx : x.Canonical) {r : Nat} (hr : 2 ≤ r) (hr' : r ≤ 36) (f : Flags) :
    ∃ p sg tn td, numberToString x r f = some (p ++ (sg ++ if x.val.den = 1 then tn else tn ++ '/' :: td)) ∧
      (if f.radix then RadixPrefix false p r else p = []) ∧
      sg = (if x.val < 0 then ['-'] else if f.plus then ['+'] else []) ∧
      Printed r f.upper tn x.val.num.natAbs ∧ Printed r f.upper td x.val.den := by
  obtain ⟨sg, tn, td, h1, h2, h3, h4⟩ := numberToString_spec hx hr hr' f
  refine ⟨_, sg, tn, td, h4, ?_, h3, h1, h2⟩
  cases f.radix with
  | true => simpa using (radixPrefix_spec hr hr').1
  | false => simp

/-- A base outside 2..36 is an error. -/
theorem C19_print_bad_base (x : Q) (r : Nat) (f : Flags) (h : r < 2 ∨ 36 < r) : numberToString x r f = none := if_pos h

/-- Which texts `string->number` reads as exact numbers, and as which: exactly the texts of the grammar.  The only exception is a
numerator `-2^61` over a multiple of `2^61` (`C19_bug_fixmin_fraction`). -/
theorem C19_read {cx : Ctx} (hr : 2 ≤ cx.radix) (hr' : cx.radix ≤ 36) (s : List Char) (q : Q)
    (hf : ∀ p b r m, s = p ++ b → Prefixes cx.strict cx.noRadixPrefix cx.radix (toMark cx.ex) p r m → ¬ FixminFraction r cx.strict b) :
    stringToNumber cx s = .num q ↔ ∃ v, ExactText cx.strict cx.noRadixPrefix cx.radix (toMark cx.ex) s v ∧ q.IsRat v :=
  stringToNumber_iff hr hr' s q hf

/-- Texts without a fraction bar: no exception. -/
theorem C19_read_integer {cx : Ctx} (hr : 2 ≤ cx.radix) (hr' : cx.radix ≤ 36) (s : List Char) (hs : '/' ∉ s) (q : Q) :
    stringToNumber cx s = .num q ↔ ∃ v, ExactText cx.strict cx.noRadixPrefix cx.radix (toMark cx.ex) s v ∧ q.IsRat v := by
  refine stringToNumber_iff hr hr' s q ?_
  rintro p b r m rfl - ⟨a, b', d, rfl, -⟩
  exact hs (by simp)

/-- The round trip: `(string->number (number->string x r flags) r)` gives back the exact number `x`, for every exact number, radix and flags.
Only `-18` (and `18` with an explicit plus sign) in a radix above 18 is not read back: it is printed as `-i` (`C19_bug_minus_i`).
With a radix prefix the default radix of the reader does not matter. -/
theorem C19_round_trip {x : Q} (hx : x.Canonical) {r : Nat} (hr : 2 ≤ r) (hr' : r ≤ 36) (f : Flags) {cx : Ctx}
    (hc : 2 ≤ cx.radix ∧ cx.radix ≤ 36) (hex : cx.ex ≠ .inexact)
    (hrad : if f.radix then cx.noRadixPrefix = false ∧ (cx.strict = false ∨ r = 2 ∨ r = 8 ∨ r = 10 ∨ r = 16) else cx.radix = r)
    (hi : 19 ≤ r → x.val ≠ -18 ∧ (f.plus = true → x.val ≠ 18)) :
    ∃ s, numberToString x r f = some s ∧ stringToNumber cx s = .num x := by
  obtain ⟨sg, tn, td, h1, h2, h3, h4⟩ := numberToString_spec hx hr hr' f
  refine ⟨_, h4, ?_⟩
  have hnum : (x.val.num : ℚ) = (if x.val < 0 then -1 else 1 : Int) * (x.val.num.natAbs : ℚ) := by
    by_cases h : x.val < 0
    · rw [if_pos h]
      have : x.val.num < 0 := Rat.num_neg.2 h
      have h' : ((x.val.num.natAbs : Int) : ℚ) = ((-x.val.num : Int) : ℚ) := by congr 1; omega
      have h'' : (x.val.num.natAbs : ℚ) = ((x.val.num.natAbs : Int) : ℚ) := by simp
      rw [h'', h']; push_cast; ring
    · rw [if_neg h]
      have : ¬ x.val.num < 0 := fun hh => h (Rat.num_neg.1 hh)
      have h' : ((x.val.num.natAbs : Int) : ℚ) = ((x.val.num : Int) : ℚ) := by congr 1; omega
      have h'' : (x.val.num.natAbs : ℚ) = ((x.val.num.natAbs : Int) : ℚ) := by simp
      rw [h'', h']; push_cast; ring
  have hsg : SignText sg (if x.val < 0 then -1 else 1) := by
    rw [h3]
    by_cases h : x.val < 0
    · rw [if_pos h, if_pos h]; exact Or.inr (Or.inr ⟨rfl, rfl⟩)
    · rw [if_neg h, if_neg h]
      cases f.plus with
      | true => exact Or.inr (Or.inl ⟨rfl, rfl⟩)
      | false => exact Or.inl ⟨rfl, rfl⟩
  have huns : ∀ {t : List Char} {n : Nat}, UIntText r cx.strict t n → '/' ∉ t ∧ '-' ∉ t ∧ '+' ∉ t := by
    intro t n ht
    refine ⟨?_, ?_, ?_⟩
    · intro hm
      rcases uint_chars ht _ hm with h | ⟨d, h⟩
      · exact absurd h (by decide)
      · rw [digitOf_slash] at h; cases h
    · intro hm
      rcases uint_chars ht _ hm with h | ⟨d, h⟩
      · exact absurd h (by decide)
      · exact (digitOf_sign hr' h).2.1 rfl
    · intro hm
      rcases uint_chars ht _ hm with h | ⟨d, h⟩
      · exact absurd h (by decide)
      · exact (digitOf_sign hr' h).1 rfl
  refine read_of_text (r := r) (m := toMark cx.ex) (v := x.val) hc.1 hc.2 ?_ ?_ ?_ ?_ ⟨hx, rfl⟩ ?_
  · cases hfr : f.radix with
    | false =>
      rw [hfr] at hrad
      exact Or.inl ⟨by simp, by simpa using hrad.symm, rfl⟩
    | true =>
      rw [hfr] at hrad
      simp only [if_true] at hrad ⊢
      refine Or.inr (Or.inl ⟨hrad.1, ?_, rfl⟩)
      cases hst : cx.strict with
      | false => exact (radixPrefix_spec hr hr').1
      | true => exact (radixPrefix_spec hr hr').2 (by simpa [hst] using hrad.2)
  · intro h; exact hex ((toMark_inexact _).1 h)
  · -- the imaginary unit
    intro him
    have hlen : (sg ++ if x.val.den = 1 then tn else tn ++ '/' :: td).length = 2 := ((imaginary_iff _).1 him).2.1
    obtain ⟨c, cs, d, htn, hd⟩ := uint_head (uint_weaken h1.1 (strict := cx.strict))
    obtain ⟨c', cs', d', htd, hd'⟩ := uint_head (uint_weaken h2.1 (strict := cx.strict))
    have hsg1 : sg = ['-'] ∨ sg = ['+'] ∨ sg = [] := by
      rw [h3]; by_cases h : x.val < 0
      · simp [h]
      · cases f.plus <;> simp [h]
    by_cases hden : x.val.den = 1
    · rw [if_pos hden] at him hlen
      have hval : d = 18 → 19 ≤ r := by intro h; have := digitOf_lt hd; omega
      have main : (c = 'i' ∨ c = 'I') ∧ cs = [] ∧ sg ≠ [] := by
        rw [htn] at him
        rcases hsg1 with hs | hs | hs <;> rw [hs] at him
        · simp [ImaginaryUnit] at him
          rcases him with h | h <;> simp [h, hs]
        · simp [ImaginaryUnit] at him
          rcases him with h | h <;> simp [h, hs]
        · exfalso
          obtain ⟨k1, k2, _⟩ := digitOf_sign hr' hd
          simp [ImaginaryUnit, k1, k2] at him
      obtain ⟨hci, rfl, hsne⟩ := main
      have h18 : d = 18 := by
        rcases hci with rfl | rfl <;>
        · unfold digitOf at hd
          simp [Option.filter] at hd
          omega
      have h19 := hval h18
      have hn : x.val.num.natAbs = 18 := by
        obtain ⟨⟨ds, a1, a2, a3⟩, _⟩ := h1.1
        have hcu : c ≠ '_' := by rcases hci with rfl | rfl <;> decide
        rw [htn, List.filter_cons_of_pos (by simpa using hcu)] at a1
        simp only [List.filter_nil, List.map_cons, List.map_nil, hd] at a1
        cases ds with
        | nil => simp at a1
        | cons e es =>
          cases es with
          | cons _ _ => simp at a1
          | nil =>
            simp at a1
            rw [← a3, ← a1, h18]; simp [ofBE]
      have hxv : x.val = x.val.num := by
        conv_lhs => rw [← Rat.num_div_den x.val, hden]
        simp
      obtain ⟨g1, g2⟩ := hi h19
      by_cases hneg : x.val < 0
      · apply g1
        have : x.val.num < 0 := Rat.num_neg.2 hneg
        rw [hxv, show x.val.num = -18 by omega]; norm_num
      · have hp : f.plus = true := by
          cases hp : f.plus with
          | true => rfl
          | false => rw [hp, if_neg hneg] at h3; exact absurd h3 hsne
        apply g2 hp
        have : ¬ x.val.num < 0 := fun hh => hneg (Rat.num_neg.1 hh)
        rw [hxv, show x.val.num = 18 by omega]; norm_num
    · rw [if_neg hden, htn, htd] at hlen
      simp at hlen
      omega
  · refine ⟨sg, _, _, rfl, hsg, ?_⟩
    by_cases hden : x.val.den = 1
    · left
      rw [if_pos hden]
      refine ⟨_, uint_weaken h1.1, ?_⟩
      rw [← hnum]
      conv_lhs => rw [← Rat.num_div_den x.val, hden]
      simp
    · right
      rw [if_neg hden]
      refine ⟨tn, td, _, _, rfl, uint_weaken h1.1, uint_weaken h2.1, x.val.den_ne_zero, ?_⟩
      rw [← hnum, Rat.num_div_den]
  · rintro ⟨a, b, d, he, ha, hb, hd⟩
    have hm : '-' ∈ sg ++ if x.val.den = 1 then tn else tn ++ '/' :: td := by rw [he]; simp
    have hs : '/' ∈ sg ++ if x.val.den = 1 then tn else tn ++ '/' :: td := by rw [he]; simp
    have un := huns (uint_weaken h1.1)
    have ud := huns (uint_weaken h2.1)
    have hsg1 : '/' ∉ sg := by
      rcases hsg with ⟨h, _⟩ | ⟨h, _⟩ | ⟨h, _⟩ <;> rw [h] <;> decide
    by_cases hden : x.val.den = 1
    · rw [if_pos hden] at hs
      rcases List.mem_append.1 hs with h | h
      · exact hsg1 h
      · exact un.1 h
    · rw [if_neg hden] at he hm
      have hsgm : sg = ['-'] := by
        rcases hsg with ⟨h, _⟩ | ⟨h, _⟩ | ⟨h, _⟩
        · rw [h, List.nil_append] at hm
          exfalso
          rcases List.mem_append.1 hm with h' | h'
          · exact un.2.1 h'
          · rcases List.mem_cons.1 h' with h' | h'
            · exact absurd h' (by decide)
            · exact ud.2.1 h'
        · rw [h] at he
          simp at he
        · exact h
      rw [hsgm] at he
      simp only [List.cons_append, List.nil_append, List.cons.injEq, true_and] at he
      have split : ∀ (a b c d : List Char), '/' ∉ a → '/' ∉ c → a ++ '/' :: b = c ++ '/' :: d → a = c ∧ b = d := by
        intro a
        induction a with
        | nil =>
          intro b c d _ hc h
          cases c with
          | nil => simpa using h
          | cons x c => simp at h; exact absurd (by rw [← h.1]; simp) hc
        | cons y a ih =>
          intro b c d ha hc h
          cases c with
          | nil => simp at h; exact absurd (by rw [h.1]; simp) ha
          | cons x c =>
            simp at h ha hc
            obtain ⟨e1, e2⟩ := ih b c d ha.2 hc.2 h.2
            exact ⟨by rw [h.1, e1], e2⟩
      obtain ⟨rfl, rfl⟩ := split _ _ _ _ un.1 (huns ha).1 he
      have e1 := uint_unique (uint_weaken h1.1) ha
      have e2 := uint_unique (uint_weaken h2.1) hb
      have hcop := x.val.reduced
      rw [e1] at hcop
      rw [← e2] at hd
      have := Nat.dvd_gcd (Nat.dvd_refl 2305843009213693952) hd
      rw [hcop] at this
      exact absurd (Nat.le_of_dvd (by norm_num) this) (by norm_num)

/-- Every printed text is nonempty and different numbers print differently. -/
theorem C19_print_injective {x y : Q} (hx : x.Canonical) (hy : y.Canonical) {r : Nat} (hr : 2 ≤ r) (hr' : r ≤ 36) (f : Flags)
    (hix : 19 ≤ r → x.val ≠ -18 ∧ (f.plus = true → x.val ≠ 18)) (hiy : 19 ≤ r → y.val ≠ -18 ∧ (f.plus = true → y.val ≠ 18))
    (h : numberToString x r f = numberToString y r f) : x = y := by
  have hc : 2 ≤ (⟨r, false, false, .noexact⟩ : Ctx).radix ∧ (⟨r, false, false, .noexact⟩ : Ctx).radix ≤ 36 := ⟨hr, hr'⟩
  obtain ⟨s, s1, s2⟩ := C19_round_trip hx hr hr' f hc (by simp) (by cases f.radix <;> simp) hix
  obtain ⟨t, t1, t2⟩ := C19_round_trip hy hr hr' f hc (by simp) (by cases f.radix <;> simp) hiy
  rw [s1, t1] at h
  simp only [Option.some.injEq] at h
  subst h
  rw [s2] at t2
  simpa using t2

/-- Finding: in a radix above 18 the number -18 is printed as `-i`, which is read as the imaginary unit, not as an exact number. -/
theorem C19_bug_minus_i (r : Nat) (hr : 19 ≤ r) (hr' : r ≤ 36) :
    numberToString (.int (.fix (-18))) r ⟨false, false, false⟩ = some "-i".toList ∧
    stringToNumber ⟨r, false, false, .noexact⟩ "-i".toList = .other ∧
    stringToNumber ⟨r, false, false, .exact⟩ "-i".toList = .no := by
  have : ∀ r, r < 37 → 19 ≤ r → numberToString (.int (.fix (-18))) r ⟨false, false, false⟩ = some "-i".toList ∧
    stringToNumber ⟨r, false, false, .noexact⟩ "-i".toList = .other ∧
    stringToNumber ⟨r, false, false, .exact⟩ "-i".toList = .no := by decide +kernel
  exact this r (by omega) hr

/-- Finding: `-2^61/2^61` is read as 0. -/
theorem C19_bug_fixmin_fraction :
    stringToNumber ⟨10, false, false, .noexact⟩ "-2305843009213693952/2305843009213693952".toList = .num (.int (.fix 0)) := by decide +kernel

/-- Finding: the overflow test for the radix in `#<radix>r` is off by one: the `long` overflows. -/
theorem C19_bug_radix_overflow : stringToNumber ⟨10, false, false, .noexact⟩ "#9223372036854775808r1".toList = .ub := by decide +kernel

/-! Concrete cases. -/

example : numberToString (.int (.big ⟨-1, [0, 1]⟩)) 36 ⟨true, false, true⟩ = some "#36r-3W5E11264SGSG".toList := by decide +kernel
example : stringToNumber ⟨10, false, false, .noexact⟩ "#36r-3W5E11264SGSG".toList = .num (.int (.big ⟨-1, [0, 1]⟩)) := by decide +kernel
example : stringToNumber ⟨10, false, false, .noexact⟩ "#e#x+00_1f/F8".toList = .num (.rat (.fix 1) (.fix 8)) := by decide +kernel
example : stringToNumber ⟨10, true, false, .noexact⟩ "1_0".toList = .no := by decide +kernel
example : (Q.rat (.fix 1) (.fix 8)).Canonical := by
  refine ⟨⟨by decide, by decide⟩, ⟨by decide, by decide⟩, by decide, by decide⟩

end Gauche.NumText

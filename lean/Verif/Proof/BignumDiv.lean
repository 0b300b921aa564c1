import Verif.Proof.BignumMul
import Mathlib.Tactic.LinearCombination
/-
Division of digit vectors: Knuth's algorithm D on half words (`bignum_gdiv`) and the short divisions.
-/
namespace Gauche.Bignum

/-! ### half words -/

theorem H32_sq (k : Nat) : H32 ^ (2 * k) = W64 ^ k := by rw [pow_mul]; norm_num

theorem digit_val {l : List Nat} (h : Words l) (n : Nat) : digit l n = val l / H32 ^ n % H32 := by
  have h1 := val_div_mod h (n / 2)
  unfold digit lo hi
  have hw := h.getD (n / 2)
  by_cases hn : n % 2 = 1
  · rw [if_pos hn]
    have e : n = 2 * (n / 2) + 1 := by omega
    conv_rhs => rw [e, pow_succ, H32_sq, ← Nat.div_div_eq_div_mul]
    rw [← h1]
    omega
  · rw [if_neg hn]
    have e : n = 2 * (n / 2) := by omega
    conv_rhs => rw [e, H32_sq]
    rw [← h1]
    omega

theorem or_add {a b : Nat} (hb : b < H32) : (a * H32) ||| b = a * H32 + b := by
  have := Nat.two_pow_add_eq_or_of_lt (i := 32) (b := b) (by norm_num at *; exact hb) a
  rw [show (2:Nat) ^ 32 = H32 by norm_num] at this
  rw [Nat.mul_comm, ← this]

theorem digit2_eq {l : List Nat} (h : Words l) (n : Nat) : digit2 l n = digit l n + H32 * digit l (n + 1) := by
  have hw := h.getD (n / 2)
  unfold digit2 digit
  by_cases hn : n % 2 = 1
  · have hw' := h.getD (n / 2 + 1)
    rw [if_pos hn, if_pos hn, if_neg (by omega), show (n + 1) / 2 = n / 2 + 1 by omega]
    unfold lo hi
    rw [Nat.mod_eq_of_lt (by omega), or_add (by omega)]; omega
  · rw [if_neg hn, if_neg hn, if_pos (by omega), show (n + 1) / 2 = n / 2 by omega]
    unfold lo hi; omega

theorem digit_lt (l : List Nat) (n : Nat) : digit l n < H32 := by
  unfold digit lo hi; split <;> omega

theorem digit2_val {l : List Nat} (h : Words l) (n : Nat) : digit2 l n = val l / H32 ^ n % W64 := by
  rw [digit2_eq h, digit_val h, digit_val h, pow_succ, ← Nat.div_div_eq_div_mul]
  omega

theorem setDigit_length (l : List Nat) (n v : Nat) : (setDigit l n v).length = l.length := by
  unfold setDigit; split <;> simp

theorem setDigit2_length (l : List Nat) (n v : Nat) : (setDigit2 l n v).length = l.length := by
  unfold setDigit2; split <;> simp

theorem setDigit_spec {l : List Nat} (h : Words l) {n v : Nat} (hn : n < 2 * l.length) :
    Words (setDigit l n v) ∧
      (val (setDigit l n v) : Int) = val l + (((v % H32 : Nat) : Int) - (val l / H32 ^ n % H32 : Nat)) * ((H32 ^ n : Nat) : Int) := by
  have hw := h.getD (n / 2)
  rw [← digit_val h]
  unfold setDigit digit lo hi himask
  by_cases hn1 : n % 2 = 1
  · rw [if_pos hn1, if_pos hn1]
    have e : (l.getD (n / 2) 0 % H32) ||| (v * H32 % W64) = (v % H32) * H32 + l.getD (n / 2) 0 % H32 := by
      rw [show v * H32 % W64 = (v % H32) * H32 by omega, Nat.or_comm, or_add (by omega)]
    rw [e]
    refine ⟨h.set (by omega), ?_⟩
    rw [val_set _ _ _ (by omega)]
    have e2 : H32 ^ n = W64 ^ (n / 2) * H32 := by
      conv_lhs => rw [show n = 2 * (n / 2) + 1 by omega, pow_succ, H32_sq]
    rw [e2]
    push_cast
    have e3 : ((l.getD (n / 2) 0 : Nat) : Int) = (l.getD (n / 2) 0 / H32 % H32 : Nat) * H32 + (l.getD (n / 2) 0 % H32 : Nat) := by
      omega
    push_cast at e3
    generalize ((l.getD (n / 2) 0 : Nat) : Int) = z at *
    linear_combination (-(18446744073709551616 : Int) ^ (n / 2)) * e3
  · rw [if_neg hn1, if_neg hn1]
    have e : (l.getD (n / 2) 0 / H32 * H32) ||| (v % H32) = l.getD (n / 2) 0 / H32 * H32 + v % H32 := or_add (by omega)
    rw [e]
    refine ⟨h.set (by omega), ?_⟩
    rw [val_set _ _ _ (by omega)]
    have e2 : H32 ^ n = W64 ^ (n / 2) := by
      conv_lhs => rw [show n = 2 * (n / 2) by omega, H32_sq]
    rw [e2]
    push_cast
    congr 2
    omega

theorem setDigit2_spec {l : List Nat} (h : Words l) {n v : Nat} (hv : v < W64) (hn : n + 1 < 2 * l.length) :
    Words (setDigit2 l n v) ∧
      (val (setDigit2 l n v) : Int) = val l + ((v : Int) - (val l / H32 ^ n % W64 : Nat)) * ((H32 ^ n : Nat) : Int) := by
  have hw := h.getD (n / 2)
  rw [← digit2_val h]
  by_cases hn1 : n % 2 = 1
  · have hw' := h.getD (n / 2 + 1)
    rw [digit2_eq h]
    unfold setDigit2 digit lo hi himask
    rw [if_pos hn1, if_pos hn1, if_neg (by omega), show (n + 1) / 2 = n / 2 + 1 by omega]
    dsimp only
    rw [getD_set, if_neg (by omega)]
    have e : (l.getD (n / 2) 0 % H32) ||| (v * H32 % W64) = (v % H32) * H32 + l.getD (n / 2) 0 % H32 := by
      rw [show v * H32 % W64 = (v % H32) * H32 by omega, Nat.or_comm, or_add (by omega)]
    have e' : (l.getD (n / 2 + 1) 0 / H32 * H32) ||| (v / H32 % H32) = l.getD (n / 2 + 1) 0 / H32 * H32 + v / H32 := by
      rw [or_add (by omega)]; omega
    rw [e, e']
    have h1 : Words (l.set (n / 2) (v % H32 * H32 + l.getD (n / 2) 0 % H32)) := h.set (by omega)
    refine ⟨h1.set (by omega), ?_⟩
    rw [val_set _ _ _ (by simp; omega), val_set _ _ _ (by omega), getD_set, if_neg (by omega)]
    have e2 : H32 ^ n = W64 ^ (n / 2) * H32 := by
      conv_lhs => rw [show n = 2 * (n / 2) + 1 by omega, pow_succ, H32_sq]
    rw [e2, pow_succ]
    have e3 : ((l.getD (n / 2) 0 : Nat) : Int) = (l.getD (n / 2) 0 / H32 % H32 : Nat) * H32 + (l.getD (n / 2) 0 % H32 : Nat) := by
      omega
    have e4 : ((l.getD (n / 2 + 1) 0 : Nat) : Int) = (l.getD (n / 2 + 1) 0 / H32 : Nat) * H32 + (l.getD (n / 2 + 1) 0 % H32 : Nat) := by
      omega
    have e5 : (v : Int) = (v / H32 : Nat) * H32 + (v % H32 : Nat) := by omega
    push_cast at *
    generalize ((l.getD (n / 2) 0 : Nat) : Int) = z at *
    generalize ((l.getD (n / 2 + 1) 0 : Nat) : Int) = z' at *
    linear_combination (-(18446744073709551616 : Int) ^ (n / 2)) * e3 + (-(18446744073709551616 : Int) ^ (n / 2) * 18446744073709551616) * e4
      - (18446744073709551616 : Int) ^ (n / 2) * 4294967296 * e5
  · unfold setDigit2 digit2
    rw [if_neg hn1, if_neg hn1]
    refine ⟨h.set hv, ?_⟩
    rw [val_set _ _ _ (by omega)]
    have e2 : H32 ^ n = W64 ^ (n / 2) := by
      conv_lhs => rw [show n = 2 * (n / 2) by omega, H32_sq]
    rw [e2]
    push_cast; rfl

/-- Replacing a digit below position `P*D*R` keeps the number below it. -/
theorem upd_bound {U U' v P D R : Nat} (hP : 0 < P) (hv : v < D) (hU : U < P * D * R)
    (e : (U' : Int) = U + ((v : Int) - (U / P % D : Nat)) * (P : Int)) : U' < P * D * R := by
  have hD : 0 < D := by omega
  have h1 : U / P / D < R := by
    rw [Nat.div_div_eq_div_mul]; exact Nat.div_lt_of_lt_mul hU
  have e1 : U = P * (U / P) + U % P := (Nat.div_add_mod U P).symm
  have e2 : U / P = D * (U / P / D) + U / P % D := (Nat.div_add_mod (U / P) D).symm
  have h3 : U % P < P := Nat.mod_lt _ hP
  have e3 : U' = P * D * (U / P / D) + P * v + U % P := by
    have : (U' : Int) = ((P * D * (U / P / D) + P * v + U % P : Nat) : Int) := by
      rw [e]
      have e1' : (U : Int) = P * (D * (U / P / D : Nat) + (U / P % D : Nat)) + (U % P : Nat) := by
        rw [← Nat.cast_mul D, ← Nat.cast_add, ← e2]
        exact_mod_cast e1
      rw [e1']
      push_cast
      ring
    exact_mod_cast this
  have h4 : P * v + U % P < P * D := by
    calc P * v + U % P < P * v + P := by omega
      _ = P * (v + 1) := by ring
      _ ≤ P * D := Nat.mul_le_mul_left _ hv
  have h5 : P * D * (U / P / D) + P * D ≤ P * D * R := by
    calc P * D * (U / P / D) + P * D = P * D * (U / P / D + 1) := by ring
      _ ≤ P * D * R := Nat.mul_le_mul_left _ h1
  omega

theorem H32_pos (n : Nat) : 0 < H32 ^ n := by positivity

/-! ### multiply-and-subtract, add-back -/

theorem mod_pow_succ (V k n : Nat) :
    V / H32 ^ k % H32 ^ (n + 1) = V / H32 ^ k % H32 + H32 * (V / H32 ^ (k + 1) % H32 ^ n) := by
  rw [pow_succ' H32 n, Nat.mod_mul, pow_succ H32 k, Nat.div_div_eq_div_mul]

theorem subLoop_spec {v : List Nat} (hv : Words v) (qq j : Nat) (hq : qq < H32) (n k cy : Nat) (u : List Nat) (hu : Words u)
    (hcy : cy = 0 ∨ cy = H32) (hlen : j + k + n < 2 * u.length) (hb : val u < H32 ^ (j + k + n + 1)) :
    (subLoop v qq j n k cy u).1.length = u.length ∧ Words (subLoop v qq j n k cy u).1 ∧
    val (subLoop v qq j n k cy u).1 < H32 ^ (j + k + n + 1) ∧
    ((subLoop v qq j n k cy u).2 = 0 ∨ (subLoop v qq j n k cy u).2 = H32) ∧
    (val (subLoop v qq j n k cy u).1 : Int) = val u - qq * (val v / H32 ^ k % H32 ^ n : Nat) * (H32 ^ (j + k) : Nat)
      - cy * (H32 ^ (j + k) : Nat) + (subLoop v qq j n k cy u).2 * (H32 ^ (j + k + n) : Nat) := by
  induction n generalizing k cy u with
  | zero =>
    refine ⟨rfl, hu, hb, hcy, ?_⟩
    simp only [subLoop, pow_zero, Nat.mod_one]
    push_cast; ring_nf
  | succ n ih =>
    rw [subLoop]
    have hdv : digit v k = val v / H32 ^ k % H32 := digit_val hv k
    have hdu : digit2 u (j + k) = val u / H32 ^ (j + k) % W64 := digit2_val hu (j + k)
    have hvv : qq * digit v k ≤ (H32 - 1) * (H32 - 1) := Nat.mul_le_mul (by omega) (by have := digit_lt v k; omega)
    rw [Nat.mod_eq_of_lt (show qq * digit v k < W64 by omega)]
    have hul : digit2 u (j + k) < W64 := by rw [hdu]; exact Nat.mod_lt _ (by norm_num)
    obtain ⟨p, hp⟩ : ∃ p, p = qq * digit v k := ⟨_, rfl⟩
    rw [← hp] at hvv ⊢
    obtain ⟨s, hs⟩ : ∃ s, s = (digit2 u (j + k) + (W64 - p) + (W64 - cy)) % W64 := ⟨_, rfl⟩
    obtain ⟨b, hb'⟩ : ∃ b, b = (if s > digit2 u (j + k) then H32 else 0) := ⟨_, rfl⟩
    rw [← hs, ← hb']
    have hsl : s < W64 := by omega
    have hbb : b = 0 ∨ b = H32 := by rw [hb']; split <;> simp
    have hse : (s : Int) = digit2 u (j + k) - p - cy + b * H32 := by
      rw [hb']
      rcases hcy with h | h <;> subst h <;> split <;> omega
    obtain ⟨w1, w2⟩ := setDigit2_spec hu (n := j + k) hsl (by omega)
    rw [← hdu] at w2
    have hb1 : val (setDigit2 u (j + k) s) < H32 ^ (j + (k + 1) + n + 1) := by
      have e : H32 ^ (j + (k + 1) + n + 1) = H32 ^ (j + k) * W64 * H32 ^ n := by
        rw [show j + (k + 1) + n + 1 = (j + k) + 2 + n by omega, pow_add, pow_add, show H32 ^ 2 = W64 by norm_num]
      rw [e]
      apply upd_bound (H32_pos _) hsl
      · rw [← e]
        have : j + (k + 1) + n + 1 = j + k + (n + 1) + 1 := by omega
        rw [this]; exact hb
      · rw [← hdu]; exact w2
    obtain ⟨i1, i2, i3, i4, i5⟩ := ih (k + 1) b (setDigit2 u (j + k) s) w1 hbb (by rw [setDigit2_length]; omega) hb1
    have ee : j + k + (n + 1) = j + (k + 1) + n := by omega
    rw [ee]
    refine ⟨by rw [i1, setDigit2_length], i2, i3, i4, ?_⟩
    rw [i5, w2, hse, mod_pow_succ, ← hdv]
    have e3 : H32 ^ (j + (k + 1)) = H32 * H32 ^ (j + k) := by rw [← Nat.add_assoc, pow_succ']
    rw [e3, hp]
    push_cast
    ring

theorem addLoop_spec {v : List Nat} (hv : Words v) (j : Nat) (n k cy : Nat) (u : List Nat) (hu : Words u)
    (hcy : cy = 0 ∨ cy = 1) (hlen : j + k + n < 2 * u.length) (hb : val u < H32 ^ (j + k + n + 1)) :
    (addLoop v j n k cy u).1.length = u.length ∧ Words (addLoop v j n k cy u).1 ∧
    val (addLoop v j n k cy u).1 < H32 ^ (j + k + n + 1) ∧
    ((addLoop v j n k cy u).2 = 0 ∨ (addLoop v j n k cy u).2 = 1) ∧
    (val (addLoop v j n k cy u).1 : Int) = val u + (val v / H32 ^ k % H32 ^ n : Nat) * (H32 ^ (j + k) : Nat)
      + cy * (H32 ^ (j + k) : Nat) - (addLoop v j n k cy u).2 * (H32 ^ (j + k + n) : Nat) := by
  induction n generalizing k cy u with
  | zero =>
    refine ⟨rfl, hu, hb, hcy, ?_⟩
    simp only [addLoop, pow_zero, Nat.mod_one]
    push_cast; ring_nf
  | succ n ih =>
    rw [addLoop]
    have hdv : digit v k = val v / H32 ^ k % H32 := digit_val hv k
    have hdu : digit u (j + k) = val u / H32 ^ (j + k) % H32 := digit_val hu (j + k)
    have hvl := digit_lt v k
    have hul := digit_lt u (j + k)
    obtain ⟨s, hs⟩ : ∃ s, s = (digit u (j + k) + digit v k + cy) % W64 := ⟨_, rfl⟩
    obtain ⟨b, hb'⟩ : ∃ b, b = (if s ≥ H32 then 1 else 0) := ⟨_, rfl⟩
    rw [← hs, ← hb']
    have hbb : b = 0 ∨ b = 1 := by rw [hb']; split <;> simp
    have hse : ((s % H32 : Nat) : Int) = digit u (j + k) + digit v k + cy - b * H32 := by
      rw [hb']
      rcases hcy with h | h <;> subst h <;> split <;> omega
    obtain ⟨w1, w2⟩ := setDigit_spec hu (n := j + k) (v := s) (by omega)
    rw [← hdu] at w2
    have hb1 : val (setDigit u (j + k) s) < H32 ^ (j + (k + 1) + n + 1) := by
      have e : H32 ^ (j + (k + 1) + n + 1) = H32 ^ (j + k) * H32 * H32 ^ (n + 1) := by
        rw [show j + (k + 1) + n + 1 = (j + k) + 1 + (n + 1) by omega, pow_add _ (j + k + 1), pow_succ _ (j + k)]
      rw [e]
      apply upd_bound (H32_pos _) (show s % H32 < H32 by omega)
      · rw [← e]
        have : j + (k + 1) + n + 1 = j + k + (n + 1) + 1 := by omega
        rw [this]; exact hb
      · rw [← hdu]; exact w2
    obtain ⟨i1, i2, i3, i4, i5⟩ := ih (k + 1) b (setDigit u (j + k) s) w1 hbb (by rw [setDigit_length]; omega) hb1
    have ee : j + k + (n + 1) = j + (k + 1) + n := by omega
    rw [ee]
    refine ⟨by rw [i1, setDigit_length], i2, i3, i4, ?_⟩
    rw [i5, w2, hse, mod_pow_succ, ← hdv]
    have e3 : H32 ^ (j + (k + 1)) = H32 * H32 ^ (j + k) := by rw [← Nat.add_assoc, pow_succ']
    rw [e3]
    push_cast
    ring

/-! ### the quotient digit -/

theorem qhat1_spec (vn1 uu T V : Nat) (huu : uu < W64) (hTV : T / V < H32) (qq rr : Nat)
    (hinv : qq * vn1 + rr = uu) (hge : T / V ≤ qq) :
    (qhat1 vn1 qq rr).1 < H32 ∧ (qhat1 vn1 qq rr).1 * vn1 + (qhat1 vn1 qq rr).2 = uu ∧ T / V ≤ (qhat1 vn1 qq rr).1 := by
  fun_induction qhat1 vn1 qq rr with
  | case1 qq rr h ih =>
    have e : (qq - 1) * vn1 + (rr + vn1) = uu := by
      rw [← hinv]
      obtain ⟨q, rfl⟩ : ∃ q, qq = q + 1 := ⟨qq - 1, by omega⟩
      simp; ring
    apply ih
    · rw [Nat.mod_eq_of_lt (by omega)]; exact e
    · omega
  | case2 qq rr h => exact ⟨by simpa using h, hinv, hge⟩

/-- Knuth's estimate: after both corrections the digit is the true one or one too large. -/
theorem qhat2_spec {vn1 vn2 d uu T V P vr tr : Nat} (h1 : 2147483648 ≤ vn1) (h2 : vn1 < H32) (h3 : vn2 < H32) (h4 : d < H32)
    (hvr : vr < P) (htr : tr < P) (hV : V = (vn1 * H32 + vn2) * P + vr) (hT : T = (uu * H32 + d) * P + tr) (huu : uu < W64)
    (qq rr : Nat) (hq : qq < H32) (hinv : qq * vn1 + rr = uu) (hge : T / V ≤ qq) :
    (qhat2 vn1 vn2 d qq rr).1 < H32 ∧ T / V ≤ (qhat2 vn1 vn2 d qq rr).1 ∧ (qhat2 vn1 vn2 d qq rr).1 ≤ T / V + 1 := by
  have hP : 0 < P := by omega
  have hVpos : 0 < V := by
    have : 0 < (vn1 * H32 + vn2) * P := Nat.mul_pos (by omega) hP
    omega
  fun_induction qhat2 vn1 vn2 d qq rr with
  | case1 qq rr h ih =>
    have hm : qq * vn2 ≤ (H32 - 1) * (H32 - 1) := Nat.mul_le_mul (by omega) (by omega)
    obtain ⟨c1, c2⟩ := h
    rw [Nat.mod_eq_of_lt (show qq * vn2 < W64 by omega), Nat.mod_eq_of_lt (show rr * H32 < W64 by omega),
      Nat.mod_eq_of_lt (show rr * H32 + d < W64 by omega)] at c1
    have hq0 : 0 < qq := by
      rcases Nat.eq_zero_or_pos qq with h | h
      · subst h; omega
      · exact h
    have e : (qq - 1) * vn1 + (rr + vn1) = uu := by
      rw [← hinv]
      obtain ⟨q, rfl⟩ : ∃ q, qq = q + 1 := ⟨qq - 1, by omega⟩
      simp; ring
    have hlt : T / V < qq := by
      rw [Nat.div_lt_iff_lt_mul hVpos]
      have e1 : uu * H32 + d + 1 ≤ qq * (vn1 * H32 + vn2) := by
        rw [← hinv]; nlinarith
      calc T < (uu * H32 + d + 1) * P := by rw [hT, Nat.add_mul _ 1]; omega
        _ ≤ qq * (vn1 * H32 + vn2) * P := Nat.mul_le_mul_right _ e1
        _ ≤ qq * V := by rw [hV, Nat.mul_assoc]; exact Nat.mul_le_mul_left _ (by omega)
    apply ih
    · omega
    · rw [Nat.mod_eq_of_lt (by omega)]; exact e
    · omega
  | case2 qq rr h =>
    refine ⟨hq, hge, ?_⟩
    rcases Nat.eq_zero_or_pos qq with h0 | h0
    · rw [h0]; exact Nat.zero_le _
    obtain ⟨q, rfl⟩ : ∃ q, qq = q + 1 := ⟨qq - 1, by omega⟩
    have hm : (q + 1) * vn2 ≤ (H32 - 1) * (H32 - 1) := Nat.mul_le_mul (by omega) (by omega)
    apply Nat.succ_le_succ
    rw [Nat.le_div_iff_mul_le hVpos]
    have hVlt : V < (vn1 * H32 + vn2 + 1) * P := by rw [hV, Nat.add_mul _ 1]; omega
    by_cases hr : rr < H32
    · rw [Nat.mod_eq_of_lt (show (q + 1) * vn2 < W64 by omega), Nat.mod_eq_of_lt (show rr * H32 < W64 by omega),
        Nat.mod_eq_of_lt (show rr * H32 + d < W64 by omega)] at h
      have c1 : (q + 1) * vn2 ≤ rr * H32 + d := by
        by_contra hc; exact h ⟨by omega, hr⟩
      have e1 : q * (vn1 * H32 + vn2 + 1) ≤ uu * H32 + d := by
        rw [← hinv]
        have : q ≤ vn1 * H32 + vn2 := by omega
        nlinarith
      calc q * V ≤ q * ((vn1 * H32 + vn2 + 1) * P) := Nat.mul_le_mul_left _ (by omega)
        _ = q * (vn1 * H32 + vn2 + 1) * P := by ring
        _ ≤ (uu * H32 + d) * P := Nat.mul_le_mul_right _ e1
        _ ≤ T := by omega
    · have e1 : q * (vn1 * H32 + vn2 + 1) ≤ uu * H32 + d := by
        rw [← hinv]
        have h5 : q * (vn2 + 1) ≤ q * H32 := Nat.mul_le_mul_left _ (by omega)
        have h6 : H32 * H32 ≤ rr * H32 := Nat.mul_le_mul_right _ (by omega)
        have h7 : q * H32 ≤ H32 * H32 := Nat.mul_le_mul_right _ (by omega)
        nlinarith
      calc q * V ≤ q * ((vn1 * H32 + vn2 + 1) * P) := Nat.mul_le_mul_left _ (by omega)
        _ = q * (vn1 * H32 + vn2 + 1) * P := by ring
        _ ≤ (uu * H32 + d) * P := Nat.mul_le_mul_right _ e1
        _ ≤ T := by omega

/-! ### one step and the loop of `bignum_gdiv` -/

theorem div_pow_succ (V e : Nat) : V / H32 ^ (e + 1) = V / H32 ^ e / H32 := by
  rw [pow_succ, Nat.div_div_eq_div_mul]

theorem qdigit_spec {V T e vn1 vn2 uu d P P1 P2 P3 : Nat} (hPe : P = H32 ^ e) (hP1 : P1 = P * H32) (hP2 : P2 = P1 * H32)
    (hP3 : P3 = P2 * H32) (hV1 : P2 ≤ 2 * V) (hV2 : V < P2) (hT : T < V * H32)
    (h1 : vn1 = V / P1) (h2 : vn2 = V / P % H32) (h3 : uu = T / P1) (h4 : d = T / P % H32) :
    uu < W64 ∧ (qhat2 vn1 vn2 d (qhat1 vn1 (uu / vn1) (uu % vn1)).1 (qhat1 vn1 (uu / vn1) (uu % vn1)).2).1 < H32 ∧
    T / V ≤ (qhat2 vn1 vn2 d (qhat1 vn1 (uu / vn1) (uu % vn1)).1 (qhat1 vn1 (uu / vn1) (uu % vn1)).2).1 ∧
    (qhat2 vn1 vn2 d (qhat1 vn1 (uu / vn1) (uu % vn1)).1 (qhat1 vn1 (uu / vn1) (uu % vn1)).2).1 ≤ T / V + 1 := by
  have hP : 0 < P := by rw [hPe]; exact H32_pos e
  clear hPe
  have hVpos : 0 < V := by omega
  have hTV : T / V < H32 := by rw [Nat.div_lt_iff_lt_mul hVpos, Nat.mul_comm]; exact hT
  have hp1 : 0 < P1 := by omega
  have hTb : T < P3 := by omega
  have hvn1l : vn1 < H32 := by
    rw [h1, Nat.div_lt_iff_lt_mul hp1]; omega
  have hvn1 : 2147483648 ≤ vn1 := by
    rw [h1, Nat.le_div_iff_mul_le hp1]; omega
  have huul : uu < W64 := by
    rw [h3, Nat.div_lt_iff_lt_mul hp1]; omega
  have hVs : V = (vn1 * H32 + vn2) * P + V % P := by
    have e1 : vn1 * H32 + vn2 = V / P := by
      rw [h1, h2, hP1, ← Nat.div_div_eq_div_mul]; generalize V / P = z; omega
    rw [e1]; exact (Nat.div_add_mod' V _).symm
  have hTs : T = (uu * H32 + d) * P + T % P := by
    have e1 : uu * H32 + d = T / P := by
      rw [h3, h4, hP1, ← Nat.div_div_eq_div_mul]; generalize T / P = z; omega
    rw [e1]; exact (Nat.div_add_mod' T _).symm
  have hq0 : T / V ≤ uu / vn1 := by
    rw [Nat.le_div_iff_mul_le (by omega), h1, h3, Nat.le_div_iff_mul_le hp1]
    calc T / V * (V / P1) * P1 = T / V * (V / P1 * P1) := Nat.mul_assoc _ _ _
      _ ≤ T / V * V := Nat.mul_le_mul_left _ (Nat.div_mul_le_self _ _)
      _ ≤ T := Nat.div_mul_le_self _ _
  have hd : d < H32 := by omega
  have hvn2 : vn2 < H32 := by omega
  obtain ⟨a1, a2, a3⟩ := qhat1_spec vn1 uu T V huul hTV (uu / vn1) (uu % vn1) (Nat.div_add_mod' _ _) hq0
  obtain ⟨b1, b2, b3⟩ := qhat2_spec hvn1 hvn1l hvn2 hd
    (Nat.mod_lt _ hP) (Nat.mod_lt _ hP) hVs hTs huul _ _ a1 a2 a3
  exact ⟨huul, b1, b2, b3⟩

/-- The arithmetic of "no borrow: the digit is right". -/
theorem gdiv_noborrow {B Q C S U : Nat} (hB : B = Q ∨ B = Q + 1) (hR : U < Q * C + C)
    (s5 : (S : Int) = U - B * C) : B = Q ∧ B * C + S = U ∧ S < C := by
  have hSv : B * C + S = U := by
    have : ((B * C + S : Nat) : Int) = U := by rw [Nat.cast_add, s5]; push_cast; ring
    exact_mod_cast this
  have hBe : B = Q := by
    rcases hB with h | h
    · exact h
    · exfalso
      rw [h, Nat.add_mul, Nat.one_mul] at hSv
      omega
  refine ⟨hBe, hSv, ?_⟩
  rw [hBe] at hSv
  omega

/-- The arithmetic of "borrow: the digit was one too large and adding the divisor back is right". -/
theorem gdiv_borrow {B Q C S U Z P c : Nat} (hB : B = Q ∨ B = Q + 1) (hL : Q * C ≤ U) (hR : U < Q * C + C)
    (s3 : S < P) (s5 : (S : Int) = U - B * C + P) (hz : Z < P) (hc : c ≤ 1) (z5 : (Z : Int) = S + C - c * P) :
    B = Q + 1 ∧ Q * C + Z = U ∧ Z < C := by
  have hBne : B = Q + 1 := by
    rcases hB with h | h
    · exfalso
      rw [h] at s5
      have h8 : ((Q * C : Nat) : Int) ≤ U := by exact_mod_cast hL
      push_cast at h8
      generalize (Q : Int) * C = w at *
      omega
    · exact h
  have e : ((B * C : Nat) : Int) = ((Q * C : Nat) : Int) + C := by rw [hBne]; push_cast; ring
  rw [← Nat.cast_mul, e] at s5
  generalize Q * C = w at *
  have hc01 : c = 0 ∨ c = 1 := by omega
  rcases hc01 with rfl | rfl
  · omega
  · refine ⟨hBne, ?_, ?_⟩ <;> omega

theorem gdivStep_spec {v u : List Nat} {n j : Nat} (hv : Words v) (hu : Words u) (hn : 2 ≤ n)
    (hV1 : H32 ^ n ≤ 2 * val v) (hV2 : val v < H32 ^ n) (hU : val u < val v * H32 ^ (j + 1)) (hlen : j + n < 2 * u.length) :
    ∃ u' q, gdivStep v n (digit v (n - 1)) (digit v (n - 2)) j u = (u', q) ∧ u'.length = u.length ∧ Words u' ∧ q < H32 ∧
      q * (val v * H32 ^ j) + val u' = val u ∧ val u' < val v * H32 ^ j := by
  obtain ⟨e, rfl⟩ : ∃ e, n = e + 2 := ⟨n - 2, by omega⟩
  simp only [show e + 2 - 1 = e + 1 by omega, show e + 2 - 2 = e by omega]
  obtain ⟨V, hVd⟩ : ∃ V, V = val v := ⟨_, rfl⟩
  obtain ⟨U, hUd⟩ : ∃ U, U = val u := ⟨_, rfl⟩
  rw [← hVd] at hV1 hV2 hU
  rw [← hUd] at hU
  have hVpos : 0 < V := by have := H32_pos (e + 2); omega
  have hHj := H32_pos j
  obtain ⟨T, hT⟩ : ∃ T, T = U / H32 ^ j := ⟨_, rfl⟩
  have hTlt : T < V * H32 := by
    rw [hT, Nat.div_lt_iff_lt_mul hHj, Nat.mul_assoc, ← pow_succ']; exact hU
  have hdig : ∀ k, digit u (j + k) = T / H32 ^ k % H32 := by
    intro k
    rw [digit_val hu, hT, hUd, Nat.div_div_eq_div_mul, ← pow_add]
  have hv1 : digit v (e + 1) = V / H32 ^ (e + 1) := by
    rw [digit_val hv, ← hVd, Nat.mod_eq_of_lt]
    rw [Nat.div_lt_iff_lt_mul (H32_pos _), ← pow_succ']; exact hV2
  have hv2 : digit v e = V / H32 ^ e % H32 := by rw [digit_val hv, ← hVd]
  obtain ⟨q1, q2, q3, q4⟩ := qdigit_spec (e := e) rfl (pow_succ H32 e) (pow_succ H32 (e + 1)) (pow_succ H32 (e + 2)) hV1 hV2 hTlt
    rfl rfl rfl rfl
  have hTb : T / H32 ^ (e + 1) / H32 < H32 := by
    have h9 := q1
    generalize T / H32 ^ (e + 1) = z at *
    omega
  have huu0 : (digit u (j + (e + 2)) * H32 + digit u (j + (e + 2) - 1)) % W64 = T / H32 ^ (e + 1) := by
    rw [hdig, show j + (e + 2) - 1 = j + (e + 1) by omega, hdig, div_pow_succ T (e + 1)]
    generalize T / H32 ^ (e + 1) = z at *
    omega
  have hud : digit u (j + (e + 2) - 2) = T / H32 ^ e % H32 := by
    rw [show j + (e + 2) - 2 = j + e by omega, hdig]
  unfold gdivStep
  dsimp only
  rw [huu0, hud, hv1, hv2]
  generalize (qhat2 (V / H32 ^ (e + 1)) (V / H32 ^ e % H32) (T / H32 ^ e % H32)
    (qhat1 (V / H32 ^ (e + 1)) (T / H32 ^ (e + 1) / (V / H32 ^ (e + 1))) (T / H32 ^ (e + 1) % (V / H32 ^ (e + 1)))).1
    (qhat1 (V / H32 ^ (e + 1)) (T / H32 ^ (e + 1) / (V / H32 ^ (e + 1))) (T / H32 ^ (e + 1) % (V / H32 ^ (e + 1)))).2).1
    = B at *
  have hUb : val u < H32 ^ (j + 0 + (e + 2) + 1) := by
    rw [← hUd]
    calc U < V * H32 ^ (j + 1) := hU
      _ ≤ H32 ^ (e + 2) * H32 ^ (j + 1) := Nat.mul_le_mul_right _ (by omega)
      _ = _ := by rw [← pow_add]; congr 1; omega
  have hUT : T * H32 ^ j ≤ U := by rw [hT]; exact Nat.div_mul_le_self _ _
  have hUT2 : U < (T + 1) * H32 ^ j := by
    rw [hT, ← Nat.div_lt_iff_lt_mul hHj]; exact Nat.lt_succ_self _
  have hdm := Nat.div_add_mod T V
  have hml := Nat.mod_lt T hVpos
  have hL : T / V * (V * H32 ^ j) ≤ U := by
    calc T / V * (V * H32 ^ j) = (T / V * V) * H32 ^ j := (Nat.mul_assoc _ _ _).symm
      _ ≤ T * H32 ^ j := Nat.mul_le_mul_right _ (Nat.div_mul_le_self _ _)
      _ ≤ U := hUT
  have hR : U < T / V * (V * H32 ^ j) + V * H32 ^ j := by
    calc U < (T + 1) * H32 ^ j := hUT2
      _ ≤ (T / V * V + V) * H32 ^ j := Nat.mul_le_mul_right _ (by rw [Nat.mul_comm (T / V)]; omega)
      _ = _ := by rw [Nat.add_mul, Nat.mul_assoc]
  have hB : B = T / V ∨ B = T / V + 1 := by omega
  obtain ⟨s1, s2, s3, s4, s5⟩ := subLoop_spec hv B j q2 (e + 2) 0 0 u hu (Or.inl rfl) (by omega) hUb
  have hVm : val v / H32 ^ 0 % H32 ^ (e + 2) = V := by rw [pow_zero, Nat.div_one, ← hVd, Nat.mod_eq_of_lt hV2]
  rw [hVm, ← hUd] at s5
  rw [← hVd, ← hUd]
  generalize subLoop v B j (e + 2) 0 0 u = S at *
  simp only [Nat.add_zero, Nat.cast_zero, Int.zero_mul, Int.sub_zero] at s3 s5
  rw [Int.mul_assoc, ← Nat.cast_mul] at s5
  obtain ⟨C, hC⟩ : ∃ C, C = V * H32 ^ j := ⟨_, rfl⟩
  rw [← hC] at hL hR s5 ⊢
  have hpp : H32 ^ (j + (e + 2) + 1) = H32 * H32 ^ (j + (e + 2)) := pow_succ' _ _
  by_cases hc : S.2 ≠ 0
  · rw [if_pos hc]
    have hS2 : S.2 = H32 := s4.resolve_left hc
    have s6 : (val S.1 : Int) = U - B * C + (H32 ^ (j + (e + 2) + 1) : Nat) := by
      rw [s5, hS2, hpp, Nat.cast_mul H32]
    obtain ⟨d1, d2, d3, d4, d5⟩ := addLoop_spec hv j (e + 2) 0 0 S.1 s2 (Or.inl rfl) (by rw [s1]; omega) s3
    rw [hVm] at d5
    generalize addLoop v j (e + 2) 0 0 S.1 = D at *
    simp only [Nat.add_zero, Nat.cast_zero, Int.zero_mul, Int.add_zero] at d3 d5
    rw [← Nat.cast_mul V, ← hC] at d5
    have hdl := digit_lt D.1 (j + (e + 2))
    obtain ⟨w1, w2⟩ := setDigit_spec d2 (n := j + (e + 2)) (v := (digit D.1 (j + (e + 2)) + D.2) % W64) (by rw [d1, s1]; exact hlen)
    have hub := upd_bound (R := 1) (H32_pos (j + (e + 2))) (show (digit D.1 (j + (e + 2)) + D.2) % W64 % H32 < H32 by omega)
      (by rw [Nat.mul_one, ← pow_succ]; exact d3) w2
    rw [Nat.mul_one, ← pow_succ] at hub
    rw [← digit_val d2] at w2
    obtain ⟨c, hc1, hc2⟩ : ∃ c : Nat, c ≤ 1 ∧ (((digit D.1 (j + (e + 2)) + D.2) % W64 % H32 : Nat) : Int) - digit D.1 (j + (e + 2)) = D.2 - c * H32 :=
      ⟨(digit D.1 (j + (e + 2)) + D.2) / H32, by omega, by omega⟩
    rw [hc2] at w2
    have w3 : (val (setDigit D.1 (j + (e + 2)) ((digit D.1 (j + (e + 2)) + D.2) % W64)) : Int)
        = val S.1 + C - c * (H32 ^ (j + (e + 2) + 1) : Nat) := by
      rw [w2, d5, hpp]; push_cast; ring
    obtain ⟨f1, f2, f3⟩ := gdiv_borrow hB hL hR s3 s6 hub hc1 w3
    refine ⟨_, _, rfl, by rw [setDigit_length, d1, s1], w1, by omega, ?_, f3⟩
    rw [f1, Nat.add_sub_cancel]; exact f2
  · rw [if_neg hc]
    have hS2 : S.2 = 0 := not_not.mp hc
    rw [hS2] at s5
    have s6 : (val S.1 : Int) = U - B * C := by rw [s5, Nat.cast_zero, Int.zero_mul, Int.add_zero]
    obtain ⟨f1, f2, f3⟩ := gdiv_noborrow hB hR s6
    exact ⟨S.1, B, rfl, s1, s2, q2, f2, f3⟩

theorem gdivLoop_spec {v : List Nat} {n : Nat} (hv : Words v) (hn : 2 ≤ n) (hV1 : H32 ^ n ≤ 2 * val v) (hV2 : val v < H32 ^ n)
    (j : Nat) (u q : List Nat) (hu : Words u) (hq : Words q) (hU : val u < val v * H32 ^ j) (hlen : j + n ≤ 2 * u.length)
    (hql : j ≤ 2 * q.length) (hq0 : val q % H32 ^ j = 0) :
    let r := gdivLoop v n (digit v (n - 1)) (digit v (n - 2)) j u q
    r.1.length = u.length ∧ r.2.length = q.length ∧ Words r.1 ∧ Words r.2 ∧ val r.1 = val u % val v ∧ val r.2 = val q + val u / val v := by
  have hVpos : 0 < val v := by have := H32_pos n; omega
  induction j generalizing u q with
  | zero =>
    simp only [pow_zero, Nat.mul_one] at hU
    exact ⟨rfl, rfl, hu, hq, (Nat.mod_eq_of_lt hU).symm, by rw [Nat.div_eq_of_lt hU]; rfl⟩
  | succ j ih =>
    obtain ⟨u', c, s0, s1, s2, s3, s4, s5⟩ := gdivStep_spec (j := j) hv hu hn hV1 hV2 hU (by omega)
    rw [gdivLoop, s0]
    dsimp only
    obtain ⟨w1, w2⟩ := setDigit_spec hq (n := j) (v := c) (by omega)
    have hz : val q / H32 ^ j % H32 = 0 := by
      have h := Nat.mod_mul (a := H32 ^ j) (b := H32) (x := val q)
      rw [← pow_succ, hq0] at h
      have h2 := H32_pos j
      rcases Nat.eq_zero_or_pos (val q / H32 ^ j % H32) with h3 | h3
      · exact h3
      · have := Nat.mul_pos h2 h3
        omega
    have hmod : val q % H32 ^ j = 0 := by
      have : H32 ^ j ∣ H32 ^ (j + 1) := ⟨H32, pow_succ _ _⟩
      rw [← Nat.mod_mod_of_dvd _ this, hq0, Nat.zero_mod]
    rw [hz, Nat.mod_eq_of_lt s3] at w2
    have hqv : val (setDigit q j c) = val q + c * H32 ^ j := by
      have : (val (setDigit q j c) : Int) = ((val q + c * H32 ^ j : Nat) : Int) := by rw [w2]; push_cast; ring
      exact_mod_cast this
    obtain ⟨i1, i2, i3, i4, i5, i6⟩ := ih u' (setDigit q j c) s2 w1 s5 (by rw [s1]; omega) (by rw [setDigit_length]; omega)
      (by rw [hqv, Nat.add_mul_mod_self_right]; exact hmod)
    refine ⟨by rw [i1, s1], by rw [i2, setDigit_length], i3, i4, ?_, ?_⟩
    · rw [i5, ← s4, show c * (val v * H32 ^ j) = val v * (c * H32 ^ j) by ring, Nat.mul_add_mod]
    · rw [i6, hqv, ← s4, show c * (val v * H32 ^ j) = val v * (c * H32 ^ j) by ring, Nat.mul_add_div hVpos]
      omega

/-! ### `bignum_gdiv` -/

theorem normFactorGo_spec {w i : Nat} (h0 : w ≠ 0) (hi : i ≤ 64) (hw : w < 2 ^ i) :
    normFactorGo w i ≤ 63 ∧ 2 ^ (63 - normFactorGo w i) ≤ w ∧ w < 2 ^ (64 - normFactorGo w i) := by
  induction i with
  | zero => simp at hw; omega
  | succ i ih =>
    rw [normFactorGo]
    split
    · next h =>
      have := Nat.ge_two_pow_of_testBit h
      rw [show 63 - (63 - i) = i by omega, show 64 - (63 - i) = i + 1 by omega]
      exact ⟨by omega, this, hw⟩
    · next h =>
      apply ih (by omega)
      by_contra hc
      exact h (testBit_top (by omega) hw)

theorem val_top_split {l : List Nat} (hne : l ≠ []) (hw : Words l) :
    ∃ r, r < W64 ^ (l.length - 1) ∧ val l = r + W64 ^ (l.length - 1) * l.getD (l.length - 1) 0 := by
  refine ⟨val l.dropLast, ?_, ?_⟩
  · have : Words l.dropLast := fun w h => hw w (List.dropLast_subset _ h)
    simpa using val_lt this
  · rw [getD_pred_getLast hne]
    conv_lhs => rw [← List.dropLast_append_getLast hne, val_append]
    simp

/-- `bignum_gdiv` computes quotient and remainder, for a divisor of at least two half words and a dividend with at least
as many words. -/
theorem gdiv_spec {x y q : List Nat} (hx : Words x) (hy : Words y) (hxne : x ≠ []) (hyne : y ≠ [])
    (htop : y.getD (y.length - 1) 0 ≠ 0) (hy2 : H32 ≤ val y) (hle : y.length ≤ x.length) (hq : Words q) (hq0 : val q = 0)
    (hql : x.length - y.length + 1 ≤ q.length) :
    let r := gdiv x y q
    r.1.length = q.length ∧ Words r.1 ∧ Words r.2 ∧ r.2.length = x.length + 1 ∧
      val r.1 = val x / val y ∧ val r.2 = val x % val y := by
  have hxl := List.length_pos_iff.mpr hxne
  have hyl := List.length_pos_iff.mpr hyne
  obtain ⟨n1, n2, n3⟩ := normFactorGo_spec htop (i := 64) (le_refl _) (by have := hy.getD (y.length - 1); norm_num; exact this)
  unfold gdiv normFactor
  dsimp only
  set t := y.getD (y.length - 1) 0 with ht
  set d0 := normFactorGo t 64 with hd0
  obtain ⟨d, hd⟩ : ∃ d, d = if d0 ≥ 32 then d0 - 32 else d0 := ⟨_, rfl⟩
  obtain ⟨n, hn⟩ : ∃ n, n = if d0 ≥ 32 then y.length * 2 - 1 else y.length * 2 := ⟨_, rfl⟩
  rw [← hd, ← hn]
  obtain ⟨r, hr1, hr2⟩ := val_top_split hyne hy
  rw [← ht] at hr2
  obtain ⟨L, hL⟩ : ∃ L, y.length = L + 1 := ⟨y.length - 1, by omega⟩
  rw [hL] at hr1 hr2
  simp only [Nat.add_sub_cancel] at hr1 hr2
  have hd31 : d ≤ 31 := by rw [hd]; split <;> omega
  have hpow : 0 < 2 ^ d := by positivity
  -- bounds on V
  have hWL : 0 < W64 ^ L := by positivity
  have hylt : val y < W64 ^ L * 2 ^ (64 - d0) := by
    calc val y < W64 ^ L * (t + 1) := by rw [hr2, Nat.mul_add]; omega
      _ ≤ _ := Nat.mul_le_mul_left _ n3
  have hyge : W64 ^ L * 2 ^ (63 - d0) ≤ val y := by
    calc W64 ^ L * 2 ^ (63 - d0) ≤ W64 ^ L * t := Nat.mul_le_mul_left _ n2
      _ ≤ _ := by omega
  have hVb : val y * 2 ^ d < H32 ^ n ∧ H32 ^ n ≤ 2 * (val y * 2 ^ d) ∧ 2 ≤ n ∧ H32 ^ n ≤ W64 ^ y.length ∧ n ≤ 2 * y.length ∧ 2 * y.length ≤ n + 1 := by
    by_cases hc : d0 ≥ 32
    · rw [if_pos hc] at hd hn
      have en : n = 2 * L + 1 := by omega
      have e1 : H32 ^ n = W64 ^ L * H32 := by rw [en, pow_succ, H32_sq]
      have e2 : 2 ^ (64 - d0) * 2 ^ d = H32 := by rw [← pow_add, show 64 - d0 + d = 32 by omega]; norm_num
      have e3 : 2 * (2 ^ (63 - d0) * 2 ^ d) = H32 := by
        rw [← pow_add, ← pow_succ', show 63 - d0 + d + 1 = 32 by omega]; norm_num
      refine ⟨?_, ?_, ?_, ?_, by omega, by omega⟩
      · rw [e1]
        calc val y * 2 ^ d < W64 ^ L * 2 ^ (64 - d0) * 2 ^ d := Nat.mul_lt_mul_of_pos_right hylt hpow
          _ = W64 ^ L * (2 ^ (64 - d0) * 2 ^ d) := Nat.mul_assoc _ _ _
          _ = _ := by rw [e2]
      · rw [e1]
        calc W64 ^ L * H32 = W64 ^ L * (2 * (2 ^ (63 - d0) * 2 ^ d)) := by rw [e3]
          _ = 2 * ((W64 ^ L * 2 ^ (63 - d0)) * 2 ^ d) := by ring
          _ ≤ _ := Nat.mul_le_mul_left _ (Nat.mul_le_mul_right _ hyge)
      · rcases Nat.eq_zero_or_pos L with h | h
        · exfalso
          rw [h, pow_zero, Nat.one_mul] at hylt
          have : 2 ^ (64 - d0) ≤ 2 ^ 32 := Nat.pow_le_pow_right (by norm_num) (by omega)
          omega
        · omega
      · rw [e1, hL, pow_succ]; exact Nat.mul_le_mul_left _ (by norm_num)
    · rw [if_neg hc] at hd hn
      have en : n = 2 * (L + 1) := by omega
      have e1 : H32 ^ n = W64 ^ L * W64 := by rw [en, H32_sq, pow_succ]
      have e2 : 2 ^ (64 - d0) * 2 ^ d = W64 := by rw [← pow_add, show 64 - d0 + d = 64 by omega]; norm_num
      have e3 : 2 * (2 ^ (63 - d0) * 2 ^ d) = W64 := by
        rw [← pow_add, ← pow_succ', show 63 - d0 + d + 1 = 64 by omega]; norm_num
      refine ⟨?_, ?_, by omega, by rw [e1, hL, pow_succ], by omega, by omega⟩
      · rw [e1]
        calc val y * 2 ^ d < W64 ^ L * 2 ^ (64 - d0) * 2 ^ d := Nat.mul_lt_mul_of_pos_right hylt hpow
          _ = W64 ^ L * (2 ^ (64 - d0) * 2 ^ d) := Nat.mul_assoc _ _ _
          _ = _ := by rw [e2]
      · rw [e1]
        calc W64 ^ L * W64 = W64 ^ L * (2 * (2 ^ (63 - d0) * 2 ^ d)) := by rw [e3]
          _ = 2 * ((W64 ^ L * 2 ^ (63 - d0)) * 2 ^ d) := by ring
          _ ≤ _ := Nat.mul_le_mul_left _ (Nat.mul_le_mul_right _ hyge)
  obtain ⟨v1, v2, v3, v4, v5, v6⟩ := hVb
  have hvv : val (lshift y.length y d) = val y * 2 ^ d := by
    rw [lshift_val hy hyne _ _ (by omega), Nat.mod_eq_of_lt (by omega)]
  have hux : val x * 2 ^ d < W64 ^ x.length * 2147483648 := by
    have : 2 ^ d ≤ 2147483648 := by
      rw [show 2147483648 = 2 ^ 31 by norm_num]; exact Nat.pow_le_pow_right (by norm_num) hd31
    calc val x * 2 ^ d < W64 ^ x.length * 2 ^ d := Nat.mul_lt_mul_of_pos_right (val_lt hx) hpow
      _ ≤ _ := Nat.mul_le_mul_left _ this
  have huv : val (lshift (x.length + 1) x d) = val x * 2 ^ d := by
    rw [lshift_val hx hxne _ _ (by omega), Nat.mod_eq_of_lt]
    rw [pow_succ]
    exact lt_of_lt_of_le hux (Nat.mul_le_mul_left _ (by norm_num))
  have hU : val (lshift (x.length + 1) x d) < val (lshift y.length y d) * H32 ^ (x.length * 2 - n + 1) := by
    rw [huv, hvv]
    have e1 : H32 ^ n * H32 ^ (x.length * 2 - n + 1) = W64 ^ x.length * H32 := by
      rw [← pow_add, show n + (x.length * 2 - n + 1) = 2 * x.length + 1 by omega, pow_succ, H32_sq]
    have e2 : H32 ^ n * H32 ^ (x.length * 2 - n + 1) ≤ 2 * (val y * 2 ^ d) * H32 ^ (x.length * 2 - n + 1) :=
      Nat.mul_le_mul_right _ v2
    rw [e1, Nat.mul_assoc] at e2
    omega
  obtain ⟨g1, g2, g3, g4, g5, g6⟩ := gdivLoop_spec (lshift_words hy y.length d) v3 (by rw [hvv]; exact v2) (by rw [hvv]; exact v1)
    (x.length * 2 - n + 1) (lshift (x.length + 1) x d) q (lshift_words hx _ d) hq hU (by rw [lshift_length]; omega)
    (by omega) (by rw [hq0]; simp)
  refine ⟨g2, g4, rshift_words g3 _, ?_, ?_, ?_⟩
  · rw [rshift_length, g1, lshift_length, Nat.div_eq_of_lt (show d < 64 by omega)]; rfl
  · rw [g6, hq0, huv, hvv, Nat.zero_add, Nat.mul_div_mul_right _ _ hpow]
  · rw [rshift_val g3, g5, huv, hvv, Nat.mul_mod_mul_right, Nat.mul_div_cancel _ hpow]

end Gauche.Bignum

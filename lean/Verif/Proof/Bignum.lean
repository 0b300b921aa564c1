import Verif.Spec.Bignum
import Mathlib.Tactic.Ring
import Mathlib.Tactic.Linarith
import Mathlib.Data.List.Basic
/-
Basic facts about digit vectors, the word macros, normalization, addition and subtraction.
-/
namespace Gauche.Bignum

@[simp] theorem val_nil : val [] = 0 := rfl
@[simp] theorem val_cons (w : Nat) (ws : List Nat) : val (w :: ws) = w + W64 * val ws := rfl

@[simp] theorem words_nil : Words [] := by intro w h; cases h
@[simp] theorem words_cons {w : Nat} {ws : List Nat} : Words (w :: ws) ↔ w < W64 ∧ Words ws := by
  simp [Words]
theorem words_append {a b : List Nat} : Words (a ++ b) ↔ Words a ∧ Words b := by
  simp [Words, or_imp, forall_and]
theorem Words.take {l : List Nat} (h : Words l) (n : Nat) : Words (l.take n) :=
  fun w hw => h w (List.mem_of_mem_take hw)
theorem Words.drop {l : List Nat} (h : Words l) (n : Nat) : Words (l.drop n) :=
  fun w hw => h w (List.mem_of_mem_drop hw)
theorem Words.getD {l : List Nat} (h : Words l) (i : Nat) : l.getD i 0 < W64 := by
  rw [List.getD_eq_getElem?_getD]
  rcases hi : l[i]? with _ | w
  · simp
  · simp; exact h w (List.mem_of_getElem? hi)
theorem Words.set {l : List Nat} (h : Words l) {i x : Nat} (hx : x < W64) : Words (l.set i x) := by
  intro w hw
  rcases List.mem_or_eq_of_mem_set hw with h1 | h1
  · exact h w h1
  · omega
theorem words_zeros (n : Nat) : Words (zeros n) := by
  intro w hw; simp [zeros] at hw; omega
theorem Words.reverse {l : List Nat} (h : Words l) : Words l.reverse := fun w hw => h w (by simpa using hw)

theorem val_lt {l : List Nat} (h : Words l) : val l < W64 ^ l.length := by
  induction l with
  | nil => simp
  | cons w ws ih =>
    simp at h
    have := ih h.2
    simp only [val_cons, List.length_cons, pow_succ]
    nlinarith [h.1]

theorem val_append (a b : List Nat) : val (a ++ b) = val a + W64 ^ a.length * val b := by
  induction a with
  | nil => simp
  | cons w ws ih => simp only [List.cons_append, val_cons, ih, List.length_cons, pow_succ]; ring

theorem val_zeros (n : Nat) : val (zeros n) = 0 := by
  induction n with
  | zero => rfl
  | succ n ih => simp only [zeros, List.replicate_succ, val_cons] at *; simp [ih]

/-- Effect of a word update on the value. -/
theorem val_set (l : List Nat) (i x : Nat) (hi : i < l.length) :
    (val (l.set i x) : Int) = val l + ((x : Int) - (l.getD i 0 : Nat)) * (W64 : Int) ^ i := by
  induction l generalizing i with
  | nil => simp at hi
  | cons w ws ih =>
    cases i with
    | zero => simp; ring
    | succ i =>
      simp only [List.length_cons, Nat.add_lt_add_iff_right] at hi
      have := ih i hi
      simp only [List.set_cons_succ, val_cons, Nat.cast_add, Nat.cast_mul, List.getD_cons_succ, this, pow_succ]
      push_cast
      ring

/-- The i-th word from the value. -/
theorem val_div_mod {l : List Nat} (h : Words l) (i : Nat) : val l / W64 ^ i % W64 = l.getD i 0 := by
  induction l generalizing i with
  | nil => simp
  | cons w ws ih =>
    simp at h
    cases i with
    | zero => simp; omega
    | succ i =>
      rw [pow_succ', ← Nat.div_div_eq_div_mul]
      simp only [val_cons, List.getD_cons_succ]
      rw [show (w + W64 * val ws) / W64 = val ws by omega]
      exact ih h.2 i

theorem val_getD_split {l : List Nat} (i : Nat) :
    val l = val (l.take i) + W64 ^ (min i l.length) * val (l.drop i) := by
  conv_lhs => rw [← List.take_append_drop i l, val_append]
  simp

/-! ### word macros -/

theorem uadd_spec {x y c : Nat} (hx : x < W64) (hy : y < W64) (hc : c ≤ 1) :
    (uadd x y c).1 + W64 * (uadd x y c).2 = x + y + c ∧ (uadd x y c).1 < W64 ∧ (uadd x y c).2 ≤ 1 := by
  unfold uadd
  dsimp only
  split <;> omega

theorem usub_spec {x y c : Nat} (hx : x < W64) (hy : y < W64) (hc : c ≤ 1) :
    (usub x y c).1 + y + c = x + W64 * (usub x y c).2 ∧ (usub x y c).1 < W64 ∧ (usub x y c).2 ≤ 1 := by
  unfold usub
  dsimp only
  split <;> omega

theorem umul_spec {x y : Nat} (hx : x < W64) (hy : y < W64) :
    (umul x y).1 * W64 + (umul x y).2 = x * y ∧ (umul x y).1 < W64 ∧ (umul x y).2 < W64 := by
  unfold umul lo hi
  dsimp only
  obtain ⟨xh, hxh⟩ : ∃ k, k = x / H32 := ⟨_, rfl⟩
  obtain ⟨xl, hxl⟩ : ∃ k, k = x % H32 := ⟨_, rfl⟩
  obtain ⟨yh, hyh⟩ : ∃ k, k = y / H32 := ⟨_, rfl⟩
  obtain ⟨yl, hyl⟩ : ∃ k, k = y % H32 := ⟨_, rfl⟩
  have ex : x = xh * H32 + xl := by omega
  have ey : y = yh * H32 + yl := by omega
  have h1 : xh < H32 := by omega
  have h2 : xl < H32 := by omega
  have h3 : yh < H32 := by omega
  have h4 : yl < H32 := by omega
  rw [← hxh, ← hxl, ← hyh, ← hyl, Nat.mod_eq_of_lt h1, Nat.mod_eq_of_lt h3]
  have e : x * y = xh * yh * W64 + (xl * yh + xh * yl) * H32 + xl * yl := by rw [ex, ey]; ring
  rw [e]
  have b1 : xl * yl ≤ (H32 - 1) * (H32 - 1) := Nat.mul_le_mul (by omega) (by omega)
  have b2 : xl * yh ≤ (H32 - 1) * (H32 - 1) := Nat.mul_le_mul (by omega) (by omega)
  have b3 : xh * yl ≤ (H32 - 1) * (H32 - 1) := Nat.mul_le_mul (by omega) (by omega)
  have b4 : xh * yh ≤ (H32 - 1) * (H32 - 1) := Nat.mul_le_mul (by omega) (by omega)
  have b5 : xh * yh * W64 + (xl * yh + xh * yl) * H32 + xl * yl ≤ (W64 - 1) * (W64 - 1) := by
    rw [← e]; exact Nat.mul_le_mul (by omega) (by omega)
  generalize xl * yl = p at *
  generalize xl * yh = q at *
  generalize xh * yl = r at *
  generalize xh * yh = t at *
  clear e ex ey
  rw [Nat.mod_eq_of_lt (show p < W64 by omega), Nat.mod_eq_of_lt (show q < W64 by omega),
    Nat.mod_eq_of_lt (show r < W64 by omega), Nat.mod_eq_of_lt (show t < W64 by omega)]
  by_cases hc : (q + r) % W64 < q
  · rw [if_pos hc]
    have e1 : (q + r) % W64 = q + r - W64 := by omega
    rw [e1] at *
    by_cases hd : (p + (q + r - W64) % H32 * H32 % W64) % W64 < (q + r - W64) % H32 * H32 % W64
    · rw [if_pos hd]; omega
    · rw [if_neg hd]; omega
  · rw [if_neg hc]
    have e1 : (q + r) % W64 = q + r := by omega
    rw [e1] at *
    by_cases hd : (p + (q + r) % H32 * H32 % W64) % W64 < (q + r) % H32 * H32 % W64
    · rw [if_pos hd]; omega
    · rw [if_neg hd]; omega

/-! ### normalization -/

theorem trimIdx_le (l : List Nat) (i : Nat) : trimIdx l i ≤ i := by
  induction i with
  | zero => simp [trimIdx]
  | succ i ih => rw [trimIdx]; split <;> omega

theorem trimIdx_zero_above (l : List Nat) (i k : Nat) (h1 : trimIdx l i < k) (h2 : k ≤ i) : l.getD k 0 = 0 := by
  induction i with
  | zero => simp [trimIdx] at h1; omega
  | succ i ih =>
    rw [trimIdx] at h1
    split at h1
    · by_cases hk : k = i + 1
      · subst hk; assumption
      · exact ih h1 (by omega)
    · omega

theorem trimIdx_ne (l : List Nat) (i : Nat) (h : trimIdx l i ≠ 0) : l.getD (trimIdx l i) 0 ≠ 0 := by
  induction i with
  | zero => simp [trimIdx] at h
  | succ i ih =>
    rw [trimIdx] at h ⊢
    split
    · next hc => rw [if_pos hc] at h; exact ih h
    · assumption

theorem val_eq_zero_of_all {l : List Nat} (h : ∀ k < l.length, l.getD k 0 = 0) : val l = 0 := by
  induction l with
  | nil => rfl
  | cons w ws ih =>
    have h0 := h 0 (by simp)
    have := ih (fun k hk => by have := h (k + 1) (by simp; omega); simpa using this)
    simp at h0
    simp [h0, this]

theorem val_take_of_zero {l : List Nat} (n : Nat) (h : ∀ k, n ≤ k → k < l.length → l.getD k 0 = 0) :
    val (l.take n) = val l := by
  rw [val_getD_split (l := l) n]
  have : val (l.drop n) = 0 := by
    apply val_eq_zero_of_all
    intro k hk
    have := h (n + k) (by omega) (by simp at hk; omega)
    simpa [List.getD_eq_getElem?_getD, List.getElem?_drop] using this
  simp [this]

theorem makeInt_eq {n : Int} (h1 : FIXMIN ≤ n) (h2 : n ≤ FIXMAX) : makeInt n = .fix n := by
  unfold makeInt
  congr 1
  rw [Int.bmod_def]
  split <;> omega

theorem makeInt_isInt {n : Int} (h1 : FIXMIN ≤ n) (h2 : n ≤ FIXMAX) : (makeInt n).IsInt n := by
  rw [makeInt_eq h1 h2]; exact ⟨⟨h1, h2⟩, rfl⟩

theorem val_ge_of_getLast {l : List Nat} (h : l ≠ []) (h0 : l.getLast h ≠ 0) : W64 ^ (l.length - 1) ≤ val l := by
  rw [← List.dropLast_append_getLast h, val_append]
  simp only [List.length_append, List.length_dropLast, List.length_singleton, val_cons, val_nil]
  have : 0 < l.getLast h := by omega
  simp only [Nat.mul_zero, Nat.add_zero, Nat.add_sub_cancel]
  nlinarith [Nat.zero_le (val l.dropLast), pow_pos (show 0 < W64 by norm_num) (l.length - 1)]

theorem normalize_spec {s : Int} {l : List Nat} (hs : s = 1 ∨ s = -1) (hl : l ≠ []) (hw : Words l) :
    (normalize ⟨s, l⟩).IsInt (s * val l) := by
  have hlen : 0 < l.length := List.length_pos_iff.mpr hl
  unfold normalize
  simp only
  rw [if_neg hl]
  set i := trimIdx l (l.length - 1) with hi
  have hile : i ≤ l.length - 1 := trimIdx_le _ _
  have hz : ∀ k, i + 1 ≤ k → k < l.length → l.getD k 0 = 0 := fun k h1 h2 =>
    trimIdx_zero_above l (l.length - 1) k (by omega) (by omega)
  have hv : val (l.take (i + 1)) = val l := val_take_of_zero _ hz
  have hv0 : i = 0 → val l = l.getD 0 0 := by
    intro h0
    rw [← hv, h0]
    cases l with
    | nil => simp at hl
    | cons w ws => simp
  rw [if_neg (by rintro ⟨_, h⟩; omega)]
  by_cases h1 : i = 0 ∧ s > 0 ∧ l.getD 0 0 ≤ 2305843009213693951
  · rw [if_pos h1]
    have := makeInt_isInt (n := (l.getD 0 0 : Nat)) (by omega) (by omega)
    rw [hv0 h1.1, show s = 1 by omega]
    simpa using this
  · rw [if_neg h1]
    by_cases h2 : i = 0 ∧ s < 0 ∧ l.getD 0 0 ≤ 2305843009213693952
    · rw [if_pos h2]
      have := makeInt_isInt (n := -(l.getD 0 0 : Nat)) (by omega) (by omega)
      rw [hv0 h2.1, show s = -1 by omega]
      simpa using this
    · rw [if_neg h2]
      have hne : l.take (i + 1) ≠ [] := by
        simp [hl]
      have hlast : (l.take (i + 1)).getLast hne = l.getD i 0 := by
        rw [List.getLast_eq_getElem]
        simp [List.getD_eq_getElem?_getD, List.getElem?_eq_getElem (show i < l.length by omega)]
        congr 1; omega
      refine ⟨⟨hs, hw.take _, ?_⟩, ?_⟩
      · by_cases h0 : i = 0
        · have hb := hv0 h0
          refine ⟨⟨hne, ?_⟩, ?_⟩
          · rw [hlast, h0]; intro h; rw [h] at h1 h2; omega
          · simp only [Big.toInt, hv, hb]
            rcases hs with hs | hs <;> subst hs <;> omega
        · have hn0 := trimIdx_ne l (l.length - 1) (by rw [← hi]; exact h0)
          rw [← hi] at hn0
          refine ⟨⟨hne, by rw [hlast]; exact hn0⟩, ?_⟩
          have hge := val_ge_of_getLast hne (by rw [hlast]; exact hn0)
          have hlen2 : (l.take (i + 1)).length - 1 = i := by simp; omega
          rw [hlen2] at hge
          have h3 : W64 ≤ W64 ^ i := by
            calc W64 = W64 ^ 1 := by simp
              _ ≤ W64 ^ i := Nat.pow_le_pow_right (by norm_num) (by omega)
          have h4 : W64 ≤ val (l.take (i + 1)) := le_trans h3 hge
          simp only [Big.toInt]
          generalize val (l.take (i + 1)) = z at *
          rcases hs with hs | hs <;> subst hs <;> omega
      · simp only [Num.toInt, Big.toInt, hv]

/-! ### addition and subtraction -/

theorem addGo_length (x y : List Nat) (n i c : Nat) : (addGo x y n i c).length = n := by
  induction n generalizing i c with
  | zero => rfl
  | succ n ih => simp [addGo, ih]

theorem val_drop_succ (l : List Nat) (i : Nat) : val (l.drop i) = l.getD i 0 + W64 * val (l.drop (i + 1)) := by
  by_cases h : i < l.length
  · rw [List.drop_eq_getElem_cons h, List.getD_eq_getElem?_getD, List.getElem?_eq_getElem h]
    rfl
  · rw [List.drop_eq_nil_of_le (by omega), List.drop_eq_nil_of_le (by omega)]
    simp [List.getD_eq_getElem?_getD, List.getElem?_eq_none (show l.length ≤ i by omega)]

theorem addGo_spec {x y : List Nat} (hx : Words x) (hy : Words y) (n i c : Nat) (hc : c ≤ 1)
    (hlx : x.length ≤ i + n) (hly : y.length ≤ i + n) :
    Words (addGo x y n i c) ∧ ∃ c' : Nat, c' ≤ 1 ∧
      val (addGo x y n i c) + W64 ^ n * c' = val (x.drop i) + val (y.drop i) + c := by
  induction n generalizing i c with
  | zero =>
    refine ⟨by simp [addGo], c, hc, ?_⟩
    rw [List.drop_eq_nil_of_le (by omega), List.drop_eq_nil_of_le (by omega)]
    simp [addGo]
  | succ n ih =>
    obtain ⟨h1, h2, h3⟩ := uadd_spec (hx.getD i) (hy.getD i) hc
    obtain ⟨hw, c', hc', e⟩ := ih (i + 1) (uadd (x.getD i 0) (y.getD i 0) c).2 h3 (by omega) (by omega)
    rw [addGo]
    refine ⟨words_cons.mpr ⟨h2, hw⟩, c', hc', ?_⟩
    rw [val_drop_succ x i, val_drop_succ y i]
    simp only [val_cons, pow_succ]
    nlinarith

theorem subGo_length (x y : List Nat) (n i c : Nat) : (subGo x y n i c).1.length = n := by
  induction n generalizing i c with
  | zero => rfl
  | succ n ih => simp [subGo, ih]

theorem subGo_spec {x y : List Nat} (hx : Words x) (hy : Words y) (n i c : Nat) (hc : c ≤ 1)
    (hlx : x.length ≤ i + n) (hly : y.length ≤ i + n) :
    Words (subGo x y n i c).1 ∧ (subGo x y n i c).2 ≤ 1 ∧
      val (subGo x y n i c).1 + val (y.drop i) + c = val (x.drop i) + W64 ^ n * (subGo x y n i c).2 := by
  induction n generalizing i c with
  | zero =>
    refine ⟨by simp [subGo], hc, ?_⟩
    rw [List.drop_eq_nil_of_le (by omega), List.drop_eq_nil_of_le (by omega)]
    simp [subGo]
  | succ n ih =>
    obtain ⟨h1, h2, h3⟩ := usub_spec (hx.getD i) (hy.getD i) hc
    obtain ⟨hw, hc', e⟩ := ih (i + 1) (usub (x.getD i 0) (y.getD i 0) c).2 h3 (by omega) (by omega)
    rw [subGo]
    refine ⟨words_cons.mpr ⟨h2, hw⟩, hc', ?_⟩
    rw [val_drop_succ x i, val_drop_succ y i]
    simp only [val_cons, pow_succ]
    nlinarith

theorem cmplGo_length (l : List Nat) (c : Nat) : (cmplGo l c).length = l.length := by
  induction l generalizing c with
  | nil => rfl
  | cons w ws ih => simp [cmplGo, ih]

theorem cmplGo_spec {l : List Nat} (hl : Words l) (c : Nat) (hc : c ≤ 1) :
    Words (cmplGo l c) ∧ ∃ c' : Nat, c' ≤ 1 ∧ val (cmplGo l c) + val l + W64 ^ l.length * c' + 1 = W64 ^ l.length + c := by
  induction l generalizing c with
  | nil => exact ⟨by simp [cmplGo], c, hc, by simp [cmplGo]; omega⟩
  | cons w ws ih =>
    simp at hl
    obtain ⟨h1, h2, h3⟩ := uadd_spec (x := W64 - 1 - w) (y := 0) (c := c) (by omega) (by omega) hc
    obtain ⟨hw, c', hc', e⟩ := ih hl.2 _ h3
    rw [cmplGo]
    refine ⟨words_cons.mpr ⟨h2, hw⟩, c', hc', ?_⟩
    simp only [val_cons, pow_succ, List.length_cons]
    have h4 : (uadd (W64 - 1 - w) 0 c).1 + W64 * (uadd (W64 - 1 - w) 0 c).2 + w + 1 = W64 + c := by omega
    nlinarith

theorem twosCmpl_length (l : List Nat) : (twosCmpl l).length = l.length := cmplGo_length l 1

theorem twosCmpl_words {l : List Nat} (hl : Words l) : Words (twosCmpl l) := (cmplGo_spec hl 1 (by omega)).1

/-- The value of a two's complement: exact negation modulo the size. -/
theorem twosCmpl_val {l : List Nat} (hl : Words l) (h0 : val l ≠ 0) : val (twosCmpl l) + val l = W64 ^ l.length := by
  obtain ⟨hw, c', hc', e⟩ := cmplGo_spec hl 1 (by omega)
  have h1 := val_lt hl
  have h2 := val_lt hw
  rw [cmplGo_length] at h2
  unfold twosCmpl
  have : c' = 0 ∨ c' = 1 := by omega
  rcases this with h | h <;> subst h
  · omega
  · omega

theorem twosCmpl_val_zero {l : List Nat} (hl : Words l) (h0 : val l = 0) : val (twosCmpl l) = 0 := by
  obtain ⟨hw, c', hc', e⟩ := cmplGo_spec hl 1 (by omega)
  have h2 := val_lt hw
  rw [cmplGo_length] at h2
  unfold twosCmpl
  have : c' = 0 ∨ c' = 1 := by omega
  rcases this with h | h <;> subst h
  · omega
  · omega

theorem getD_pred_getLast {l : List Nat} (h : l ≠ []) : l.getD (l.length - 1) 0 = l.getLast h := by
  rw [List.getLast_eq_getElem, List.getD_eq_getElem?_getD]
  have : l.length - 1 < l.length := by have := List.length_pos_iff.mpr h; omega
  rw [List.getElem?_eq_getElem this]; rfl

/-- A vector whose top word is not all ones leaves room for one more unit at the top. -/
theorem val_lt_of_top {l : List Nat} (hw : Words l) (hl : l ≠ []) (ht : l.getD (l.length - 1) 0 ≠ W64 - 1) :
    val l + W64 ^ (l.length - 1) ≤ W64 ^ l.length := by
  have h1 : Words l.dropLast := fun w h => hw w (List.dropLast_subset _ h)
  have h2 := val_lt h1
  have h3 := hw _ (List.getLast_mem hl)
  rw [getD_pred_getLast hl] at ht
  have e : val l = val l.dropLast + W64 ^ (l.length - 1) * l.getLast hl := by
    conv_lhs => rw [← List.dropLast_append_getLast hl, val_append]
    simp
  simp only [List.length_dropLast] at h2
  obtain ⟨n, hn⟩ : ∃ n, l.length = n + 1 := ⟨l.length - 1, by have := List.length_pos_iff.mpr hl; omega⟩
  rw [e, hn]
  rw [hn] at h2
  simp only [Nat.add_sub_cancel] at *
  rw [pow_succ]
  have : l.getLast hl ≤ W64 - 2 := by omega
  nlinarith [pow_pos (show 0 < W64 by norm_num) n]

theorem safeSize_comm (x y : List Nat) : safeSize x y = safeSize y x := by
  unfold safeSize
  rcases Nat.lt_trichotomy x.length y.length with h | h | h
  · simp only [gt_iff_lt, h, if_true, if_neg (show ¬ y.length < x.length by omega)]
  · simp only [gt_iff_lt, h, lt_irrefl, if_false]
  · simp only [gt_iff_lt, h, if_true, if_neg (show ¬ x.length < y.length by omega)]

theorem le_safeSize (x y : List Nat) : x.length ≤ safeSize x y ∧ y.length ≤ safeSize x y := by
  unfold safeSize
  split
  · split <;> omega
  · split
    · split <;> omega
    · omega

/-- `bignum_safe_size_for_add` is enough for the sum. -/
theorem safeSize_enough {x y : List Nat} (hx : Words x) (hy : Words y) :
    val x + val y < W64 ^ safeSize x y := by
  wlog hle : y.length ≤ x.length generalizing x y with H
  · have := H hy hx (by omega)
    rw [safeSize_comm]; omega
  have h1 := val_lt hx
  have h2 := val_lt hy
  rcases Nat.lt_or_ge y.length x.length with h | h
  · have h4 : W64 ^ y.length ≤ W64 ^ (x.length - 1) := Nat.pow_le_pow_right (by norm_num) (by omega)
    unfold safeSize
    rw [if_pos (by omega)]
    split
    · have h5 : W64 ^ y.length ≤ W64 ^ x.length := Nat.pow_le_pow_right (by norm_num) (by omega)
      rw [pow_succ]; omega
    · next ht =>
      have h3 := val_lt_of_top hx (by intro h; subst h; simp at *) ht
      omega
  · have h5 : W64 ^ y.length ≤ W64 ^ x.length := Nat.pow_le_pow_right (by norm_num) (by omega)
    unfold safeSize
    rw [if_neg (by omega), if_neg (by omega), pow_succ]; omega

theorem addInt_spec {x y : List Nat} (hx : Words x) (hy : Words y) :
    Words (addInt (safeSize x y) x y) ∧ val (addInt (safeSize x y) x y) = val x + val y := by
  have hs := le_safeSize x y
  obtain ⟨hw, c', hc', e⟩ := addGo_spec hx hy (safeSize x y) 0 0 (by omega) (by omega) (by omega)
  refine ⟨hw, ?_⟩
  have h := safeSize_enough hx hy
  simp only [List.drop_zero, Nat.add_zero] at e
  unfold addInt
  rcases (show c' = 0 ∨ c' = 1 by omega) with h0 | h0
  · subst h0; omega
  · subst h0; omega

theorem addInt_ne {x y : List Nat} (hx : x ≠ []) : addInt (safeSize x y) x y ≠ [] := by
  have h1 := List.length_pos_iff.mpr hx
  have h2 := (le_safeSize x y).1
  apply List.length_pos_iff.mp
  rw [addInt, addGo_length]; omega

theorem subInt_spec {x y : List Nat} {s : Int} (hx : Words x) (hy : Words y) (hs : s = 1 ∨ s = -1) (hne : x ≠ []) :
    ((subInt (safeSize x y) s x y).sign = 1 ∨ (subInt (safeSize x y) s x y).sign = -1) ∧
      Words (subInt (safeSize x y) s x y).vals ∧ (subInt (safeSize x y) s x y).vals ≠ [] ∧
      (subInt (safeSize x y) s x y).toInt = s * ((val x : Int) - val y) := by
  have hs' := le_safeSize x y
  obtain ⟨hw, hc', e⟩ := subGo_spec hx hy (safeSize x y) 0 0 (by omega) (by omega) (by omega)
  have hlen := subGo_length x y (safeSize x y) 0 0
  have hpos := List.length_pos_iff.mpr hne
  simp only [List.drop_zero, Nat.add_zero] at e
  unfold subInt
  dsimp only
  split
  · next h =>
    have h1 : (subGo x y (safeSize x y) 0 0).2 = 1 := by omega
    rw [h1] at e
    have hlt := val_lt hw
    rw [hlen] at hlt
    have hen := safeSize_enough hx hy
    have hv := twosCmpl_val hw (by omega)
    rw [hlen] at hv
    refine ⟨by dsimp only; omega, twosCmpl_words hw, ?_, ?_⟩
    · apply List.length_pos_iff.mp; rw [twosCmpl_length, hlen]; omega
    · simp only [Big.toInt]
      have : (val (twosCmpl (subGo x y (safeSize x y) 0 0).1) : Int) = val y - val x := by omega
      rw [this]; ring
  · next h =>
    have h1 : (subGo x y (safeSize x y) 0 0).2 = 0 := by omega
    rw [h1] at e
    refine ⟨hs, hw, ?_, ?_⟩
    · apply List.length_pos_iff.mp; dsimp only; rw [hlen]; omega
    · simp only [Big.toInt]
      congr 1; omega

/-- The shape every bignum argument has: sign ±1, nonempty vector of words. -/
structure Big.WF (b : Big) : Prop where
  sign : b.sign = 1 ∨ b.sign = -1
  words : Words b.vals
  ne : b.vals ≠ []

theorem normalize_wf {b : Big} (h : b.WF) : (normalize b).IsInt b.toInt := by
  obtain ⟨s, l⟩ := b
  exact normalize_spec h.sign h.ne h.words

theorem bigAdd_spec {x y : Big} (hx : x.WF) (hy : y.WF) : (bigAdd x y).WF ∧ (bigAdd x y).toInt = x.toInt + y.toInt := by
  unfold bigAdd
  split
  · next h =>
    obtain ⟨hw, e⟩ := addInt_spec hx.words hy.words
    refine ⟨⟨hx.sign, hw, addInt_ne hx.ne⟩, ?_⟩
    simp only [Big.toInt, e, ← h]; push_cast; ring
  · next h =>
    obtain ⟨h1, h2, h3, h4⟩ := subInt_spec hx.words hy.words hx.sign hx.ne
    refine ⟨⟨h1, h2, h3⟩, ?_⟩
    rw [h4]; simp only [Big.toInt]
    have : y.sign = -x.sign := by rcases hx.sign with a | a <;> rcases hy.sign with b | b <;> omega
    rw [this]; ring

theorem bigSub_spec {x y : Big} (hx : x.WF) (hy : y.WF) : (bigSub x y).WF ∧ (bigSub x y).toInt = x.toInt - y.toInt := by
  unfold bigSub
  split
  · next h =>
    obtain ⟨h1, h2, h3, h4⟩ := subInt_spec hx.words hy.words hx.sign hx.ne
    refine ⟨⟨h1, h2, h3⟩, ?_⟩
    rw [h4]; simp only [Big.toInt, ← h]; ring
  · next h =>
    obtain ⟨hw, e⟩ := addInt_spec hx.words hy.words
    refine ⟨⟨hx.sign, hw, addInt_ne hx.ne⟩, ?_⟩
    simp only [Big.toInt, e]
    have : y.sign = -x.sign := by rcases hx.sign with a | a <;> rcases hy.sign with b | b <;> omega
    rw [this]; push_cast; ring

theorem addSiGo_add {l : List Nat} (hl : Words l) (y c : Nat) (hy : y < W64) (hc : c ≤ 1) :
    Words (addSiGo false l y c) ∧ (addSiGo false l y c) ≠ [] ∧
      (l ≠ [] → val (addSiGo false l y c) = val l + y + c) ∧ (y = 0 → val (addSiGo false l y c) = val l + c) := by
  induction l generalizing y c with
  | nil => simp [addSiGo]; omega
  | cons w ws ih =>
    simp at hl
    obtain ⟨h1, h2, h3⟩ := uadd_spec hl.1 hy hc
    obtain ⟨i1, i2, _, i4⟩ := ih hl.2 0 (uadd w y c).2 (by omega) h3
    have i4 := i4 rfl
    simp only [addSiGo, Bool.false_eq_true, if_false]
    refine ⟨by simp [i1, h2], by simp, fun _ => ?_, fun h => ?_⟩
    · simp only [val_cons, i4]; omega
    · subst h; simp only [val_cons, i4]; omega

theorem addSiGo_sub {l : List Nat} (hl : Words l) (y c : Nat) (hy : y < W64) (hc : c ≤ 1)
    (hge : y + c ≤ val l) :
    Words (addSiGo true l y c) ∧ (addSiGo true l y c) ≠ [] ∧ val (addSiGo true l y c) + y + c = val l := by
  induction l generalizing y c with
  | nil => simp at hge; simp [addSiGo]; omega
  | cons w ws ih =>
    simp at hl
    obtain ⟨h1, h2, h3⟩ := usub_spec hl.1 hy hc
    simp only [val_cons] at hge
    obtain ⟨i1, i2, i3⟩ := ih hl.2 0 (usub w y c).2 (by omega) h3 (by omega)
    simp only [addSiGo, if_true]
    refine ⟨by simp [i1, h2], by simp, ?_⟩
    simp only [val_cons]; omega

theorem ulabs_eq {y : Int} (h : -9223372036854775808 ≤ y ∧ y ≤ 9223372036854775807) : ulabs y = y.natAbs := by
  unfold ulabs; split <;> omega

theorem addSi_spec {x : Big} {y : Int} (hx : x.WF) (hy : -9223372036854775808 ≤ y ∧ y ≤ 9223372036854775807)
    (hbig : y.natAbs ≤ val x.vals) : (addSi x y).WF ∧ (addSi x y).toInt = x.toInt + y := by
  have hu := ulabs_eq hy
  unfold addSi
  dsimp only
  by_cases h : x.sign = (if y < 0 then (-1 : Int) else 1)
  · simp only [ne_eq, h, not_true, decide_false]
    obtain ⟨h1, h2, h3, _⟩ := addSiGo_add hx.words (ulabs y) 0 (by omega) (by omega)
    refine ⟨⟨by dsimp only; split <;> omega, h1, h2⟩, ?_⟩
    simp only [Big.toInt, h3 hx.ne, h]
    split <;> push_cast <;> omega
  · simp only [ne_eq, h, not_false_eq_true, decide_true]
    obtain ⟨h1, h2, h3⟩ := addSiGo_sub hx.words (ulabs y) 0 (by omega) (by omega) (by omega)
    refine ⟨⟨hx.sign, h1, h2⟩, ?_⟩
    simp only [Big.toInt]
    split at h
    · have : x.sign = 1 := by rcases hx.sign with a | a <;> omega
      rw [this]; omega
    · have : x.sign = -1 := by rcases hx.sign with a | a <;> omega
      rw [this]; omega

end Gauche.Bignum

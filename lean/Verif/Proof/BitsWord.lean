import Verif.Model.Bits
import Verif.Proof.BignumDiv2
import Verif.Proof.BignumMul
import Mathlib.Tactic.Ring
/-! Word-level facts: masks, population count, lowest and highest one bit. -/
namespace Gauche.Bits

theorem below_get (k i : Nat) (hk : k < 64) (hi : i < 64) : (below k).getLsbD i = decide (i < k) := by
  unfold below
  have h1 : ((1#64 <<< k) - 1#64).toNat = 2 ^ k - 1 := by
    have hp : 2 ^ k < 2 ^ 64 := Nat.pow_lt_pow_right (by decide) hk
    have hp0 : 0 < 2 ^ k := Nat.two_pow_pos k
    have h0 : (1#64 <<< k).toNat = 2 ^ k := by
      rw [BitVec.toNat_shiftLeft, Nat.shiftLeft_eq]
      show 1 * 2 ^ k % 2 ^ 64 = _
      rw [Nat.one_mul, Nat.mod_eq_of_lt hp]
    rw [BitVec.toNat_sub_of_le, h0]
    · rfl
    · rw [BitVec.le_def, h0]; show 1 ≤ _; omega
  rw [BitVec.getLsbD, h1, Nat.testBit_two_pow_sub_one]

theorem maskSE_get (s e i : Nat) (hs : s < 64) (he : e < 64) (hi : i < 64) :
    (maskSE s e).getLsbD i = (decide (s ≤ i) && (decide (e = 0) || decide (i < e))) := by
  unfold maskSE
  rw [BitVec.getLsbD_and, BitVec.getLsbD_not, below_get s i hs hi]
  by_cases h : e = 0
  · rw [if_neg (by simpa using h), BitVec.getLsbD_allOnes]
    by_cases h2 : i < s
    · have : ¬ s ≤ i := by omega
      simp [h, hi, h2, this]
    · have : s ≤ i := by omega
      simp [h, hi, h2, this]
  · rw [if_pos h, below_get e i he hi]
    by_cases h2 : i < s
    · have : ¬ s ≤ i := by omega
      simp [hi, h2, this]
    · have : s ≤ i := by omega
      simp [h, hi, h2, this]

theorem one_shl_get (k i : Nat) (_hi : i < 64) : ((1#64) <<< k).getLsbD i = decide (i = k) := by
  by_cases h : i < k
  · have : ¬ i = k := by omega
    simp [h, this]
  · by_cases h2 : i = k
    · subst h2; simp; omega
    · have : i - k ≠ 0 := by omega
      have h3 : (1#64).getLsbD (i - k) = false := by
        rw [BitVec.getLsbD, show (1#64).toNat = 1 from rfl]
        obtain ⟨j, hj⟩ : ∃ j, i - k = j + 1 := ⟨i - k - 1, by omega⟩
        rw [hj, Nat.testBit_succ]; simp
      simp [h2, h3]

theorem ne_zero_iff (w : Word) : (w != 0#64) = true ↔ ∃ i, i < 64 ∧ w.getLsbD i = true := by
  rw [bne_iff_ne]
  constructor
  · intro h
    apply Classical.byContradiction
    intro hn
    apply h
    apply BitVec.eq_of_getLsbD_eq
    intro i hi
    rw [BitVec.getLsbD_zero]
    rcases hb : w.getLsbD i with _ | _
    · rfl
    · exact absurd ⟨i, hi, hb⟩ hn
  · rintro ⟨i, _, h⟩ rfl
    simp at h

theorem eq_zero_iff (w : Word) : (w != 0#64) = false ↔ ∀ i, i < 64 → w.getLsbD i = false := by
  constructor
  · intro h i hi
    rcases hb : w.getLsbD i with _ | _
    · rfl
    · rw [(ne_zero_iff w).2 ⟨i, hi, hb⟩] at h; cases h
  · intro h
    rcases hb : (w != 0#64) with _ | _
    · rfl
    · obtain ⟨i, hi, hb⟩ := (ne_zero_iff w).1 hb
      rw [h i hi] at hb; cases hb

theorem test_word (w : Word) (k : Nat) (hk : k < 64) :
    ((w &&& ((1#64) <<< k)) != 0#64) = w.getLsbD k := by
  rcases h : w.getLsbD k with _ | _
  · rw [eq_zero_iff]
    intro i hi
    rw [BitVec.getLsbD_and, one_shl_get k i hi]
    by_cases e : i = k
    · rw [e, h]; rfl
    · simp [e]
  · rw [ne_zero_iff]
    exact ⟨k, hk, by rw [BitVec.getLsbD_and, one_shl_get k k hk, h]; simp⟩

/-! ### Population count -/

/-- number of one bits of a natural number below bit `n` -/
def pop (x n : Nat) : Nat := ((List.range n).filter (fun i => x.testBit i)).length

theorem and_byte (x y m M : Nat) (hx : x < 256) (hm : m < 256) :
    (x + 256 * y) &&& (m + 256 * M) = (x &&& m) + 256 * (y &&& M) := by
  have h : (x &&& m) < 2 ^ 8 := Nat.and_lt_two_pow x hm
  apply Nat.eq_of_testBit_eq
  intro i
  rw [Nat.testBit_and, Nat.add_comm x, Nat.add_comm m, Nat.add_comm (x &&& m),
    show 256 = 2 ^ 8 from rfl, Nat.testBit_two_pow_mul_add _ hx, Nat.testBit_two_pow_mul_add _ hm,
    Nat.testBit_two_pow_mul_add _ h]
  by_cases hi : i < 8
  · simp [hi]
  · simp [hi]

theorem shr_byte (x y k m M : Nat) (hk : k < 8) (hx : x < 256) (hm : m < 2 ^ (8 - k)) :
    ((x + 256 * y) >>> k) &&& (m + 256 * M) = ((x >>> k) &&& m) + 256 * ((y >>> k) &&& M) := by
  have hm8 : m < 2 ^ 8 := Nat.lt_of_lt_of_le hm (Nat.pow_le_pow_right (by decide) (by omega))
  have h : ((x >>> k) &&& m) < 2 ^ 8 := Nat.and_lt_two_pow _ hm8
  apply Nat.eq_of_testBit_eq
  intro i
  rw [Nat.testBit_and, Nat.testBit_shiftRight, Nat.add_comm x, Nat.add_comm m, Nat.add_comm (_ &&& m),
    show 256 = 2 ^ 8 from rfl, Nat.testBit_two_pow_mul_add _ hx, Nat.testBit_two_pow_mul_add _ hm8,
    Nat.testBit_two_pow_mul_add _ h]
  by_cases hi : i < 8
  · by_cases hi2 : k + i < 8
    · simp [hi, hi2]
    · have : m.testBit i = false :=
        Nat.testBit_lt_two_pow (Nat.lt_of_lt_of_le hm (Nat.pow_le_pow_right (by decide) (by omega)))
      simp [hi, hi2, this]
  · have : ¬ k + i < 8 := by omega
    have e : k + i - 8 = k + (i - 8) := by omega
    simp [hi, this, e]

/-- One folding step of the population count. -/
def fold (k m x : Nat) : Nat := (x &&& m) + ((x >>> k) &&& m)

theorem fold_byte (x y k m M : Nat) (hk : k < 8) (hx : x < 256) (hm : m < 2 ^ (8 - k)) :
    fold k (m + 256 * M) (x + 256 * y) = fold k m x + 256 * fold k M y := by
  unfold fold
  have hm8 : m < 2 ^ 8 := Nat.lt_of_lt_of_le hm (Nat.pow_le_pow_right (by decide) (by omega))
  rw [and_byte _ _ _ _ hx hm8, shr_byte _ _ _ _ _ hk hx hm]
  omega

/-- a byte repeated `n` times -/
def rep (m : Nat) : Nat → Nat
  | 0 => 0
  | n + 1 => m + 256 * rep m n

/-- The number with the given bytes, least significant first. -/
def ofBytes : List Nat → Nat
  | [] => 0
  | b :: bs => b + 256 * ofBytes bs

theorem fold_zero (k m : Nat) : fold k m 0 = 0 := by simp [fold]

theorem fold_ofBytes (k m : Nat) (hk : k < 8) (hm : m < 2 ^ (8 - k)) (bs : List Nat)
    (hb : ∀ b ∈ bs, b < 256) :
    fold k (rep m bs.length) (ofBytes bs) = ofBytes (bs.map (fold k m)) := by
  induction bs with
  | nil => exact fold_zero k _
  | cons b bs ih =>
    show fold k (m + 256 * rep m bs.length) (b + 256 * ofBytes bs) = _
    rw [fold_byte _ _ _ _ _ hk (hb b (by simp)) hm, ih (fun c h => hb c (by simp [h]))]
    rfl

theorem byte_pop : ∀ b : Fin 256, fold 1 0x55 b.val < 256 ∧ fold 2 0x33 (fold 1 0x55 b.val) < 256 ∧
    fold 4 0x0f (fold 2 0x33 (fold 1 0x55 b.val)) = pop b.val 8 := by decide +kernel

theorem pop_le (x n : Nat) : pop x n ≤ n := by
  unfold pop
  exact Nat.le_trans (List.length_filter_le _ _) (by simp)

theorem pop_add (x y n : Nat) (hx : x < 256) : pop (x + 256 * y) (8 + n) = pop x 8 + pop y n := by
  unfold pop
  rw [List.range_add, List.filter_append, List.length_append]
  congr 1
  · congr 1
    apply List.filter_congr
    intro i hi
    have hi : i < 8 := by simpa using hi
    rw [Nat.add_comm, show 256 = 2 ^ 8 from rfl, Nat.testBit_two_pow_mul_add _ hx, if_pos hi]
  · rw [List.filter_map, List.length_map]
    congr 1
    apply List.filter_congr
    intro i _
    show (x + 256 * y).testBit (8 + i) = _
    rw [Nat.add_comm x, show 256 = 2 ^ 8 from rfl, Nat.testBit_two_pow_mul_add _ hx, if_neg (by omega)]
    congr 1; omega

theorem pop_ofBytes (bs : List Nat) (hb : ∀ b ∈ bs, b < 256) :
    pop (ofBytes bs) (8 * bs.length) = (bs.map (fun b => pop b 8)).sum := by
  induction bs with
  | nil => rfl
  | cons b bs ih =>
    rw [List.length_cons, show 8 * (bs.length + 1) = 8 + 8 * bs.length by omega]
    show pop (b + 256 * ofBytes bs) _ = _
    rw [pop_add _ _ _ (hb b (by simp)), ih (fun c h => hb c (by simp [h]))]
    simp

def bytes8 (x : Nat) : List Nat :=
  [x % 256, x / 256 % 256, x / 65536 % 256, x / 16777216 % 256, x / 4294967296 % 256,
   x / 1099511627776 % 256, x / 281474976710656 % 256, x / 72057594037927936 % 256]

theorem ofBytes_bytes8 (x : Nat) (h : x < 18446744073709551616) : ofBytes (bytes8 x) = x := by
  simp only [bytes8, ofBytes]
  omega

theorem bytes8_lt (x : Nat) : ∀ b ∈ bytes8 x, b < 256 := by
  intro b hb
  simp only [bytes8, List.mem_cons, List.not_mem_nil, or_false] at hb
  rcases hb with h | h | h | h | h | h | h | h <;> omega

theorem ofBytes_lt (bs : List Nat) (hb : ∀ b ∈ bs, b < 256) : ofBytes bs < 256 ^ bs.length := by
  induction bs with
  | nil => simp [ofBytes]
  | cons b bs ih =>
    have h1 := hb b (by simp)
    have h2 := ih (fun c h => hb c (by simp [h]))
    rw [List.length_cons, Nat.pow_succ]
    show b + 256 * ofBytes bs < _
    omega

theorem fold_bv (k : Nat) (m w : Word) (h : fold k m.toNat w.toNat < 2 ^ 64) :
    ((w &&& m) + ((w >>> k) &&& m)).toNat = fold k m.toNat w.toNat := by
  rw [BitVec.toNat_add, BitVec.toNat_and, BitVec.toNat_and, BitVec.toNat_ushiftRight]
  exact Nat.mod_eq_of_lt h

theorem countWord_pop (w : Word) : countWord w = pop w.toNat 64 := by
  have hw : w.toNat < 18446744073709551616 := w.isLt
  have hbl := bytes8_lt w.toNat
  have hlen : (bytes8 w.toNat).length = 8 := rfl
  have e0 : ofBytes (bytes8 w.toNat) = w.toNat := ofBytes_bytes8 _ hw
  generalize hbs : bytes8 w.toNat = bs at *
  have b1 : ∀ b ∈ bs.map (fold 1 0x55), b < 256 := by
    intro b hb
    obtain ⟨c, hc, rfl⟩ := List.mem_map.1 hb
    exact (byte_pop ⟨c, hbl c hc⟩).1
  have b2 : ∀ b ∈ (bs.map (fold 1 0x55)).map (fold 2 0x33), b < 256 := by
    intro b hb
    rw [List.map_map] at hb
    obtain ⟨c, hc, rfl⟩ := List.mem_map.1 hb
    exact (byte_pop ⟨c, hbl c hc⟩).2.1
  have e1 : fold 1 0x5555555555555555 w.toNat = ofBytes (bs.map (fold 1 0x55)) := by
    rw [← fold_ofBytes 1 0x55 (by decide) (by decide) bs hbl, hlen, e0]; rfl
  have e2 : fold 2 0x3333333333333333 (ofBytes (bs.map (fold 1 0x55)))
      = ofBytes ((bs.map (fold 1 0x55)).map (fold 2 0x33)) := by
    rw [← fold_ofBytes 2 0x33 (by decide) (by decide) _ b1, List.length_map, hlen]; rfl
  have e3 : fold 4 0x0f0f0f0f0f0f0f0f (ofBytes ((bs.map (fold 1 0x55)).map (fold 2 0x33)))
      = ofBytes (bs.map (fun b => pop b 8)) := by
    have : (bs.map (fun b => pop b 8)) = ((bs.map (fold 1 0x55)).map (fold 2 0x33)).map (fold 4 0x0f) := by
      rw [List.map_map, List.map_map]
      apply List.map_congr_left
      intro c hc
      exact (byte_pop ⟨c, hbl c hc⟩).2.2.symm
    rw [this, ← fold_ofBytes 4 0x0f (by decide) (by decide) _ b2, List.length_map, List.length_map, hlen]
    rfl
  have b3 : ∀ b ∈ bs.map (fun b => pop b 8), b ≤ 8 := by
    intro b hb
    obtain ⟨c, _, rfl⟩ := List.mem_map.1 hb
    exact pop_le c 8
  have L1 := ofBytes_lt _ b1
  have L2 := ofBytes_lt _ b2
  have L3 := ofBytes_lt _ (fun b hb => Nat.lt_of_le_of_lt (b3 b hb) (by decide : 8 < 256))
  rw [List.length_map, hlen] at L1 L3
  rw [List.length_map, List.length_map, hlen] at L2
  have hp : pop w.toNat 64 = (bs.map (fun b => pop b 8)).sum := by
    rw [← e0, ← pop_ofBytes bs hbl, hlen]
  rw [hp]
  simp only [countWord]
  rw [BitVec.toNat_ushiftRight, BitVec.toNat_mul]
  have f1 : ((w &&& 0x5555555555555555#64) + ((w >>> 1) &&& 0x5555555555555555#64)).toNat
      = ofBytes (bs.map (fold 1 0x55)) := by
    rw [fold_bv] <;> rw [show (0x5555555555555555#64).toNat = 0x5555555555555555 from rfl, e1]
    exact L1
  generalize ((w &&& 0x5555555555555555#64) + ((w >>> 1) &&& 0x5555555555555555#64)) = w1 at *
  have f2 : ((w1 &&& 0x3333333333333333#64) + ((w1 >>> 2) &&& 0x3333333333333333#64)).toNat
      = ofBytes ((bs.map (fold 1 0x55)).map (fold 2 0x33)) := by
    rw [fold_bv] <;> rw [show (0x3333333333333333#64).toNat = 0x3333333333333333 from rfl, f1, e2]
    exact L2
  generalize ((w1 &&& 0x3333333333333333#64) + ((w1 >>> 2) &&& 0x3333333333333333#64)) = w2 at *
  have f3 : ((w2 &&& 0x0f0f0f0f0f0f0f0f#64) + ((w2 >>> 4) &&& 0x0f0f0f0f0f0f0f0f#64)).toNat
      = ofBytes (bs.map (fun b => pop b 8)) := by
    rw [fold_bv] <;> rw [show (0x0f0f0f0f0f0f0f0f#64).toNat = 0x0f0f0f0f0f0f0f0f from rfl, f2, e3]
    exact L3
  rw [f3, show (0x0101010101010101#64).toNat = 0x0101010101010101 from rfl, Nat.shiftRight_eq_div_pow]
  have hl : (bs.map (fun b => pop b 8)).length = 8 := by rw [List.length_map, hlen]
  generalize bs.map (fun b => pop b 8) = ps at *
  match ps, hl, b3 with
  | [p0, p1, p2, p3, p4, p5, p6, p7], _, b3 =>
    have := b3 p0 (by simp); have := b3 p1 (by simp); have := b3 p2 (by simp); have := b3 p3 (by simp)
    have := b3 p4 (by simp); have := b3 p5 (by simp); have := b3 p6 (by simp); have := b3 p7 (by simp)
    simp only [ofBytes, List.sum_cons, List.sum_nil]
    have key : (p0 + 256 * (p1 + 256 * (p2 + 256 * (p3 + 256 * (p4 + 256 * (p5 + 256 * (p6 + 256 * (p7 + 256 * 0))))))))
        * 72340172838076673
      = (p0 + 256 * (p0 + p1) + 65536 * (p0 + p1 + p2) + 16777216 * (p0 + p1 + p2 + p3)
          + 4294967296 * (p0 + p1 + p2 + p3 + p4) + 1099511627776 * (p0 + p1 + p2 + p3 + p4 + p5)
          + 281474976710656 * (p0 + p1 + p2 + p3 + p4 + p5 + p6))
        + 72057594037927936 * (p0 + p1 + p2 + p3 + p4 + p5 + p6 + p7)
        + 18446744073709551616 * ((p1 + p2 + p3 + p4 + p5 + p6 + p7) + 256 * (p2 + p3 + p4 + p5 + p6 + p7)
          + 65536 * (p3 + p4 + p5 + p6 + p7) + 16777216 * (p4 + p5 + p6 + p7) + 4294967296 * (p5 + p6 + p7)
          + 1099511627776 * (p6 + p7) + 281474976710656 * p7) := by ring
    rw [key]
    generalize hL : (p0 + 256 * (p0 + p1) + 65536 * (p0 + p1 + p2) + 16777216 * (p0 + p1 + p2 + p3)
          + 4294967296 * (p0 + p1 + p2 + p3 + p4) + 1099511627776 * (p0 + p1 + p2 + p3 + p4 + p5)
          + 281474976710656 * (p0 + p1 + p2 + p3 + p4 + p5 + p6)) = L
    have hL' : L < 72057594037927936 := by omega
    generalize ((p1 + p2 + p3 + p4 + p5 + p6 + p7) + 256 * (p2 + p3 + p4 + p5 + p6 + p7)
          + 65536 * (p3 + p4 + p5 + p6 + p7) + 16777216 * (p4 + p5 + p6 + p7) + 4294967296 * (p5 + p6 + p7)
          + 1099511627776 * (p6 + p7) + 281474976710656 * p7) = Q
    generalize hS : p0 + p1 + p2 + p3 + p4 + p5 + p6 + p7 = S
    have : p0 + (p1 + (p2 + (p3 + (p4 + (p5 + (p6 + (p7 + 0))))))) = S := by omega
    rw [this]
    have hS' : S ≤ 64 := by omega
    clear key hL
    omega

/-! ### Lowest and highest one bit -/

theorem highest_spec (w : Word) (h : w ≠ 0#64) :
    highest w < 64 ∧ w.getLsbD (highest w) = true ∧ ∀ i, highest w < i → w.getLsbD i = false := by
  have h0 : w.toNat ≠ 0 := fun e => h (BitVec.eq_of_toNat_eq (by simpa using e))
  obtain ⟨a, b, c⟩ := Bignum.highestBit_spec h0 w.isLt
  unfold highest
  refine ⟨a, ?_, ?_⟩
  · have e : w.toNat.log2 = Bignum.highestBit w.toNat :=
      (Nat.log2_eq_iff h0).2 ⟨b, c⟩
    rw [BitVec.getLsbD, ← e]
    exact Nat.testBit_log2 h0
  · intro i hi
    rw [BitVec.getLsbD]
    exact Nat.testBit_lt_two_pow (Nat.lt_of_lt_of_le c (Nat.pow_le_pow_right (by decide) hi))

theorem isolate (x : Nat) (h : x ≠ 0) : ∃ k, x ^^^ (x &&& (x - 1)) = 2 ^ k ∧ x.testBit k = true ∧
    ∀ i, i < k → x.testBit i = false := by
  induction x using Nat.strongRecOn with
  | _ x ih =>
    rcases Nat.mod_two_eq_zero_or_one x with hx | hx
    · obtain ⟨y, rfl⟩ : ∃ y, x = 2 * y := ⟨x / 2, by omega⟩
      obtain ⟨k, e, hk, hl⟩ := ih y (by omega) (by omega)
      refine ⟨k + 1, ?_, ?_, ?_⟩
      · rw [Nat.pow_succ, ← e]
        have : 2 * y - 1 = 2 * (y - 1) + 1 := by omega
        rw [this, Nat.mul_comm _ 2]
        apply Nat.eq_of_testBit_eq
        intro i
        rcases i with _ | i
        · simp [Nat.testBit_xor, Nat.testBit_and]
        · rw [Nat.testBit_xor, Nat.testBit_and, Nat.testBit_succ, Nat.testBit_succ, Nat.testBit_succ,
            Nat.mul_div_cancel_left _ (by decide), Nat.mul_div_cancel_left _ (by decide),
            show (2 * (y - 1) + 1) / 2 = y - 1 by omega, Nat.testBit_xor, Nat.testBit_and]
      · rw [Nat.testBit_succ, Nat.mul_div_cancel_left _ (by decide)]; exact hk
      · intro i hi
        rcases i with _ | i
        · simp
        · rw [Nat.testBit_succ, Nat.mul_div_cancel_left _ (by decide)]; exact hl i (by omega)
    · refine ⟨0, ?_, ?_, fun i hi => absurd hi (Nat.not_lt_zero i)⟩
      · apply Nat.eq_of_testBit_eq
        intro i
        rcases i with _ | i
        · have : (x - 1) % 2 = 0 := by omega
          rw [Nat.testBit_xor, Nat.testBit_and, Nat.testBit_zero, Nat.testBit_zero, hx, this]
          rfl
        · rw [Nat.testBit_xor, Nat.testBit_and, Nat.testBit_succ, Nat.testBit_succ, 
            show (x - 1) / 2 = x / 2 by omega, Nat.testBit_succ]
          simp
      · rw [Nat.testBit_zero]; simpa using hx

theorem lowest_spec (w : Word) (h : w ≠ 0#64) :
    lowest w < 64 ∧ w.getLsbD (lowest w) = true ∧ ∀ i, i < lowest w → w.getLsbD i = false := by
  have h0 : w.toNat ≠ 0 := fun e => h (BitVec.eq_of_toNat_eq (by simpa using e))
  obtain ⟨k, e, hk, hl⟩ := isolate _ h0
  have hk64 : k < 64 := by
    apply Classical.byContradiction
    intro hn
    rw [Nat.testBit_lt_two_pow (Nat.lt_of_lt_of_le w.isLt (Nat.pow_le_pow_right (by decide) (by omega)))] at hk
    cases hk
  have : lowest w = k := by
    unfold lowest Bignum.lowestBit
    simp only [e]
    have : ∀ k : Fin 64,
      (if 2 ^ k.val &&& 0xffffffff00000000 ≠ 0 then 32 else 0) + (if 2 ^ k.val &&& 0xffff0000ffff0000 ≠ 0 then 16 else 0)
      + (if 2 ^ k.val &&& 0xff00ff00ff00ff00 ≠ 0 then 8 else 0) + (if 2 ^ k.val &&& 0xf0f0f0f0f0f0f0f0 ≠ 0 then 4 else 0)
      + (if 2 ^ k.val &&& 0xcccccccccccccccc ≠ 0 then 2 else 0) + (if 2 ^ k.val &&& 0xaaaaaaaaaaaaaaaa ≠ 0 then 1 else 0)
      = k.val := by decide +kernel
    exact this ⟨k, hk64⟩
  rw [this]
  exact ⟨hk64, hk, hl⟩

end Gauche.Bits

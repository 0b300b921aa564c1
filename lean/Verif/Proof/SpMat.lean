import Verif.Proof.SpVecRun

/-! # Sparse matrices: the combined index determines the pair -/

namespace Gauche.SpVec

open Gauche.CTrie Gauche.SparseMap

theorem testBit_15 (k : Nat) : (15 : Nat).testBit k = decide (k < 4) := by
  rw [show (15 : Nat) = 2 ^ 4 - 1 from rfl, Nat.testBit_two_pow_sub_one]

/-- Bit `p` of the interleaving of `x` and `y` by groups of four. -/
def ilBit (x y p : Nat) : Bool :=
  if p % 8 < 4 then x.testBit (p / 8 * 4 + p % 8) else y.testBit (p / 8 * 4 + (p % 8 - 4))

theorem chunkX (x m p : Nat) : ((x &&& (15 <<< (4 * m))) <<< (4 * m)).testBit p =
    (decide (p / 8 = m) && decide (p % 8 < 4) && x.testBit (p / 8 * 4 + p % 8)) := by
  rw [Nat.testBit_shiftLeft, Nat.testBit_and, Nat.testBit_shiftLeft, testBit_15]
  by_cases h : p / 8 = m ∧ p % 8 < 4
  · obtain ⟨h1, h2⟩ := h
    rw [decide_eq_true h1, decide_eq_true h2, decide_eq_true (show p ≥ 4 * m by omega),
      decide_eq_true (show p - 4 * m ≥ 4 * m by omega),
      decide_eq_true (show p - 4 * m - 4 * m < 4 by omega),
      show p - 4 * m = p / 8 * 4 + p % 8 by omega]
    simp
  · have hr : (decide (p / 8 = m) && decide (p % 8 < 4)) = false := by
      rw [Bool.and_eq_false_iff, decide_eq_false_iff_not, decide_eq_false_iff_not]
      by_cases h1 : p / 8 = m
      · exact Or.inr (fun h2 => h ⟨h1, h2⟩)
      · exact Or.inl h1
    rw [hr, Bool.false_and]
    by_cases h3 : p ≥ 4 * m
    · by_cases h4 : p - 4 * m ≥ 4 * m
      · rw [decide_eq_false (show ¬ p - 4 * m - 4 * m < 4 by
          intro h5; exact h ⟨by omega, by omega⟩)]
        simp
      · rw [decide_eq_false h4]; simp
    · rw [decide_eq_false h3]; simp

theorem chunkY (y m p : Nat) : ((y &&& (15 <<< (4 * m))) <<< (4 * m + 4)).testBit p =
    (decide (p / 8 = m) && !decide (p % 8 < 4) && y.testBit (p / 8 * 4 + (p % 8 - 4))) := by
  rw [Nat.testBit_shiftLeft, Nat.testBit_and, Nat.testBit_shiftLeft, testBit_15]
  by_cases h : p / 8 = m ∧ ¬ p % 8 < 4
  · obtain ⟨h1, h2⟩ := h
    rw [decide_eq_true h1, decide_eq_false h2, decide_eq_true (show p ≥ 4 * m + 4 by omega),
      decide_eq_true (show p - (4 * m + 4) ≥ 4 * m by omega),
      decide_eq_true (show p - (4 * m + 4) - 4 * m < 4 by omega),
      show p - (4 * m + 4) = p / 8 * 4 + (p % 8 - 4) by omega]
    simp
  · have hr : (decide (p / 8 = m) && !decide (p % 8 < 4)) = false := by
      by_cases h1 : p / 8 = m
      · have : p % 8 < 4 := by
          by_cases h2 : p % 8 < 4
          · exact h2
          · exact absurd ⟨h1, h2⟩ h
        rw [decide_eq_true this]; simp
      · rw [decide_eq_false h1]; rfl
    rw [hr, Bool.false_and]
    by_cases h3 : p ≥ 4 * m + 4
    · by_cases h4 : p - (4 * m + 4) ≥ 4 * m
      · rw [decide_eq_false (show ¬ p - (4 * m + 4) - 4 * m < 4 by
          intro h5; exact h ⟨by omega, by omega⟩)]
        simp
      · rw [decide_eq_false h4]; simp
    · rw [decide_eq_false h3]; simp

theorem chunkXY (x y m p : Nat) :
    (((x &&& (15 <<< (4 * m))) <<< (4 * m)).testBit p ||
      ((y &&& (15 <<< (4 * m))) <<< (4 * m + 4)).testBit p) =
    (decide (p / 8 = m) && ilBit x y p) := by
  rw [chunkX, chunkY, ilBit]
  by_cases h1 : p / 8 = m
  · by_cases h2 : p % 8 < 4
    · rw [if_pos h2, decide_eq_true h1, decide_eq_true h2]; simp
    · rw [if_neg h2, decide_eq_true h1, decide_eq_false h2]; simp
  · rw [decide_eq_false h1]; simp

theorem combineLoop_ok (x y bmax p : Nat) : ∀ (n m ind : Nat), bmax + 1 ≤ 4 * (m + n) →
    (combineLoop x y bmax n (4 * m) ind).testBit p =
      (ind.testBit p || (decide (m ≤ p / 8) && decide (4 * (p / 8) ≤ bmax) && ilBit x y p))
  | 0, m, ind, h => by
    have : (decide (m ≤ p / 8) && decide (4 * (p / 8) ≤ bmax)) = false := by
      by_cases h1 : m ≤ p / 8
      · rw [decide_eq_false (show ¬ 4 * (p / 8) ≤ bmax by omega)]; simp
      · rw [decide_eq_false h1]; rfl
    rw [this, combineLoop]; simp
  | n + 1, m, ind, h => by
    rw [combineLoop]
    by_cases hs : 4 * m < bmax + 1
    · rw [if_pos hs, show 4 * m + 4 = 4 * (m + 1) by omega, combineLoop_ok x y bmax p n (m + 1) _ (by omega),
        Nat.testBit_or, Nat.testBit_or, show 4 * (m + 1) = 4 * m + 4 by omega, Bool.or_assoc (ind.testBit p),
        chunkXY, Bool.or_assoc]
      congr 1
      by_cases h1 : p / 8 = m
      · rw [decide_eq_true h1, decide_eq_false (show ¬ m + 1 ≤ p / 8 by omega),
          decide_eq_true (show m ≤ p / 8 by omega), decide_eq_true (show 4 * (p / 8) ≤ bmax by omega)]
        simp
      · rw [decide_eq_false h1]
        by_cases h2 : m ≤ p / 8
        · rw [decide_eq_true h2, decide_eq_true (show m + 1 ≤ p / 8 by omega)]; simp
        · rw [decide_eq_false h2, decide_eq_false (show ¬ m + 1 ≤ p / 8 by omega)]; simp
    · rw [if_neg hs]
      have : (decide (m ≤ p / 8) && decide (4 * (p / 8) ≤ bmax)) = false := by
        by_cases h1 : m ≤ p / 8
        · rw [decide_eq_false (show ¬ 4 * (p / 8) ≤ bmax by omega)]; simp
        · rw [decide_eq_false h1]; rfl
      rw [this]; simp

theorem highestBelow_ge (w : Nat) : ∀ n i, i < n → w.testBit i = true → i ≤ highestBelow w n
  | 0, i, h, _ => by omega
  | n + 1, i, h, hb => by
    rw [highestBelow]
    by_cases hn : w.testBit n = true
    · rw [if_pos hn]; omega
    · rw [if_neg hn]
      have : i ≠ n := fun he => hn (he ▸ hb)
      exact highestBelow_ge w n i (by omega) hb

theorem highestBelow_le (w : Nat) : ∀ n, highestBelow w n ≤ n
  | 0 => le_refl _
  | n + 1 => by
    rw [highestBelow]
    by_cases hn : w.testBit n = true
    · rw [if_pos hn]; omega
    · rw [if_neg hn]; exact Nat.le_succ_of_le (highestBelow_le w n)

theorem highestBelow_lt (w n : Nat) (h : 0 < n) : highestBelow w n < n := by
  cases n with
  | zero => omega
  | succ n =>
    rw [highestBelow]
    by_cases hn : w.testBit n = true
    · rw [if_pos hn]; omega
    · rw [if_neg hn]; exact Nat.lt_succ_of_le (highestBelow_le w n)

theorem bit_lt_of {w n i : Nat} (hw : w < 2 ^ n) (h : w.testBit i = true) : i < n := by
  by_cases hi : i < n
  · exact hi
  · rw [Nat.testBit_lt_two_pow (lt_of_lt_of_le hw (Nat.pow_le_pow_right (by decide) (by omega)))] at h
    cases h

theorem getULong_nat {x : Nat} (hx : x < 2 ^ 32) : getULong (x : Int) = some x := by
  rw [getULong, if_pos ⟨by omega, by omega⟩, Int.toNat_natCast]

theorem combineLimit_eq : combineLimit = 2 ^ 32 := by decide

theorem not_ge32 {x : Nat} (hx : x < 2 ^ 32) : ¬ x ≥ combineLimit := by
  rw [combineLimit_eq]; omega

theorem indexCombine_eq {x y : Nat} (hx : x < 2 ^ 32) (hy : y < 2 ^ 32) :
    indexCombine x y = some (combineLoop x y (combineMax x y) 16 0 0) := by
  rw [indexCombine, getULong_nat hx, getULong_nat hy, combineChecked, combineWords, if_neg (not_ge32 hx), if_neg (not_ge32 hy)]

theorem combine_bits {x y : Nat} (hx : x < 2 ^ 32) (hy : y < 2 ^ 32) :
    ∃ i, indexCombine x y = some i ∧ (∀ p, i.testBit p = ilBit x y p) ∧ i < 2 ^ 64 := by
  have hbits : ∀ p, (combineLoop x y (combineMax x y) 16 0 0).testBit p = ilBit x y p := by
    intro p
    have hbx := highestBelow_lt x 64 (by decide)
    have hby := highestBelow_lt y 64 (by decide)
    rw [show combineLoop x y (combineMax x y) 16 0 0 = combineLoop x y (combineMax x y) 16 (4 * 0) 0 by rw [Nat.mul_zero]]
    rw [combineLoop_ok x y _ p 16 0 0 (by
      unfold combineMax
      by_cases h : highestBelow x 64 > highestBelow y 64
      · rw [if_pos h]; omega
      · rw [if_neg h]; omega), Nat.zero_testBit, Bool.false_or, decide_eq_true (Nat.zero_le _),
      Bool.true_and]
    cases hb : ilBit x y p with
    | false => simp
    | true =>
      rw [Bool.and_true, decide_eq_true_iff]
      unfold ilBit at hb
      unfold combineMax
      by_cases hp : p % 8 < 4
      · rw [if_pos hp] at hb
        have := highestBelow_ge x 64 _ (by have := bit_lt_of hx hb; omega) hb
        by_cases h : highestBelow x 64 > highestBelow y 64
        · rw [if_pos h]; omega
        · rw [if_neg h]; omega
      · rw [if_neg hp] at hb
        have := highestBelow_ge y 64 _ (by have := bit_lt_of hy hb; omega) hb
        by_cases h : highestBelow x 64 > highestBelow y 64
        · rw [if_pos h]; omega
        · rw [if_neg h]; omega
  refine ⟨_, indexCombine_eq hx hy, hbits, ?_⟩
  · apply Nat.lt_pow_two_of_testBit
    intro p hp
    rw [hbits]
    unfold ilBit
    by_cases hm : p % 8 < 4
    · rw [if_pos hm]
      cases hb : x.testBit (p / 8 * 4 + p % 8) with
      | false => rfl
      | true => have := bit_lt_of hx hb; omega
    · rw [if_neg hm]
      cases hb : y.testBit (p / 8 * 4 + (p % 8 - 4)) with
      | false => rfl
      | true => have := bit_lt_of hy hb; omega

theorem splitLoop_ok (q : Nat) : ∀ (n i m x y : Nat), i < 2 ^ (8 * n) →
    ((splitLoop n i (4 * m) x y).1.testBit q =
      (x.testBit q || (decide (4 * m ≤ q) && i.testBit ((q - 4 * m) / 4 * 8 + (q - 4 * m) % 4)))) ∧
    ((splitLoop n i (4 * m) x y).2.testBit q =
      (y.testBit q || (decide (4 * m ≤ q) && i.testBit ((q - 4 * m) / 4 * 8 + 4 + (q - 4 * m) % 4))))
  | 0, i, m, x, y, h => by
    have : i = 0 := by simpa using h
    subst this
    rw [splitLoop]; simp
  | n + 1, i, m, x, y, h => by
    rw [splitLoop]
    by_cases hi : i ≠ 0
    · rw [if_pos hi, show 4 * m + 4 = 4 * (m + 1) by omega]
      have h8 : i >>> 4 >>> 4 = i >>> 8 := by rw [← Nat.shiftRight_add]
      have hlt : i >>> 4 >>> 4 < 2 ^ (8 * n) := by
        rw [h8, Nat.shiftRight_eq_div_pow]
        apply Nat.div_lt_of_lt_mul
        rw [← Nat.pow_add, show 8 + 8 * n = 8 * (n + 1) by omega]; exact h
      obtain ⟨ih1, ih2⟩ := splitLoop_ok q n (i >>> 4 >>> 4) (m + 1)
        (x ||| ((i &&& 15) <<< (4 * m))) (y ||| (((i >>> 4) &&& 15) <<< (4 * m))) hlt
      rw [ih1, ih2]
      simp only [h8, Nat.testBit_or, Nat.testBit_shiftLeft, Nat.testBit_and, testBit_15,
        Nat.testBit_shiftRight]
      rw [Bool.or_assoc, Bool.or_assoc]
      by_cases h1 : 4 * m ≤ q
      · by_cases h2 : q - 4 * m < 4
        · rw [decide_eq_true (show q ≥ 4 * m from h1), decide_eq_true h2,
            decide_eq_false (show ¬ 4 * (m + 1) ≤ q by omega),
            show (q - 4 * m) / 4 * 8 + (q - 4 * m) % 4 = q - 4 * m by omega,
            show (q - 4 * m) / 4 * 8 + 4 + (q - 4 * m) % 4 = 4 + (q - 4 * m) by omega]
          simp
        · rw [decide_eq_false h2, decide_eq_true h1, decide_eq_true (show 4 * (m + 1) ≤ q by omega),
            show 8 + ((q - 4 * (m + 1)) / 4 * 8 + (q - 4 * (m + 1)) % 4) =
              (q - 4 * m) / 4 * 8 + (q - 4 * m) % 4 by omega,
            show 8 + ((q - 4 * (m + 1)) / 4 * 8 + 4 + (q - 4 * (m + 1)) % 4) =
              (q - 4 * m) / 4 * 8 + 4 + (q - 4 * m) % 4 by omega]
          simp
      · rw [decide_eq_false h1,
          decide_eq_false (show ¬ 4 * (m + 1) ≤ q by omega)]
        simp
    · rw [if_neg hi]
      have : i = 0 := by omega
      subst this
      simp

theorem split_combine {x y : Nat} (hx : x < 2 ^ 32) (hy : y < 2 ^ 32) :
    ∃ i, indexCombine x y = some i ∧ i < 2 ^ 64 ∧ indexSplit i = (x, y) := by
  obtain ⟨i, h1, h2, h3⟩ := combine_bits hx hy
  refine ⟨i, h1, h3, ?_⟩
  have hs := fun q => splitLoop_ok q 16 i 0 0 0 (lt_trans h3 (by decide))
  have hsp : indexSplit i = splitLoop 16 i (4 * 0) 0 0 := by rw [indexSplit, Nat.mul_zero]
  rw [hsp]
  generalize splitLoop 16 i (4 * 0) 0 0 = r at hs
  apply Prod.ext
  · apply Nat.eq_of_testBit_eq
    intro q
    have := (hs q).1
    rw [Nat.zero_testBit, Bool.false_or, decide_eq_true (show 4 * 0 ≤ q by omega), Bool.true_and, h2] at this
    show r.1.testBit q = _
    rw [this, ilBit, if_pos (by omega)]
    rw [show ((q - 4 * 0) / 4 * 8 + (q - 4 * 0) % 4) / 8 * 4 + ((q - 4 * 0) / 4 * 8 + (q - 4 * 0) % 4) % 8 = q by omega]
  · apply Nat.eq_of_testBit_eq
    intro q
    have := (hs q).2
    rw [Nat.zero_testBit, Bool.false_or, decide_eq_true (show 4 * 0 ≤ q by omega), Bool.true_and, h2] at this
    show r.2.testBit q = _
    rw [this, ilBit, if_neg (by omega)]
    rw [show ((q - 4 * 0) / 4 * 8 + 4 + (q - 4 * 0) % 4) / 8 * 4 +
      (((q - 4 * 0) / 4 * 8 + 4 + (q - 4 * 0) % 4) % 8 - 4) = q by omega]

theorem combine_none {x y : Int} (h : ¬ (0 ≤ x ∧ x < 2 ^ 32 ∧ 0 ≤ y ∧ y < 2 ^ 32)) :
    indexCombine x y = none := by
  unfold indexCombine getULong
  by_cases hx : 0 ≤ x ∧ x < 2 ^ 64
  · by_cases hy : 0 ≤ y ∧ y < 2 ^ 64
    · rw [if_pos hx, if_pos hy]
      show combineWords x.toNat y.toNat = none
      rw [combineWords, combineLimit_eq]
      by_cases h1 : x.toNat ≥ 2 ^ 32
      · rw [if_pos h1]
      · rw [if_neg h1]
        by_cases h2 : y.toNat ≥ 2 ^ 32
        · rw [if_pos h2]
        · exact absurd ⟨hx.1, by omega, hy.1, by omega⟩ h
    · rw [if_pos hx, if_neg hy]; rfl
  · rw [if_neg hx]; rfl

/-! ## Histories of a matrix -/

/-- The index of a pair. -/
def enc (p : Nat × Nat) : Nat := combineLoop p.1 p.2 (combineMax p.1 p.2) 16 0 0

theorem enc_eq {p : Nat × Nat} (h : Words2 p) : indexCombine p.1 p.2 = some (enc p) :=
  indexCombine_eq h.1 h.2

theorem split_enc {p : Nat × Nat} (h : Words2 p) : enc p < 2 ^ 64 ∧ indexSplit (enc p) = p := by
  obtain ⟨i, h1, h2, h3⟩ := split_combine h.1 h.2
  rw [enc_eq h] at h1
  cases h1
  exact ⟨h2, h3⟩

theorem enc_inj {p q : Nat × Nat} (hp : Words2 p) (hq : Words2 q) (h : enc p = enc q) : p = q := by
  rw [← (split_enc hp).2, h, (split_enc hq).2]

attribute [irreducible] enc

/-- The operation on the combined indices. -/
def encOp {V : Type} : Op (Nat × Nat) V → Op Nat V
  | .set p v => .set (enc p) v
  | .delete p => .delete (enc p)
  | .clear => .clear
  | .copy => .copy
  | .inc p delta fb => .inc (enc p) delta fb

theorem encOp_valid {V : Type} {op : Op (Nat × Nat) V} (h : op.valid Words2) : (encOp op).valid Word := by
  cases op with
  | set p v => exact (split_enc (show Words2 p from h)).1
  | delete p => exact (split_enc (show Words2 p from h)).1
  | clear => trivial
  | copy => trivial
  | inc p delta fb => exact (split_enc (show Words2 p from h)).1

theorem encOp_noInc {V : Type} {op : Op (Nat × Nat) V} (h : op.noInc) : (encOp op).noInc := by
  cases op <;> trivial

variable {β V : Type} {d : Desc β V} {good : Leaf β → Prop}
    {slot : Leaf β → Nat → Option V} {norm : V → Option V}

theorem matStep_eq (ar : Arith V) (sv : SV β V) {op : Op (Nat × Nat) V} (h : op.valid Words2) :
    matStep d ar sv op = svStep d ar sv (encOp op) := by
  cases op with
  | set p v => rw [matStep, enc_eq (show Words2 p from h), orError, encOp]
  | delete p => rw [matStep, enc_eq (show Words2 p from h), orError, encOp]
  | clear => rfl
  | copy => rfl
  | inc p delta fb => rw [matStep, enc_eq (show Words2 p from h), orError, encOp]

theorem matRun_eq (ar : Arith V) : ∀ (ops : List (Op (Nat × Nat) V)) (sv : SV β V),
    (∀ op ∈ ops, op.valid Words2) → matRun d ar sv ops = svRun d ar sv (ops.map encOp)
  | [], _, _ => rfl
  | op :: ops, sv, h => by
    rw [matRun, matStep_eq ar sv (h op (List.mem_cons_self ..)), List.map_cons, svRun]
    cases svStep d ar sv (encOp op) with
    | none => rfl
    | some r =>
      obtain ⟨sv1, rp⟩ := r
      simp only [matRun_eq ar ops sv1 (fun o ho => h o (List.mem_cons_of_mem _ ho))]

/-- The vector holds the matrix. -/
structure MatRel (M : Nat → Option V) (P : Nat × Nat → Option V) : Prop where
  val : ∀ p, Words2 p → M (enc p) = P p
  dom : ∀ i v, M i = some v → ∃ p, Words2 p ∧ enc p = i
  out : ∀ p, ¬ Words2 p → P p = none

theorem MatRel.put {M : Nat → Option V} {P : Nat × Nat → Option V} (h : MatRel M P) {p : Nat × Nat}
    (hp : Words2 p) (x : Option V) : MatRel (put M (enc p) x) (put P p x) where
  val := fun q hq => by
    unfold SparseMap.put
    by_cases hqp : q = p
    · rw [if_pos hqp, if_pos (by rw [hqp])]
    · rw [if_neg hqp, if_neg (fun he => hqp (enc_inj hq hp he)), h.val q hq]
  dom := fun i v hi => by
    unfold SparseMap.put at hi
    by_cases hip : i = enc p
    · exact ⟨p, hp, hip.symm⟩
    · rw [if_neg hip] at hi; exact h.dom i v hi
  out := fun q hq => by
    unfold SparseMap.put
    have : q ≠ p := fun he => hq (he ▸ hp)
    rw [if_neg this]; exact h.out q hq

theorem matStep_rel (base : Option V → V) (add : V → V → V) {M : Nat → Option V}
    {P : Nat × Nat → Option V} (h : MatRel M P) {op : Op (Nat × Nat) V} (hv : op.valid Words2) :
    (stepMap norm base add M (encOp op)).2 = (stepMap norm base add P op).2 ∧
    MatRel (stepMap norm base add M (encOp op)).1 (stepMap norm base add P op).1 := by
  cases op with
  | set p v =>
    show (stepMap norm base add M (.set (enc p) v)).2 = _ ∧
      MatRel (stepMap norm base add M (.set (enc p) v)).1 _
    rw [stepMap, stepMap]
    cases norm v with
    | none => exact ⟨rfl, h⟩
    | some w => exact ⟨rfl, h.put hv _⟩
  | delete p =>
    refine ⟨?_, h.put hv _⟩
    show Reply.bool (M (enc p)).isSome = Reply.bool (P p).isSome
    rw [h.val p hv]
  | clear => exact ⟨rfl, ⟨fun _ _ => rfl, fun _ _ hi => (by cases hi), fun _ _ => rfl⟩⟩
  | copy => exact ⟨rfl, h⟩
  | inc p delta fb =>
    show (stepMap norm base add M (.inc (enc p) delta fb)).2 = _ ∧
      MatRel (stepMap norm base add M (.inc (enc p) delta fb)).1 _
    rw [stepMap, stepMap, h.val p hv]
    cases norm (add ((P p).getD (base fb)) delta) with
    | none => exact ⟨rfl, h⟩
    | some w => exact ⟨rfl, h.put hv _⟩

theorem matRun_rel (base : Option V → V) (add : V → V → V) : ∀ (ops : List (Op (Nat × Nat) V))
    {M : Nat → Option V} {P : Nat × Nat → Option V}, MatRel M P → (∀ op ∈ ops, op.valid Words2) →
    (runMap norm base add M (ops.map encOp)).2 = (runMap norm base add P ops).2 ∧
    MatRel (runMap norm base add M (ops.map encOp)).1 (runMap norm base add P ops).1
  | [], M, P, h, _ => ⟨rfl, h⟩
  | op :: ops, M, P, h, hv => by
    have h1 := matStep_rel (norm := norm) base add h (hv op (List.mem_cons_self ..))
    have h2 := matRun_rel base add ops h1.2 (fun o ho => hv o (List.mem_cons_of_mem _ ho))
    rw [List.map_cons, runMap, runMap]
    refine ⟨?_, h2.2⟩
    show _ :: _ = _ :: _
    rw [h1.1, h2.1]

theorem MatRel.lists {M : Nat → Option V} {P : Nat × Nat → Option V} (h : MatRel M P)
    {E : List (Nat × V)} (hE : Lists E M) :
    Lists (E.map (fun kv => (indexSplit kv.1, kv.2))) P where
  nodup := by
    rw [List.map_map]
    have he : (Prod.fst ∘ fun kv : Nat × V => (indexSplit kv.1, kv.2)) = fun kv => indexSplit kv.1 := rfl
    rw [he, show (fun kv : Nat × V => indexSplit kv.1) = indexSplit ∘ Prod.fst from rfl,
      ← List.map_map]
    apply List.Nodup.map_on _ hE.nodup
    intro a ha b hb hab
    rw [List.mem_map] at ha hb
    obtain ⟨⟨a', v⟩, hm, rfl⟩ := ha
    obtain ⟨⟨b', w⟩, hn, rfl⟩ := hb
    obtain ⟨p, hp, he1⟩ := h.dom _ _ ((hE.mem _ _).mp hm)
    obtain ⟨q, hq, he2⟩ := h.dom _ _ ((hE.mem _ _).mp hn)
    show a' = b'
    have hab : indexSplit a' = indexSplit b' := hab
    rw [← he1, ← he2, (split_enc hp).2, (split_enc hq).2] at hab
    rw [← he1, ← he2, hab]
  mem := fun p v => by
    rw [List.mem_map]
    constructor
    · rintro ⟨⟨i, w⟩, hm, he⟩
      have h1 := (hE.mem i w).mp hm
      obtain ⟨q, hq, hqe⟩ := h.dom i w h1
      cases he
      rw [← hqe, (split_enc hq).2, ← h.val q hq, hqe]
      exact h1
    · intro hp
      have hw : Words2 p := by
        by_cases hw : Words2 p
        · exact hw
        · rw [h.out p hw] at hp; cases hp
      refine ⟨(enc p, v), (hE.mem _ _).mpr (by rw [h.val p hw]; exact hp), ?_⟩
      show (indexSplit (enc p), v) = (p, v)
      rw [(split_enc hw).2]

theorem matCollect_eq (sv : SV β V) (rounds : Nat) : ∀ (fuel : Nat) (it : SVIter β)
    (seed : List (Nat × V)) (E : List (Nat × V)),
    svCollect d sv rounds fuel it seed = some E →
    matCollect d sv rounds fuel it (seed.map (fun kv => (indexSplit kv.1, kv.2))) =
      some (E.map (fun kv => (indexSplit kv.1, kv.2)))
  | 0, _, _, _, h => by cases h
  | fuel + 1, it, seed, E, h => by
    rw [svCollect] at h
    rw [matCollect]
    cases hn : svIterNext d sv rounds it with
    | none => rw [hn] at h; cases h
    | some r =>
      obtain ⟨it', o⟩ := r
      rw [hn] at h
      cases o with
      | none => cases h; rfl
      | some kv => exact matCollect_eq sv rounds fuel it' (kv :: seed) E h

theorem mat_history (ok : DescOK d good slot norm) (hsh : d.shift ≤ 64) (ar : Arith V)
    (dflt : Option V) (ops : List (Op (Nat × Nat) V)) (hv : ∀ op ∈ ops, op.valid Words2) :
    ∃ sv, matRun d ar (svMake β dflt) ops =
        some (sv, (runMap norm (incBase ar dflt) ar.add (fun _ => none) ops).2) ∧
      sv.dflt = dflt ∧
      (∀ (x y : Int) fb, refAt d sv (indexCombine x y) fb =
        (if 0 ≤ x ∧ x < 2 ^ 32 ∧ 0 ≤ y ∧ y < 2 ^ 32 then
          some (((runMap norm (incBase ar dflt) ar.add (fun _ => none) ops).1
            (x.toNat, y.toNat)).orElse (fun _ => fb)) else some none)) ∧
      (∃ E N, Lists E (runMap norm (incBase ar dflt) ar.add (fun _ => none) ops).1 ∧
        (∀ rounds fuel, N ≤ rounds → N ≤ fuel →
          matCollect d sv rounds fuel (svIterInit β) [] = some E.reverse) ∧
        ((∀ op ∈ ops, op.noInc) → sv.numEntries = E.length % 2 ^ 64)) := by
  have hv' : ∀ op ∈ ops.map encOp, op.valid Word := by
    intro o ho
    obtain ⟨op, hop, rfl⟩ := List.mem_map.mp ho
    exact encOp_valid (hv op hop)
  obtain ⟨sv, h1, h2, h3, ⟨E, N, h4, h5, h6⟩, _⟩ := sv_history ok hsh ar dflt (ops.map encOp) hv'
  obtain ⟨hr1, hr2⟩ := matRun_rel (norm := norm) (incBase ar dflt) ar.add ops
    (M := fun _ => none) (P := fun _ => none) ⟨fun _ _ => rfl, fun _ _ h => (by cases h), fun _ _ => rfl⟩ hv
  refine ⟨sv, by rw [matRun_eq ar ops _ hv, h1, hr1], h2, ?_, E.map (fun kv => (indexSplit kv.1, kv.2)), N,
    hr2.lists h4, ?_, ?_⟩
  · intro x y fb
    by_cases hxy : 0 ≤ x ∧ x < 2 ^ 32 ∧ 0 ≤ y ∧ y < 2 ^ 32
    · rw [if_pos hxy]
      have hw : Words2 (x.toNat, y.toNat) := ⟨by show x.toNat < _; omega, by show y.toNat < _; omega⟩
      have he := enc_eq hw
      rw [show ((x.toNat, y.toNat).1 : Int) = x from Int.toNat_of_nonneg hxy.1,
        show ((x.toNat, y.toNat).2 : Int) = y from Int.toNat_of_nonneg hxy.2.2.1] at he
      rw [he, refAt, h3, hr2.val _ hw]
    · rw [if_neg hxy, combine_none hxy, refAt]
  · intro rounds fuel hr hf
    have := matCollect_eq (d := d) sv rounds fuel (svIterInit β) [] E.reverse (h5 rounds fuel hr hf)
    rw [← List.map_reverse]
    exact this
  · intro hn
    rw [List.length_map]
    refine h6 (fun o ho => ?_)
    obtain ⟨op, hop, rfl⟩ := List.mem_map.mp ho
    exact encOp_noInc (hn op hop)

end Gauche.SpVec

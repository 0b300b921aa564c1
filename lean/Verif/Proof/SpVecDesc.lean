import Verif.Proof.SpVec

/-! # Sparse vectors: the descriptors do what the generic code relies on -/

namespace Gauche.SpVec

open Gauche.CTrie Gauche.SparseMap

/-! ## General vectors -/

theorem mod2_cases (i : Nat) : (i &&& 1 = 0 ∧ i % 2 ^ 1 = 0) ∨ (¬ i &&& 1 = 0 ∧ i % 2 ^ 1 = 1) := by
  rw [Nat.and_one_is_mod]; omega

theorem gVal_mod {V : Type} (b : GBody V) (i : Nat) : gVal b (i % 2 ^ 1) = gVal b i := by
  unfold gVal
  rcases mod2_cases i with ⟨h1, h2⟩ | ⟨h1, h2⟩
  · rw [if_pos h1, h2, if_pos (by decide)]
  · rw [if_neg h1, h2, if_neg (by decide)]

theorem gVal_put {V : Type} (b : GBody V) (i : Nat) (x : Option V) (j : Nat) (hj : j < 2 ^ 1) :
    gVal (gPut b i x) j = if j = i % 2 ^ 1 then x else gVal b j := by
  have hj : j = 0 ∨ j = 1 := by omega
  unfold gVal gPut
  rcases mod2_cases i with ⟨h1, h2⟩ | ⟨h1, h2⟩ <;> rcases hj with rfl | rfl
  · rw [if_pos (by decide), if_pos h1, h2, if_pos rfl]
  · rw [if_neg (by decide), if_pos h1, h2, if_neg (by decide), if_neg (by decide)]
  · rw [if_pos (by decide), if_neg h1, h2, if_neg (by decide), if_pos (by decide)]
  · rw [if_neg (by decide), if_neg h1, h2, if_pos rfl]

/-- The element at a position of a leaf of a general vector. -/
def gSlot {V : Type} (l : Leaf (GBody V)) (j : Nat) : Option V := gVal l.body j

theorem gDesc_ok (V : Type) (g0 g1 : Nat) :
    DescOK (gDesc V g0 g1) (fun _ => True) gSlot some where
  fresh_good := fun _ => trivial
  fresh_slot := fun k j => by
    show gVal (⟨none, none⟩ : GBody V) j = none
    unfold gVal
    by_cases h : j &&& 1 = 0
    · rw [if_pos h]
    · rw [if_neg h]
  ref := fun l i _ => by
    show some (gVal l.body i) = some (gVal l.body (i % 2 ^ 1))
    rw [gVal_mod]
  set_err := fun _ _ _ _ h => by cases h
  set_ok := fun l i v w _ h => by
    cases h
    refine ⟨{ l with body := gPut l.body i (some v) }, ?_, trivial, rfl, fun j hj => gVal_put l.body i _ j hj⟩
    show some (some (_, (gVal l.body i).isNone)) = some (some (_, (gVal l.body (i % 2 ^ 1)).isNone))
    rw [gVal_mod]
  del := fun l i _ => by
    refine ⟨{ l with body := gPut l.body i none }, ?_, trivial, rfl, fun j hj => gVal_put l.body i _ j hj⟩
    show some (_, gVal l.body i) = some (_, gVal l.body (i % 2 ^ 1))
    rw [gVal_mod]
  copy := fun l => ⟨rfl, fun h => h, fun j => rfl⟩
  iter := fun l j _ hj => by
    have hj : j ≤ 2 := hj
    have h0 : gSlot l 0 = l.body.val0 := rfl
    have h1 : gSlot l 1 = l.body.val1 := rfl
    have key : ∀ x, x < 2 → x = 0 ∨ x = 1 := fun x h => by omega
    show ∃ i r, gIter l j = some (i, r) ∧ (∀ v, r = some v → j ≤ i ∧ i < 2 ∧ gSlot l i = some v ∧
      ∀ x, j ≤ x → x < i → gSlot l x = none) ∧ (r = none → ∀ x, j ≤ x → x < 2 → gSlot l x = none)
    have hjc : j = 0 ∨ j = 1 ∨ j = 2 := by omega
    cases e0 : l.body.val0 with
    | none =>
      cases e1 : l.body.val1 with
      | none =>
        have hall : ∀ x, x < 2 → gSlot l x = none := by
          intro x hx; rcases key x hx with rfl | rfl
          · rw [h0, e0]
          · rw [h1, e1]
        rcases hjc with rfl | rfl | rfl
        · exact ⟨2, none, by simp [gIter, e0, e1], by simp, fun _ x _ hx => hall x hx⟩
        · exact ⟨2, none, by simp [gIter, e0, e1], by simp, fun _ x _ hx => hall x hx⟩
        · exact ⟨2, none, by simp [gIter], by simp, fun _ x _ hx => hall x hx⟩
      | some v1 =>
        rcases hjc with rfl | rfl | rfl
        · refine ⟨1, some v1, by simp [gIter, e0, e1], ?_, by simp⟩
          intro v hv; cases hv
          exact ⟨by omega, by omega, by rw [h1, e1], fun x _ hx => by
            have : x = 0 := by omega
            subst this; rw [h0, e0]⟩
        · refine ⟨1, some v1, by simp [gIter, e0, e1], ?_, by simp⟩
          intro v hv; cases hv
          exact ⟨by omega, by omega, by rw [h1, e1], fun x _ hx => by omega⟩
        · exact ⟨2, none, by simp [gIter], by simp, fun _ x hx hx2 => by omega⟩
    | some v0 =>
      rcases hjc with rfl | rfl | rfl
      · refine ⟨0, some v0, by simp [gIter, e0], ?_, by simp⟩
        intro v hv; cases hv
        exact ⟨by omega, by omega, by rw [h0, e0], fun x _ hx => by omega⟩
      · cases e1 : l.body.val1 with
        | none =>
          refine ⟨2, none, by simp [gIter, e1], by simp, fun _ x hx hx2 => ?_⟩
          have : x = 1 := by omega
          subst this; rw [h1, e1]
        | some v1 =>
          refine ⟨1, some v1, by simp [gIter, e1], ?_, by simp⟩
          intro v hv; cases hv
          exact ⟨by omega, by omega, by rw [h1, e1], fun x _ hx => by omega⟩
      · exact ⟨2, none, by simp [gIter], by simp, fun _ x hx hx2 => by omega⟩

/-! ## Uniform vectors -/

theorem and_uMask (shift i : Nat) : i &&& uMask shift = i % 2 ^ shift := by
  rw [uMask, Nat.one_shiftLeft, Nat.and_two_pow_sub_one_eq_mod]

theorem dataBit_eq {β : Type} (l : Leaf β) (b : Nat) :
    leafDataBitTest l b = l.key0.testBit (b + 32) := by
  unfold leafDataBitTest
  rw [Nat.one_shiftLeft, Nat.and_two_pow]
  cases l.key0.testBit (b + 32) with
  | true => simp
  | false => simp

theorem dataBit_set {β : Type} (l : Leaf β) (a b : Nat) :
    leafDataBitTest (leafDataBitSet l a) b = (leafDataBitTest l b || decide (a = b)) := by
  rw [dataBit_eq, dataBit_eq]
  show (bitSet l.key0 (a + 32)).testBit (b + 32) = _
  rw [testBit_bitSet]
  congr 1
  simp

theorem dataBit_reset {β : Type} (l : Leaf β) (a b : Nat) :
    leafDataBitTest (leafDataBitReset l a) b = (leafDataBitTest l b && !decide (a = b)) := by
  rw [dataBit_eq, dataBit_eq]
  show (bitReset l.key0 (a + 32)).testBit (b + 32) = _
  rw [testBit_bitReset]
  congr 1
  simp

theorem dataBit_body {β : Type} (l : Leaf β) (x : β) (b : Nat) :
    leafDataBitTest { l with body := x } b = leafDataBitTest l b := rfl

theorem dataBit_new {β : Type} (k : Nat) (l : Leaf β) (b : Nat) :
    leafDataBitTest (newLeaf k l) b = false := by
  rw [dataBit_eq]
  show (k &&& LEAF_KEY_MASK).testBit (b + 32) = false
  rw [and_mask]
  exact Nat.testBit_lt_two_pow (lt_of_lt_of_le (Nat.mod_lt _ (by decide))
    (Nat.pow_le_pow_right (by decide) (by omega)))

theorem mod_of_testBit {a b : Nat} (h : ∀ j, j < 32 → a.testBit j = b.testBit j) :
    a % 2 ^ 32 = b % 2 ^ 32 := by
  apply Nat.eq_of_testBit_eq
  intro j
  rw [Nat.testBit_mod_two_pow, Nat.testBit_mod_two_pow]
  by_cases hj : j < 32
  · rw [h j hj]
  · simp [hj]

theorem key_bitSet {β : Type} (l : Leaf β) (a : Nat) : leafKey (leafDataBitSet l a) = leafKey l := by
  rw [leafKey_eq, leafKey_eq]
  show l.key1 % 2 ^ 32 * 2 ^ 32 + bitSet l.key0 (a + 32) % 2 ^ 32 = _
  rw [mod_of_testBit (a := bitSet l.key0 (a + 32)) (b := l.key0)]
  intro j hj
  rw [testBit_bitSet, decide_eq_false (by omega), Bool.or_false]

theorem key_bitReset {β : Type} (l : Leaf β) (a : Nat) :
    leafKey (leafDataBitReset l a) = leafKey l := by
  rw [leafKey_eq, leafKey_eq]
  show l.key1 % 2 ^ 32 * 2 ^ 32 + bitReset l.key0 (a + 32) % 2 ^ 32 = _
  rw [mod_of_testBit (a := bitReset l.key0 (a + 32)) (b := l.key0)]
  intro j hj
  rw [testBit_bitReset, decide_eq_false (by omega)]
  simp

variable {E V : Type}

/-- The element at a position of a leaf of a uniform vector. -/
def uSlot (box : E → V) (l : Leaf (List E)) (j : Nat) : Option V :=
  if leafDataBitTest l j then l.body[j]?.map box else none

/-- The leaf of a uniform vector has its whole array. -/
def uGood (shift : Nat) (l : Leaf (List E)) : Prop := l.body.length = 2 ^ shift

theorem uRef_eq {shift : Nat} (box : E → V) {l : Leaf (List E)} (hg : uGood shift l) (i : Nat) :
    uRef shift box l i = some (uSlot box l (i % 2 ^ shift)) := by
  unfold uRef uSlot
  rw [and_uMask]
  have hlt : i % 2 ^ shift < l.body.length := by rw [hg]; exact mod_lt_shift _ _
  by_cases h : leafDataBitTest l (i % 2 ^ shift) = true
  · rw [if_pos h, if_pos h, List.getElem?_eq_getElem hlt]; rfl
  · rw [if_neg h, if_neg h]

theorem uSlot_isNone {shift : Nat} (box : E → V) {l : Leaf (List E)} (hg : uGood shift l) (i : Nat) :
    (uSlot box l (i % 2 ^ shift)).isNone = !leafDataBitTest l (i % 2 ^ shift) := by
  unfold uSlot
  have hlt : i % 2 ^ shift < l.body.length := by rw [hg]; exact mod_lt_shift _ _
  by_cases h : leafDataBitTest l (i % 2 ^ shift) = true
  · rw [if_pos h, h, List.getElem?_eq_getElem hlt]; rfl
  · rw [if_neg h, Bool.not_eq_true _ |>.mp h]; rfl

theorem uIterLoop_ok {shift : Nat} (box : E → V) {l : Leaf (List E)} (hg : uGood shift l) :
    ∀ (n i : Nat), i + n = 2 ^ shift → ∃ k r, uIterLoop shift box l i n = some (k, r) ∧
      (∀ v, r = some v → i ≤ k ∧ k < 2 ^ shift ∧ uSlot box l k = some v ∧
        ∀ x, i ≤ x → x < k → uSlot box l x = none) ∧
      (r = none → ∀ x, i ≤ x → x < 2 ^ shift → uSlot box l x = none)
  | 0, i, h => ⟨i, none, rfl, by simp, fun _ x h1 h2 => by omega⟩
  | n + 1, i, h => by
    have hm : i % 2 ^ shift = i := Nat.mod_eq_of_lt (by omega)
    have hlt : i < l.body.length := by rw [hg]; omega
    rw [uIterLoop, and_uMask, hm]
    by_cases hb : leafDataBitTest l i = true
    · rw [if_pos hb, uRef_eq box hg, hm]
      have hs : uSlot box l i = some (box l.body[i]) := by
        unfold uSlot; rw [if_pos hb, List.getElem?_eq_getElem hlt]; rfl
      refine ⟨i, some (box l.body[i]), by rw [hs], ?_, by simp⟩
      intro v hv; cases hv
      exact ⟨le_refl _, by omega, hs, fun x _ hx => by omega⟩
    · rw [if_neg hb]
      have hs : uSlot box l i = none := by unfold uSlot; rw [if_neg hb]
      obtain ⟨k, r, h1, h2, h3⟩ := uIterLoop_ok box hg n (i + 1) (by omega)
      refine ⟨k, r, h1, ?_, ?_⟩
      · intro v hv
        obtain ⟨a, b, c, e⟩ := h2 v hv
        refine ⟨by omega, b, c, fun x hx hxk => ?_⟩
        by_cases hxi : x = i
        · rw [hxi]; exact hs
        · exact e x (by omega) hxk
      · intro hr x hx hx2
        by_cases hxi : x = i
        · rw [hxi]; exact hs
        · exact h3 hr x (by omega) hx2

theorem uDesc_ok (shift : Nat) (zero : E) (conv : V → Option E) (box : E → V) (g0 g1 : Nat) :
    DescOK (uDesc shift zero conv box g0 g1) (uGood shift) (uSlot box)
      (fun v => (conv v).map box) where
  fresh_good := fun k => by
    show (List.replicate (1 <<< shift) zero).length = 2 ^ shift
    rw [List.length_replicate, Nat.one_shiftLeft]
  fresh_slot := fun k j => by unfold uSlot; rw [dataBit_new]; rfl
  ref := fun l i hg => uRef_eq box hg i
  set_err := fun l i v _ h => by
    have hc : conv v = none := by cases hc : conv v with
      | none => rfl
      | some x => rw [hc] at h; cases h
    show uSet shift conv l i v = _
    rw [uSet, hc]
  set_ok := fun l i v w hg h => by
    cases hc : conv v with
    | none => rw [hc] at h; cases h
    | some x =>
      rw [hc] at h; cases h
      have hlt : i % 2 ^ shift < l.body.length := by rw [hg]; exact mod_lt_shift _ _
      refine ⟨leafDataBitSet { l with body := l.body.set (i % 2 ^ shift) x } (i % 2 ^ shift), ?_, ?_, ?_, ?_⟩
      · show uSet shift conv l i v = some (some (_, (uSlot box l (i % 2 ^ shift)).isNone))
        rw [uSet, hc, and_uMask]
        simp only [putAt_ok l.body hlt, dataBit_body]
        rw [uSlot_isNone box hg]
      · show (l.body.set _ _).length = _
        rw [List.length_set]; exact hg
      · rw [key_bitSet]; rfl
      · intro j hj
        have hj : j < 2 ^ shift := hj
        show uSlot box _ j = if j = i % 2 ^ shift then _ else _
        unfold uSlot
        rw [dataBit_set, dataBit_body]
        show (if _ then ((l.body.set (i % 2 ^ shift) x)[j]?).map box else none) = _
        by_cases hji : j = i % 2 ^ shift
        · rw [if_pos hji, ← hji, decide_eq_true rfl, Bool.or_true, if_pos rfl,
            List.getElem?_set_self (by rw [hg]; exact hj)]; rfl
        · rw [if_neg hji, decide_eq_false (fun h => hji h.symm), Bool.or_false,
            List.getElem?_set_ne (fun h => hji h.symm)]
  del := fun l i hg => by
    have hu := uRef_eq box hg i
    show ∃ l', uDelete shift box l i = some (l', uSlot box l (i % 2 ^ shift)) ∧ uGood shift l' ∧
      leafKey l' = leafKey l ∧ ∀ j, j < 2 ^ shift →
        uSlot box l' j = if j = i % 2 ^ shift then none else uSlot box l j
    cases hs : uSlot box l (i % 2 ^ shift) with
    | none =>
      refine ⟨l, by rw [uDelete, hu, hs], hg, rfl, fun j _ => ?_⟩
      by_cases hji : j = i % 2 ^ shift
      · rw [if_pos hji, hji, hs]
      · rw [if_neg hji]
    | some v =>
      refine ⟨leafDataBitReset l (i % 2 ^ shift), by rw [uDelete, hu, hs, and_uMask], hg,
        key_bitReset l _, fun j _ => ?_⟩
      unfold uSlot
      rw [dataBit_reset]
      by_cases hji : j = i % 2 ^ shift
      · rw [if_pos hji, ← hji, decide_eq_true rfl]; simp
      · rw [if_neg hji, decide_eq_false (fun h => hji h.symm)]
        simp only [Bool.not_false, Bool.and_true]; rfl
  copy := fun l => ⟨rfl, fun h => h, fun j => rfl⟩
  iter := fun l j hg hj => by
    have hj : j ≤ 2 ^ shift := hj
    have hm : uMask shift + 1 - j = 2 ^ shift - j := by
      have : 0 < 2 ^ shift := Nat.pow_pos (by decide)
      rw [uMask, Nat.one_shiftLeft]; omega
    show ∃ i r, uIterLoop shift box l j (uMask shift + 1 - j) = some (i, r) ∧ _
    rw [hm]
    exact uIterLoop_ok box hg (2 ^ shift - j) j (by omega)

end Gauche.SpVec

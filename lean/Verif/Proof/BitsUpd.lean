import Verif.Proof.BitsScan
/-! Writing ranges of bits: set, reset, copy, fill, operate; comparing ranges. -/
namespace Gauche.Bits
open Spec

theorem word_of_bit {a : Arr} {i : Nat} {x : Word} (h : a[i / 64]? = some x) : x.getLsbD (i % 64) = bitAt a i := by
  have := bitAt_word h (i % 64) (by omega)
  rw [show 64 * (i / 64) + i % 64 = i by omega] at this
  exact this.symm

theorem wr_spec (a : Arr) (w : Nat) (v : Word) (h : w < a.length) :
    ∃ a', wr a w v = some a' ∧ a'.length = a.length ∧
      (∀ j, bitAt a' j = if j / 64 = w then v.getLsbD (j % 64) else bitAt a j) := by
  refine ⟨a.set w v, by unfold wr; rw [if_pos h], by simp, fun j => ?_⟩
  unfold bitAt
  rw [List.getD_eq_getElem?_getD, List.getD_eq_getElem?_getD, List.getElem?_set]
  by_cases e : j / 64 = w
  · rw [if_pos e.symm, if_pos e, if_pos h]; rfl
  · rw [if_neg (Ne.symm e), if_neg e]

theorem rd_some (a : Arr) (w : Nat) (h : w < a.length) : ∃ x, a[w]? = some x :=
  ⟨a[w], List.getElem?_eq_getElem h⟩

theorem testBit_spec (a : Arr) (i : Nat) (h : i < 64 * a.length) : testBit a i = some (bitAt a i) := by
  obtain ⟨x, hx⟩ := rd_some a (i / 64) (by omega)
  unfold testBit
  rw [hx, Option.map_some, test_word _ _ (by omega), word_of_bit hx]

theorem setBit_spec (a : Arr) (i : Nat) (h : i < 64 * a.length) :
    ∃ a', setBit a i = some a' ∧ a'.length = a.length ∧ ∀ j, bitAt a' j = if j = i then true else bitAt a j := by
  obtain ⟨x, hx⟩ := rd_some a (i / 64) (by omega)
  obtain ⟨a', e, hl, hb⟩ := wr_spec a (i / 64) (x ||| (1#64 <<< (i % 64))) (by omega)
  refine ⟨a', by unfold setBit; rw [hx]; exact e, hl, fun j => ?_⟩
  rw [hb j]
  by_cases e : j / 64 = i / 64
  · rw [if_pos e, BitVec.getLsbD_or, one_shl_get _ _ (by omega), word_of_bit (by rw [e]; exact hx)]
    by_cases e2 : j = i
    · rw [if_pos e2, e2]; simp
    · have : ¬ j % 64 = i % 64 := by omega
      rw [if_neg e2]; simp [this]
  · rw [if_neg e, if_neg (by rintro rfl; exact e rfl)]

theorem resetBit_spec (a : Arr) (i : Nat) (h : i < 64 * a.length) :
    ∃ a', resetBit a i = some a' ∧ a'.length = a.length ∧ ∀ j, bitAt a' j = if j = i then false else bitAt a j := by
  obtain ⟨x, hx⟩ := rd_some a (i / 64) (by omega)
  obtain ⟨a', e, hl, hb⟩ := wr_spec a (i / 64) (x &&& ~~~ (1#64 <<< (i % 64))) (by omega)
  refine ⟨a', by unfold resetBit; rw [hx]; exact e, hl, fun j => ?_⟩
  rw [hb j]
  have h64 : j % 64 < 64 := by omega
  by_cases e : j / 64 = i / 64
  · rw [if_pos e, BitVec.getLsbD_and, BitVec.getLsbD_not, one_shl_get _ _ h64, word_of_bit (by rw [e]; exact hx)]
    by_cases e2 : j = i
    · rw [if_pos e2, e2]; simp
    · have : ¬ j % 64 = i % 64 := by omega
      rw [if_neg e2]; simp [this, h64]
  · rw [if_neg e, if_neg (by rintro rfl; exact e rfl)]

theorem putBit_spec (a : Arr) (i : Nat) (b : Bool) (h : i < 64 * a.length) :
    ∃ a', (if b then setBit a i else resetBit a i) = some a' ∧ a'.length = a.length ∧
      ∀ j, bitAt a' j = if j = i then b else bitAt a j := by
  rcases b with _ | _
  · exact resetBit_spec a i h
  · exact setBit_spec a i h

/-! ### Copy -/

/-- Copying from another array. -/
theorem copyBits_other (s : Arr) (n ti si : Nat) (t : Arr) (hs : si + n ≤ 64 * s.length) (ht : ti + n ≤ 64 * t.length) :
    ∃ t', copyBits (some s) n ti si t = some t' ∧ t'.length = t.length ∧
      ∀ j, bitAt t' j = if ti ≤ j ∧ j < ti + n then bitAt s (si + (j - ti)) else bitAt t j := by
  induction n generalizing ti si t with
  | zero => exact ⟨t, rfl, rfl, fun j => by rw [if_neg (by omega)]⟩
  | succ n ih =>
    simp only [copyBits, Option.getD_some, testBit_spec s si (by omega), Option.bind_some]
    obtain ⟨t1, e1, l1, b1⟩ := putBit_spec t ti (bitAt s si) (by omega)
    obtain ⟨t2, e2, l2, b2⟩ := ih (ti + 1) (si + 1) t1 (by omega) (by omega)
    refine ⟨t2, by rw [e1, Option.bind_some, e2], by omega, fun j => ?_⟩
    rw [b2, b1]
    by_cases h : j = ti
    · rw [if_neg (by omega), if_pos h, if_pos (by omega), h, Nat.sub_self, Nat.add_zero]
    · by_cases h2 : ti ≤ j ∧ j < ti + (n + 1)
      · rw [if_pos (by omega), if_pos h2]; congr 1; omega
      · rw [if_neg (by omega), if_neg h, if_neg h2]

/-- Copying inside one array, towards lower bit numbers (or in place). -/
theorem copyBits_same (n ti si : Nat) (t : Arr) (hle : ti ≤ si) (hs : si + n ≤ 64 * t.length) :
    ∃ t', copyBits none n ti si t = some t' ∧ t'.length = t.length ∧
      ∀ j, bitAt t' j = if ti ≤ j ∧ j < ti + n then bitAt t (si + (j - ti)) else bitAt t j := by
  induction n generalizing ti si t with
  | zero => exact ⟨t, rfl, rfl, fun j => by rw [if_neg (by omega)]⟩
  | succ n ih =>
    simp only [copyBits, Option.getD_none, testBit_spec t si (by omega), Option.bind_some]
    obtain ⟨t1, e1, l1, b1⟩ := putBit_spec t ti (bitAt t si) (by omega)
    obtain ⟨t2, e2, l2, b2⟩ := ih (ti + 1) (si + 1) t1 (by omega) (by omega)
    refine ⟨t2, by rw [e1, Option.bind_some, e2], by omega, fun j => ?_⟩
    rw [b2]
    by_cases h : j = ti
    · rw [if_neg (by omega), b1, if_pos h, if_pos (by omega), h, Nat.sub_self, Nat.add_zero]
    · by_cases h2 : ti ≤ j ∧ j < ti + (n + 1)
      · rw [if_pos (by omega), if_pos h2, b1, if_neg (by omega)]; congr 1; omega
      · rw [if_neg (by omega), b1, if_neg h, if_neg h2]

theorem copyWords_other (s : Arr) (n tw sw : Nat) (t : Arr) (hs : sw + n ≤ s.length) (ht : tw + n ≤ t.length) :
    ∃ t', copyWords (some s) n tw sw t = some t' ∧ t'.length = t.length ∧
      ∀ j, bitAt t' j = if 64 * tw ≤ j ∧ j < 64 * tw + 64 * n then bitAt s (64 * sw + (j - 64 * tw)) else bitAt t j := by
  induction n generalizing tw sw t with
  | zero => exact ⟨t, rfl, rfl, fun j => by rw [if_neg (by omega)]⟩
  | succ n ih =>
    obtain ⟨x, hx⟩ := rd_some s sw (by omega)
    simp only [copyWords, Option.getD_some, hx, Option.bind_some]
    obtain ⟨t1, e1, l1, b1⟩ := wr_spec t tw x (by omega)
    obtain ⟨t2, e2, l2, b2⟩ := ih (tw + 1) (sw + 1) t1 (by omega) (by omega)
    refine ⟨t2, by rw [e1, Option.bind_some, e2], by omega, fun j => ?_⟩
    rw [b2, b1]
    by_cases h : j / 64 = tw
    · rw [if_neg (by omega), if_pos h, if_pos (by omega), ← bitAt_word hx _ (by omega)]; congr 1; omega
    · by_cases h2 : 64 * tw ≤ j ∧ j < 64 * tw + 64 * (n + 1)
      · rw [if_pos (by omega), if_pos h2]; congr 1; omega
      · rw [if_neg (by omega), if_neg h, if_neg h2]

theorem copyWords_same (n tw sw : Nat) (t : Arr) (hle : tw ≤ sw) (hs : sw + n ≤ t.length) :
    ∃ t', copyWords none n tw sw t = some t' ∧ t'.length = t.length ∧
      ∀ j, bitAt t' j = if 64 * tw ≤ j ∧ j < 64 * tw + 64 * n then bitAt t (64 * sw + (j - 64 * tw)) else bitAt t j := by
  induction n generalizing tw sw t with
  | zero => exact ⟨t, rfl, rfl, fun j => by rw [if_neg (by omega)]⟩
  | succ n ih =>
    obtain ⟨x, hx⟩ := rd_some t sw (by omega)
    simp only [copyWords, Option.getD_none, hx, Option.bind_some]
    obtain ⟨t1, e1, l1, b1⟩ := wr_spec t tw x (by omega)
    obtain ⟨t2, e2, l2, b2⟩ := ih (tw + 1) (sw + 1) t1 (by omega) (by omega)
    refine ⟨t2, by rw [e1, Option.bind_some, e2], by omega, fun j => ?_⟩
    rw [b2]
    by_cases h : j / 64 = tw
    · rw [if_neg (by omega), b1, if_pos h, if_pos (by omega), ← bitAt_word hx _ (by omega)]; congr 1; omega
    · by_cases h2 : 64 * tw ≤ j ∧ j < 64 * tw + 64 * (n + 1)
      · rw [if_pos (by omega), if_pos h2, b1, if_neg (by omega)]; congr 1; omega
      · rw [if_neg (by omega), b1, if_neg h, if_neg h2]

/-- `Scm_BitsCopyX` moves the range, when the source is another array or lies at or after
the target position in the same one. -/
theorem copyX_spec (t : Arr) (ts : Nat) (src : Option Arr) (ss se : Nat) (hse : ss ≤ se)
    (hs : se ≤ 64 * (src.getD t).length) (ht : ts + (se - ss) ≤ 64 * t.length) (hov : src = none → ts ≤ ss) :
    ∃ t', copyX t ts src ss se = some t' ∧ t'.length = t.length ∧
      ∀ j, bitAt t' j = if ts ≤ j ∧ j < ts + (se - ss) then bitAt (src.getD t) (ss + (j - ts)) else bitAt t j := by
  unfold copyX
  by_cases h : ts % 64 = 0 ∧ ss % 64 = 0 ∧ se % 64 = 0
  · rw [if_pos h]
    have e1 : 64 * (ts / 64) = ts := by omega
    have e2 : 64 * (ss / 64) = ss := by omega
    have e3 : 64 * (se / 64 - ss / 64) = se - ss := by omega
    rcases src with _ | s
    · have := copyWords_same (se / 64 - ss / 64) (ts / 64) (ss / 64) t (by have := hov rfl; omega)
        (by simp only [Option.getD_none] at hs; omega)
      rw [e1, e2, e3] at this
      exact this
    · have := copyWords_other s (se / 64 - ss / 64) (ts / 64) (ss / 64) t
        (by simp only [Option.getD_some] at hs; omega) (by omega)
      rw [e1, e2, e3] at this
      exact this
  · rw [if_neg h]
    rcases src with _ | s
    · exact copyBits_same (se - ss) ts ss t (hov rfl) (by simp only [Option.getD_none] at hs; omega)
    · exact copyBits_other s (se - ss) ts ss t (by simp only [Option.getD_some] at hs; omega) ht

/-! ### Fill -/

theorem fillWords_spec (b : Bool) (n w : Nat) (a : Arr) (h : w + n ≤ a.length) :
    ∃ a', fillWords b n w a = some a' ∧ a'.length = a.length ∧
      ∀ j, bitAt a' j = if 64 * w ≤ j ∧ j < 64 * w + 64 * n then b else bitAt a j := by
  induction n generalizing w a with
  | zero => exact ⟨a, rfl, rfl, fun j => by rw [if_neg (by omega)]⟩
  | succ n ih =>
    simp only [fillWords]
    obtain ⟨t1, e1, l1, b1⟩ := wr_spec a w (if b then ~~~ (0#64) else 0#64) (by omega)
    obtain ⟨t2, e2, l2, b2⟩ := ih (w + 1) t1 (by omega)
    refine ⟨t2, by rw [e1, Option.bind_some, e2], by omega, fun j => ?_⟩
    rw [b2, b1]
    have h64 : j % 64 < 64 := by omega
    by_cases h : j / 64 = w
    · rw [if_neg (by omega), if_pos h,
        if_pos (show 64 * w ≤ j ∧ j < 64 * w + 64 * (n + 1) by omega)]
      rcases b with _ | _
      · simp
      · rw [if_pos rfl, BitVec.getLsbD_not, BitVec.getLsbD_zero]; simp [h64]
    · by_cases h2 : 64 * w ≤ j ∧ j < 64 * w + 64 * (n + 1)
      · rw [if_pos (by omega), if_pos h2]
      · rw [if_neg (by omega), if_neg h, if_neg h2]

theorem fill_spec (a : Arr) (s e : Nat) (b : Bool) (hse : s ≤ e) (he : e < 64 * a.length) :
    ∃ a', fill a s e b = some a' ∧ a'.length = a.length ∧
      ∀ j, bitAt a' j = if s ≤ j ∧ j < e then b else bitAt a j := by
  simp only [fill]
  obtain ⟨x, hx⟩ := rd_some a (s / 64) (by omega)
  by_cases hw : s / 64 = e / 64
  · rw [if_pos hw, hx, Option.bind_some]
    obtain ⟨a1, e1, l1, b1⟩ := wr_spec a (s / 64)
      (if b then x ||| (below (e % 64) &&& ~~~ below (s % 64)) else x &&& ~~~ (below (e % 64) &&& ~~~ below (s % 64)))
      (by omega)
    refine ⟨a1, e1, l1, fun j => ?_⟩
    rw [b1]
    have h64 : j % 64 < 64 := by omega
    by_cases h : j / 64 = s / 64
    · rw [if_pos h]
      have m : (below (e % 64) &&& ~~~ below (s % 64)).getLsbD (j % 64) = decide (s ≤ j ∧ j < e) := by
        rw [BitVec.getLsbD_and, BitVec.getLsbD_not, below_get _ _ (by omega) h64, below_get _ _ (by omega) h64]
        rw [decide_eq_true h64, Bool.true_and, ← decide_not, ← Bool.decide_and, decide_eq_decide]
        omega
      have hb := word_of_bit (a := a) (i := j) (x := x) (by rw [h]; exact hx)
      rcases b with _ | _
      · rw [if_neg (by simp), BitVec.getLsbD_and, BitVec.getLsbD_not, m, hb, decide_eq_true h64]
        by_cases h2 : s ≤ j ∧ j < e <;> simp [h2]
      · rw [if_pos rfl, BitVec.getLsbD_or, m, hb]
        by_cases h2 : s ≤ j ∧ j < e <;> simp [h2]
    · rw [if_neg h, if_neg (by omega)]
  · rw [if_neg hw, hx, Option.bind_some]
    obtain ⟨a1, e1, l1, b1⟩ := wr_spec a (s / 64)
      (if b then x ||| ~~~ below (s % 64) else x &&& below (s % 64)) (by omega)
    obtain ⟨a2, e2, l2, b2⟩ := fillWords_spec b (e / 64 - (s / 64 + 1)) (s / 64 + 1) a1 (by omega)
    obtain ⟨y, hy⟩ := rd_some a2 (e / 64) (by omega)
    obtain ⟨a3, e3, l3, b3⟩ := wr_spec a2 (e / 64)
      (if b then y ||| below (e % 64) else y &&& ~~~ below (e % 64)) (by omega)
    refine ⟨a3, by rw [e1, Option.bind_some, e2, Option.bind_some, hy, Option.bind_some, e3], by omega, fun j => ?_⟩
    rw [b3]
    have h64 : j % 64 < 64 := by omega
    by_cases h : j / 64 = e / 64
    · rw [if_pos h]
      have hb := word_of_bit (a := a2) (i := j) (x := y) (by rw [h]; exact hy)
      have hb2 : bitAt a2 j = bitAt a j := by
        rw [b2, if_neg (by omega), b1, if_neg (by omega)]
      rcases b with _ | _
      · rw [if_neg (by simp), BitVec.getLsbD_and, BitVec.getLsbD_not, below_get _ _ (by omega) h64, hb, hb2,
          decide_eq_true h64]
        by_cases h2 : s ≤ j ∧ j < e
        · have : j % 64 < e % 64 := by omega
          simp [h2, this]
        · have : ¬ j % 64 < e % 64 := by omega
          rw [if_neg h2]; simp [this]
      · rw [if_pos rfl, BitVec.getLsbD_or, below_get _ _ (by omega) h64, hb, hb2]
        by_cases h2 : s ≤ j ∧ j < e
        · have : j % 64 < e % 64 := by omega
          simp [h2, this]
        · have : ¬ j % 64 < e % 64 := by omega
          rw [if_neg h2]; simp [this]
    · rw [if_neg h, b2]
      by_cases h2 : 64 * (s / 64 + 1) ≤ j ∧ j < 64 * (s / 64 + 1) + 64 * (e / 64 - (s / 64 + 1))
      · rw [if_pos h2, if_pos (by omega)]
      · rw [if_neg h2, b1]
        by_cases h3 : j / 64 = s / 64
        · rw [if_pos h3]
          have hb := word_of_bit (a := a) (i := j) (x := x) (by rw [h3]; exact hx)
          rcases b with _ | _
          · rw [if_neg (by simp), BitVec.getLsbD_and, below_get _ _ (by omega) h64, hb]
            by_cases h4 : s ≤ j ∧ j < e
            · have : ¬ j % 64 < s % 64 := by omega
              simp [h4, this]
            · have : j % 64 < s % 64 := by omega
              rw [if_neg h4]; simp [this]
          · rw [if_pos rfl, BitVec.getLsbD_or, BitVec.getLsbD_not, below_get _ _ (by omega) h64, hb,
              decide_eq_true h64]
            by_cases h4 : s ≤ j ∧ j < e
            · have : ¬ j % 64 < s % 64 := by omega
              simp [h4, this]
            · have : j % 64 < s % 64 := by omega
              rw [if_neg h4]; simp [this]
        · rw [if_neg h3, if_neg (by omega)]

/-- At the very end of the array the function touches the word after it. -/
theorem fill_end (a : Arr) (s : Nat) (b : Bool) (hs : s ≤ 64 * a.length) :
    fill a s (64 * a.length) b = none := by
  simp only [fill]
  rw [show 64 * a.length / 64 = a.length by omega]
  have hn : a[a.length]? = none := List.getElem?_eq_none (Nat.le_refl _)
  by_cases hw : s / 64 = a.length
  · rw [if_pos hw, hw, hn]; rfl
  · rw [if_neg hw]
    obtain ⟨x, hx⟩ := rd_some a (s / 64) (by omega)
    rw [hx, Option.bind_some]
    obtain ⟨a1, e1, l1, b1⟩ := wr_spec a (s / 64)
      (if b then x ||| ~~~ below (s % 64) else x &&& below (s % 64)) (by omega)
    obtain ⟨a2, e2, l2, b2⟩ := fillWords_spec b (a.length - (s / 64 + 1)) (s / 64 + 1) a1 (by omega)
    rw [e1, Option.bind_some, e2, Option.bind_some,
      List.getElem?_eq_none (by omega : a2.length ≤ a.length)]
    rfl

/-! ### Operate -/

theorem opWord_spec (op : Op) (x y : Word) : ∃ z, opWord op (some x) (some y) = some z ∧
    ∀ j, j < 64 → z.getLsbD j = op.truth (x.getLsbD j) (y.getLsbD j) := by
  cases op <;> refine ⟨_, rfl, fun j hj => ?_⟩ <;>
    simp only [Op.truth, BitVec.getLsbD_and, BitVec.getLsbD_or, BitVec.getLsbD_xor, BitVec.getLsbD_not,
      decide_eq_true hj, Bool.true_and] <;>
    cases x.getLsbD j <;> cases y.getLsbD j <;> rfl

theorem operateLoop_spec (op : Op) (a b : Option Arr) (sw sb ew eb n w : Nat) (r : Arr)
    (hsb : sb < 64) (heb : eb < 64)
    (hr : w + n ≤ r.length) (ha : w + n ≤ (a.getD r).length) (hb : w + n ≤ (b.getD r).length) :
    ∃ r', operateLoop op a b sw sb ew eb n w r = some r' ∧ r'.length = r.length ∧
      ∀ j, bitAt r' j = if 64 * w ≤ j ∧ j < 64 * w + 64 * n then
          (if j / 64 = sw ∧ sb ≠ 0 then op.truth (bitAt (a.getD r) j) (bitAt (b.getD r) j) && decide (sb ≤ j % 64)
           else if j / 64 = ew then op.truth (bitAt (a.getD r) j) (bitAt (b.getD r) j) && decide (j % 64 < eb)
           else op.truth (bitAt (a.getD r) j) (bitAt (b.getD r) j))
        else bitAt r j := by
  induction n generalizing w r with
  | zero => exact ⟨r, rfl, rfl, fun j => by rw [if_neg (by omega)]⟩
  | succ n ih =>
    obtain ⟨x, hx⟩ := rd_some (a.getD r) w (by omega)
    obtain ⟨y, hy⟩ := rd_some (b.getD r) w (by omega)
    obtain ⟨z, hz, bz⟩ := opWord_spec op x y
    simp only [operateLoop, hx, hy, hz, Option.bind_some]
    obtain ⟨r1, e1, l1, b1⟩ := wr_spec r w (if w = sw ∧ sb ≠ 0 then z &&& ~~~ below sb
      else if w = ew then z &&& below eb else z) (by omega)
    have la : ∀ c : Option Arr, w + (n + 1) ≤ (c.getD r).length → w + 1 + n ≤ (c.getD r1).length := by
      intro c hc
      rcases c with _ | c
      · simp only [Option.getD_none] at hc ⊢; omega
      · simp only [Option.getD_some] at hc ⊢; omega
    obtain ⟨r2, e2, l2, b2⟩ := ih (w + 1) r1 (by omega) (la a ha) (la b hb)
    refine ⟨r2, by rw [e1, Option.bind_some, e2], by omega, fun j => ?_⟩
    rw [b2]
    have h64 : j % 64 < 64 := by omega
    by_cases h : j / 64 = w
    · rw [if_neg (by omega), b1, if_pos h, if_pos (show 64 * w ≤ j ∧ j < 64 * w + 64 * (n + 1) by omega), h]
      have e1 : x.getLsbD (j % 64) = bitAt (a.getD r) j := word_of_bit (by rw [h]; exact hx)
      have e2 : y.getLsbD (j % 64) = bitAt (b.getD r) j := word_of_bit (by rw [h]; exact hy)
      have ez := bz _ h64
      rw [e1, e2] at ez
      by_cases c1 : w = sw ∧ sb ≠ 0
      · rw [if_pos c1, if_pos c1, BitVec.getLsbD_and, BitVec.getLsbD_not, below_get _ _ hsb h64,
          decide_eq_true h64, ez, Bool.true_and, ← decide_not]
        congr 2; rw [Nat.not_lt]
      · rw [if_neg c1, if_neg c1]
        by_cases c2 : w = ew
        · rw [if_pos c2, if_pos c2, BitVec.getLsbD_and, below_get _ _ heb h64, ez]
        · rw [if_neg c2, if_neg c2, ez]
    · have k : ∀ c : Option Arr, bitAt (c.getD r1) j = bitAt (c.getD r) j := by
        intro c
        rcases c with _ | c
        · show bitAt r1 j = bitAt r j
          rw [b1, if_neg h]
        · rfl
      rw [k, k, b1, if_neg h]
      by_cases h2 : 64 * w ≤ j ∧ j < 64 * w + 64 * (n + 1)
      · rw [if_pos h2, if_pos (by omega)]
      · rw [if_neg h2, if_neg (by omega)]

/-- `Scm_BitsOperate` from bit 0: the bits below `e` are the connective, the rest of the last
word is cleared, the following words are kept. -/
theorem operate_zero (r : Arr) (op : Op) (a b : Option Arr) (e : Nat) (hr : e ≤ 64 * r.length)
    (ha : e ≤ 64 * (a.getD r).length) (hb : e ≤ 64 * (b.getD r).length) :
    ∃ r', operate r op a b 0 e = some r' ∧ r'.length = r.length ∧
      ∀ j, bitAt r' j = if j < e then op.truth (bitAt (a.getD r) j) (bitAt (b.getD r) j)
        else if j / 64 = e / 64 ∧ e % 64 ≠ 0 then false else bitAt r j := by
  unfold operate
  have hn : e / 64 + (if e % 64 ≠ 0 then 1 else 0) - 0 / 64 = (e + 63) / 64 := by
    by_cases h : e % 64 ≠ 0
    · rw [if_pos h]; omega
    · rw [if_neg h]; omega
  obtain ⟨r', e1, l1, b1⟩ := operateLoop_spec op a b (0 / 64) (0 % 64) (e / 64) (e % 64) ((e + 63) / 64) (0 / 64) r
    (by omega) (by omega) (by omega) (by omega) (by omega)
  refine ⟨r', by rw [hn]; exact e1, l1, fun j => ?_⟩
  rw [b1]
  by_cases h : j < e
  · rw [if_pos (by omega), if_pos h, if_neg (by omega)]
    by_cases h2 : j / 64 = e / 64
    · have : j % 64 < e % 64 := by omega
      rw [if_pos h2]; simp [this]
    · rw [if_neg h2]
  · rw [if_neg h]
    by_cases h2 : j / 64 = e / 64 ∧ e % 64 ≠ 0
    · have : ¬ j % 64 < e % 64 := by omega
      rw [if_pos h2, if_pos (by omega), if_neg (by omega), if_pos h2.1]; simp [this]
    · rw [if_neg h2, if_neg (by omega)]

/-- `Scm_BitsOperate` when the range does not lie inside one word. -/
theorem operate_multi (r : Arr) (op : Op) (a b : Option Arr) (s e : Nat) (hse : s / 64 < e / 64)
    (hr : e ≤ 64 * r.length) (ha : e ≤ 64 * (a.getD r).length) (hb : e ≤ 64 * (b.getD r).length) :
    ∃ r', operate r op a b s e = some r' ∧ r'.length = r.length ∧
      (∀ j, s ≤ j → j < e → bitAt r' j = op.truth (bitAt (a.getD r) j) (bitAt (b.getD r) j)) ∧
      ∀ j, bitAt r' j = if s ≤ j ∧ j < e then op.truth (bitAt (a.getD r) j) (bitAt (b.getD r) j)
        else if j / 64 = s / 64 ∨ (j / 64 = e / 64 ∧ e % 64 ≠ 0) then false else bitAt r j := by
  unfold operate
  have hn : e / 64 + (if e % 64 ≠ 0 then 1 else 0) - s / 64 = (e + 63) / 64 - s / 64 := by
    by_cases h : e % 64 ≠ 0
    · rw [if_pos h]; omega
    · rw [if_neg h]; omega
  obtain ⟨r', e1, l1, b1⟩ := operateLoop_spec op a b (s / 64) (s % 64) (e / 64) (e % 64) ((e + 63) / 64 - s / 64)
    (s / 64) r (by omega) (by omega) (by omega) (by omega) (by omega)
  have key : ∀ j, bitAt r' j = if s ≤ j ∧ j < e then op.truth (bitAt (a.getD r) j) (bitAt (b.getD r) j)
        else if j / 64 = s / 64 ∨ (j / 64 = e / 64 ∧ e % 64 ≠ 0) then false else bitAt r j := by
    intro j
    rw [b1]
    by_cases h : s ≤ j ∧ j < e
    · rw [if_pos (by omega), if_pos h]
      by_cases h2 : j / 64 = s / 64 ∧ s % 64 ≠ 0
      · have : s % 64 ≤ j % 64 := by omega
        rw [if_pos h2]; simp [this]
      · rw [if_neg h2]
        by_cases h3 : j / 64 = e / 64
        · have : j % 64 < e % 64 := by omega
          rw [if_pos h3]; simp [this]
        · rw [if_neg h3]
    · rw [if_neg h]
      by_cases h2 : j / 64 = s / 64
      · have t : ¬ s % 64 ≤ j % 64 := by omega
        rw [if_pos (Or.inl h2), if_pos (by omega), if_pos ⟨h2, by omega⟩]
        simp [t]
      · by_cases h3 : j / 64 = e / 64 ∧ e % 64 ≠ 0
        · have t : ¬ j % 64 < e % 64 := by omega
          rw [if_pos (Or.inr h3), if_pos (by omega), if_neg (by omega), if_pos h3.1]; simp [t]
        · rw [if_neg (by omega), if_neg (by omega)]
  exact ⟨r', by rw [hn]; exact e1, l1, fun j h1 h2 => by rw [key, if_pos ⟨h1, h2⟩], key⟩

/-! ### Comparison -/

/-- `d` marks the disagreeing bits of two words as `f` does of two bits. -/
def Marks (d : Word → Word → Word) (f : Bool → Bool → Bool) : Prop :=
  ∀ x y : Word, ∀ j, j < 64 → (d x y).getLsbD j = f (x.getLsbD j) (y.getLsbD j)

def dis (f : Bool → Bool → Bool) (a b : Arr) (i : Nat) : Bool := f (bitAt a i) (bitAt b i)

theorem Marks.shows {d : Word → Word → Word} {f : Bool → Bool → Bool} (m : Marks d f) {a b : Arr} {w : Nat} {x y : Word}
    (hx : a[w]? = some x) (hy : b[w]? = some y) : Shows (dis f a b) w (d x y) := by
  intro j hj
  rw [m x y j hj, dis, bitAt_word hx j hj, bitAt_word hy j hj]

theorem allWords_spec {d : Word → Word → Word} {f : Bool → Bool → Bool} (m : Marks d f) (a b : Arr) (n w : Nat)
    (ha : w + n ≤ a.length) (hb : w + n ≤ b.length) :
    ∃ r, allWords (fun x y => d x y != 0#64) a b n w = some r ∧
      (r = true ↔ ∀ i, 64 * w ≤ i → i < 64 * (w + n) → dis f a b i = false) := by
  induction n generalizing w with
  | zero => exact ⟨true, rfl, fun _ i h1 h2 => by omega, fun _ => rfl⟩
  | succ n ih =>
    obtain ⟨x, hx⟩ := rd_some a w (by omega)
    obtain ⟨y, hy⟩ := rd_some b w (by omega)
    have g := Seg.full (m.shows hx hy)
    simp only [allWords, hx, hy, Option.bind_some]
    by_cases h : (d x y != 0#64) = true
    · rw [if_pos h]
      obtain ⟨i, h1, h2, h3⟩ := g.test.1 h
      refine ⟨false, rfl, fun h => (by cases h), fun hh => ?_⟩
      rw [hh i h1 (by omega)] at h3; cases h3
    · rw [if_neg h]
      obtain ⟨r, e, hr⟩ := ih (w + 1) (by omega) (by omega)
      refine ⟨r, e, hr.trans ⟨fun hh i h1 h2 => ?_, fun hh i h1 h2 => hh i (by omega) (by omega)⟩⟩
      by_cases h3 : i < 64 * w + 64
      · exact g.test_false h i h1 h3
      · exact hh i (by omega) (by omega)

theorem compareBits_spec {d : Word → Word → Word} {f : Bool → Bool → Bool} (m : Marks d f) (a b : Arr) (s e : Nat)
    (hse : s ≤ e) (ha : e ≤ 64 * a.length) (hb : e ≤ 64 * b.length) (hal : s % 64 = 0 ∨ s / 64 < e / 64) :
    ∃ r, compareBits d a b s e = some r ∧ (r = true ↔ ∀ i, s ≤ i → i < e → dis f a b i = false) := by
  have rest : ∀ sw, s ≤ 64 * sw → sw ≤ e / 64 →
      ∃ r, (if e % 64 ≠ 0 then
        (a[e / 64]?).bind fun x => (b[e / 64]?).bind fun y =>
          if (d x y &&& below (e % 64)) != 0#64 then some false
          else allWords (fun x y => d x y != 0#64) a b (e / 64 - sw) sw
        else allWords (fun x y => d x y != 0#64) a b (e / 64 - sw) sw) = some r ∧
        (r = true ↔ ∀ i, 64 * sw ≤ i → i < e → dis f a b i = false) := by
    intro sw h1 h2
    obtain ⟨r, er, hr⟩ := allWords_spec m a b (e / 64 - sw) sw (by omega) (by omega)
    rw [show sw + (e / 64 - sw) = e / 64 by omega] at hr
    by_cases h3 : e % 64 ≠ 0
    · rw [if_pos h3]
      obtain ⟨x, hx⟩ := rd_some a (e / 64) (by omega)
      obtain ⟨y, hy⟩ := rd_some b (e / 64) (by omega)
      have g : Seg (dis f a b) (e / 64) (64 * (e / 64)) e (d x y &&& below (e % 64)) := by
        refine ⟨by omega, by omega, by omega, fun j hj => ?_⟩
        rw [BitVec.getLsbD_and, m.shows hx hy j hj, below_get _ _ (by omega) hj, Bool.and_comm]
        congr 1
        rw [decide_eq_decide]; omega
      rw [hx, hy, Option.bind_some, Option.bind_some]
      by_cases h : ((d x y &&& below (e % 64)) != 0#64) = true
      · rw [if_pos h]
        obtain ⟨i, i1, i2, i3⟩ := g.test.1 h
        refine ⟨false, rfl, fun h => (by cases h), fun hh => ?_⟩
        rw [hh i (by omega) i2] at i3; cases i3
      · rw [if_neg h]
        refine ⟨r, er, hr.trans ⟨fun hh i i1 i2 => ?_, fun hh i i1 i2 => hh i i1 (by omega)⟩⟩
        by_cases h4 : i < 64 * (e / 64)
        · exact hh i i1 h4
        · exact g.test_false h i (by omega) i2
    · rw [if_neg h3]
      refine ⟨r, er, hr.trans ⟨fun hh i i1 i2 => hh i i1 (by omega), fun hh i i1 i2 => hh i i1 (by omega)⟩⟩
  simp only [compareBits]
  by_cases h0 : s % 64 ≠ 0
  · rw [if_pos h0]
    have hlt : s / 64 < e / 64 := by omega
    obtain ⟨x, hx⟩ := rd_some a (s / 64) (by omega)
    obtain ⟨y, hy⟩ := rd_some b (s / 64) (by omega)
    have g : Seg (dis f a b) (s / 64) s (64 * (s / 64) + 64) (d x y &&& ~~~ below (s % 64)) := by
      refine ⟨by omega, by omega, by omega, fun j hj => ?_⟩
      rw [BitVec.getLsbD_and, m.shows hx hy j hj, BitVec.getLsbD_not, below_get _ _ (by omega) hj,
        decide_eq_true hj, Bool.true_and, Bool.and_comm, ← decide_not]
      congr 1
      rw [decide_eq_decide]; omega
    rw [hx, hy, Option.bind_some, Option.bind_some]
    by_cases h : ((d x y &&& ~~~ below (s % 64)) != 0#64) = true
    · rw [if_pos h]
      obtain ⟨i, i1, i2, i3⟩ := g.test.1 h
      refine ⟨false, rfl, fun h => (by cases h), fun hh => ?_⟩
      rw [hh i (by omega) (by omega)] at i3; cases i3
    · rw [if_neg h]
      obtain ⟨r, er, hr⟩ := rest (s / 64 + 1) (by omega) (by omega)
      refine ⟨r, er, hr.trans ⟨fun hh i i1 i2 => ?_, fun hh i i1 i2 => hh i (by omega) i2⟩⟩
      by_cases h4 : i < 64 * (s / 64) + 64
      · exact g.test_false h i i1 h4
      · exact hh i (by omega) i2
  · rw [if_neg h0]
    obtain ⟨r, er, hr⟩ := rest (s / 64) (by omega) (by omega)
    refine ⟨r, er, hr.trans ⟨fun hh i i1 i2 => hh i (by omega) i2, fun hh i i1 i2 => hh i (by omega) i2⟩⟩

theorem marks_xor : Marks (fun x y => x ^^^ y) (fun p q => p != q) := by
  intro x y j hj
  rw [BitVec.getLsbD_xor]

theorem marks_incl : Marks (fun x y => x ^^^ (x ||| y)) (fun p q => !p && q) := by
  intro x y j hj
  rw [BitVec.getLsbD_xor, BitVec.getLsbD_or]
  cases x.getLsbD j <;> cases y.getLsbD j <;> rfl

end Gauche.Bits

import Verif.Model.CTrie
import Mathlib.Tactic.Linarith
import Mathlib.Data.Nat.Bitwise

/-! # Compact trie: bitmaps and the packed entries -/

namespace Gauche.CTrie

theorem testBit_bitSet (w i j : Nat) : (bitSet w i).testBit j = (w.testBit j || decide (i = j)) := by
  simp only [bitSet, Nat.testBit_or, Nat.shiftLeft_eq, Nat.one_mul, Nat.testBit_two_pow]

theorem testBit_bitReset (w i j : Nat) :
    (bitReset w i).testBit j = (w.testBit j && !decide (i = j)) := by
  simp only [bitReset, Nat.testBit_xor, Nat.testBit_and, Nat.shiftLeft_eq, Nat.one_mul,
    Nat.testBit_two_pow]
  cases w.testBit j <;> cases decide (i = j) <;> rfl

theorem countBelow_mono (w : Nat) {i j : Nat} (h : i ≤ j) : countBelow w i ≤ countBelow w j := by
  induction j, h using Nat.le_induction with
  | base => exact le_refl _
  | succ j _ ih => exact le_trans ih (by simp [countBelow])

theorem countBelow_lt (w : Nat) {i j : Nat} (h : i < j) (hb : w.testBit i = true) :
    countBelow w i < countBelow w j := by
  have h1 : countBelow w (i + 1) = countBelow w i + 1 := by simp [countBelow, hb]
  have := countBelow_mono w (show i + 1 ≤ j from h)
  omega

theorem countBelow_inj (w : Nat) {i j : Nat} (hi : w.testBit i = true) (hj : w.testBit j = true)
    (h : countBelow w i = countBelow w j) : i = j := by
  rcases Nat.lt_trichotomy i j with h1 | h1 | h1
  · have := countBelow_lt w h1 hi; omega
  · exact h1
  · have := countBelow_lt w h1 hj; omega

theorem countBelow_bitSet (w ind : Nat) (hb : w.testBit ind = false) (i : Nat) :
    countBelow (bitSet w ind) i = countBelow w i + (if ind < i then 1 else 0) := by
  induction i with
  | zero => simp [countBelow]
  | succ i ih =>
    simp only [countBelow, ih, testBit_bitSet]
    by_cases h : ind = i
    · subst h; simp [hb]
    · have h2 : (ind < i + 1) ↔ (ind < i) := by omega
      simp only [h, decide_false, Bool.or_false, h2]; omega

theorem countBelow_bitReset (w ind : Nat) (hb : w.testBit ind = true) (i : Nat) :
    countBelow (bitReset w ind) i + (if ind < i then 1 else 0) = countBelow w i := by
  induction i with
  | zero => simp [countBelow]
  | succ i ih =>
    simp only [countBelow, ← ih, testBit_bitReset]
    by_cases h : ind = i
    · subst h; simp [hb]
    · have h2 : (ind < i + 1) ↔ (ind < i) := by omega
      simp only [h, decide_false, Bool.not_false, Bool.and_true, h2]; omega

theorem countBelow_zero_word (i : Nat) : countBelow 0 i = 0 := by
  induction i with
  | zero => rfl
  | succ i ih => simp [countBelow, ih]

theorem testBit_lt32 {w i : Nat} (hw : w < 2 ^ 32) (h : w.testBit i = true) : i < 32 := by
  by_contra hn
  have : w < 2 ^ i := lt_of_lt_of_le hw (Nat.pow_le_pow_right (by decide) (by omega))
  rw [Nat.testBit_lt_two_pow this] at h
  cases h

theorem countBelow_ge32 {w : Nat} (hw : w < 2 ^ 32) {j : Nat} (hj : 32 ≤ j) :
    countBelow w j = countBelow w 32 := by
  induction j, hj using Nat.le_induction with
  | base => rfl
  | succ j hj ih =>
    have : w.testBit j = false := by
      cases h : w.testBit j with
      | false => rfl
      | true => have := testBit_lt32 hw h; omega
    simp [countBelow, ih, this]

theorem countBits_eq {w : Nat} (hw : w < 2 ^ 32) : countBits w = countBelow w 32 :=
  countBelow_ge32 hw (by decide)

theorem countBelow_lt_countBits {w i : Nat} (hw : w < 2 ^ 32) (h : w.testBit i = true) :
    countBelow w i < countBits w := by
  rw [countBits_eq hw]; exact countBelow_lt w (testBit_lt32 hw h) h

theorem countBelow_le_countBits {w i : Nat} (hw : w < 2 ^ 32) :
    countBelow w i ≤ countBits w := by
  rw [countBits_eq hw]
  by_cases h : i ≤ 32
  · exact countBelow_mono w h
  · rw [countBelow_ge32 hw (by omega)]

theorem bitSet_lt {w i : Nat} (hw : w < 2 ^ 32) (hi : i < 32) : bitSet w i < 2 ^ 32 := by
  refine Nat.lt_pow_two_of_testBit _ (fun j hj => ?_)
  rw [testBit_bitSet]
  have : w.testBit j = false := by
    cases h : w.testBit j with
    | false => rfl
    | true => have := testBit_lt32 hw h; omega
  simp only [this, Bool.false_or, decide_eq_false_iff_not]; omega

theorem bitReset_lt {w : Nat} (i : Nat) (hw : w < 2 ^ 32) : bitReset w i < 2 ^ 32 := by
  refine Nat.lt_pow_two_of_testBit _ (fun j hj => ?_)
  rw [testBit_bitReset]
  have : w.testBit j = false := by
    cases h : w.testBit j with
    | false => rfl
    | true => have := testBit_lt32 hw h; omega
  simp [this]

theorem countBits_bitSet {w ind : Nat} (hw : w < 2 ^ 32) (hi : ind < 32)
    (hb : w.testBit ind = false) : countBits (bitSet w ind) = countBits w + 1 := by
  rw [countBits_eq (bitSet_lt hw hi), countBelow_bitSet w ind hb, countBits_eq hw]; simp [hi]

theorem countBits_bitReset {w ind : Nat} (hw : w < 2 ^ 32)
    (hb : w.testBit ind = true) : countBits (bitReset w ind) + 1 = countBits w := by
  have := countBelow_bitReset w ind hb 32
  rw [if_pos (testBit_lt32 hw hb)] at this
  rw [countBits_eq (bitReset_lt ind hw), this, countBits_eq hw]

theorem countBits_zero_iff {w : Nat} (hw : w < 2 ^ 32) : countBits w = 0 ↔ w = 0 := by
  constructor
  · intro h
    apply Nat.eq_of_testBit_eq
    intro i
    rw [Nat.zero_testBit]
    cases hb : w.testBit i with
    | false => rfl
    | true => have := countBelow_lt_countBits hw hb; omega
  · rintro rfl; exact countBelow_zero_word _

/-- With one child only, every set bit is that child. -/
theorem eq_of_countBits_one {w i j : Nat} (hw : w < 2 ^ 32) (h : countBits w = 1)
    (hi : w.testBit i = true) (hj : w.testBit j = true) : i = j := by
  have h1 := countBelow_lt_countBits hw hi
  have h2 := countBelow_lt_countBits hw hj
  exact countBelow_inj w hi hj (by omega)

theorem exists_testBit {w : Nat} (h : w ≠ 0) : ∃ i, w.testBit i = true := by
  by_contra hn
  apply h
  apply Nat.eq_of_testBit_eq
  intro i
  rw [Nat.zero_testBit]
  cases hb : w.testBit i with
  | false => rfl
  | true => exact absurd ⟨i, hb⟩ hn

/-! ## Loops over the entries -/

theorem putAt_ok {α : Type} (es : List α) {i : Nat} (h : i < es.length) (x : α) :
    putAt es i x = some (es.set i x) := if_pos h

theorem shiftUp_ok {α : Type} (ip : Nat) : ∀ (n : Nat) (es : List α), ip + n < es.length →
    ∃ es', shiftUp ip n es = some es' ∧ es'.length = es.length ∧
      ∀ j, es'[j]? = if ip < j ∧ j ≤ ip + n then es[j - 1]? else es[j]?
  | 0, es, _ => ⟨es, rfl, rfl, fun j => by rw [if_neg (by omega)]⟩
  | n + 1, es, h => by
    obtain ⟨es', h1, h2, h3⟩ := shiftUp_ok ip n (es.set (ip + n + 1) (es[ip + n]'(by omega)))
      (by rw [List.length_set]; omega)
    refine ⟨es', ?_, by rw [h2, List.length_set], ?_⟩
    · rw [shiftUp, List.getElem?_eq_getElem (by omega)]
      show (match putAt es (ip + n + 1) _ with | none => none | some es' => shiftUp ip n es') = _
      rw [putAt_ok es (by omega)]
      exact h1
    · intro j
      rw [h3 j]
      by_cases hj : ip < j ∧ j ≤ ip + n
      · rw [if_pos hj, if_pos (by omega), List.getElem?_set_ne (by omega)]
      · rw [if_neg hj]
        by_cases hj2 : j = ip + n + 1
        · subst hj2
          rw [if_pos (by omega), List.getElem?_set_self (by omega),
            ← List.getElem?_eq_getElem]; rfl
        · rw [List.getElem?_set_ne (by omega), if_neg (by omega)]

theorem copyUp_ok {α : Type} (src : List α) (d : Nat) : ∀ (n i : Nat) (dst : List α),
    i + n ≤ src.length → i + n + d ≤ dst.length →
    ∃ dst', copyUp src d i n dst = some dst' ∧ dst'.length = dst.length ∧
      ∀ j, dst'[j]? = if i + d ≤ j ∧ j < i + n + d then src[j - d]? else dst[j]?
  | 0, i, dst, _, _ => ⟨dst, rfl, rfl, fun j => by rw [if_neg (by omega)]⟩
  | n + 1, i, dst, h, h' => by
    obtain ⟨dst', h1, h2, h3⟩ := copyUp_ok src d n (i + 1) (dst.set (i + d) (src[i]'(by omega)))
      (by omega) (by rw [List.length_set]; omega)
    refine ⟨dst', ?_, by rw [h2, List.length_set], ?_⟩
    · rw [copyUp, List.getElem?_eq_getElem (by omega)]
      show (match putAt dst (i + d) _ with | none => none | some es' => copyUp src d (i + 1) n es') = _
      rw [putAt_ok dst (by omega)]
      exact h1
    · intro j
      rw [h3 j]
      by_cases hj : i + 1 + d ≤ j ∧ j < i + 1 + n + d
      · rw [if_pos hj, if_pos (by omega)]
      · rw [if_neg hj]
        by_cases hj2 : j = i + d
        · subst hj2
          rw [if_pos (by omega), List.getElem?_set_self (by omega),
            ← List.getElem?_eq_getElem]
          congr 1; omega
        · rw [List.getElem?_set_ne (by omega), if_neg (by omega)]

theorem shiftDown_ok {α : Type} : ∀ (n i : Nat) (es : List α), (n = 0 ∨ i + n < es.length) →
    ∃ es', shiftDown i n es = some es' ∧ es'.length = es.length ∧
      ∀ j, es'[j]? = if i ≤ j ∧ j < i + n then es[j + 1]? else es[j]?
  | 0, i, es, _ => ⟨es, rfl, rfl, fun j => by rw [if_neg (by omega)]⟩
  | n + 1, i, es, h => by
    have h : i + (n + 1) < es.length := by omega
    obtain ⟨es', h1, h2, h3⟩ := shiftDown_ok n (i + 1) (es.set i (es[i + 1]'(by omega)))
      (by rw [List.length_set]; omega)
    refine ⟨es', ?_, by rw [h2, List.length_set], ?_⟩
    · rw [shiftDown, List.getElem?_eq_getElem (by omega)]
      show (match putAt es i _ with | none => none | some es' => shiftDown (i + 1) n es') = _
      rw [putAt_ok es (by omega)]
      exact h1
    · intro j
      rw [h3 j]
      by_cases hj : i + 1 ≤ j ∧ j < i + 1 + n
      · rw [if_pos hj, if_pos (by omega), List.getElem?_set_ne (by omega)]
      · rw [if_neg hj]
        by_cases hj2 : j = i
        · subst hj2
          rw [if_pos (by omega), List.getElem?_set_self (by omega),
            ← List.getElem?_eq_getElem]
        · rw [List.getElem?_set_ne (by omega), if_neg (by omega)]

/-! ## The children of a node -/

/-- The child at index `i`, if there is one. -/
def child {β : Type} (e : Nat) (es : List (Obj β)) (i : Nat) : Option (Obj β) :=
  if e.testBit i then es[countBelow e i]? else none

/-- The bitmaps and the allocation of a node agree. -/
structure NodeOK {β : Type} (e m : Nat) (es : List (Obj β)) : Prop where
  bound : e < 2 ^ 32
  sub : ∀ i, m.testBit i = true → e.testBit i = true
  cap : countBits e + countBits e % 2 ≤ es.length

theorem child_of_bit {β : Type} {e i : Nat} {es : List (Obj β)} (h : e.testBit i = true) :
    child e es i = es[countBelow e i]? := if_pos h

theorem child_none {β : Type} {e i : Nat} {es : List (Obj β)} (h : e.testBit i = false) :
    child e es i = none := if_neg (by rw [h]; decide)

theorem off_lt {β : Type} {e m i : Nat} {es : List (Obj β)} (ok : NodeOK e m es)
    (h : e.testBit i = true) : countBelow e i < es.length := by
  have := countBelow_lt_countBits ok.bound h
  have := ok.cap
  omega

theorem child_set {β : Type} {e m ind : Nat} {es : List (Obj β)} (ok : NodeOK e m es)
    (h : e.testBit ind = true) (o : Obj β) (i : Nat) :
    child e (es.set (countBelow e ind) o) i = if i = ind then some o else child e es i := by
  by_cases hi : i = ind
  · subst hi
    rw [if_pos rfl, child_of_bit h, List.getElem?_set_self (off_lt ok h)]
  · rw [if_neg hi]
    cases hb : e.testBit i with
    | false => rw [child_none hb, child_none hb]
    | true =>
      rw [child_of_bit hb, child_of_bit hb, List.getElem?_set_ne]
      intro hc
      exact hi (countBelow_inj e h hb hc).symm

theorem NodeOK.set {β : Type} {e m : Nat} {es : List (Obj β)} (ok : NodeOK e m es)
    (k : Nat) (o : Obj β) : NodeOK e m (es.set k o) :=
  ⟨ok.bound, ok.sub, by rw [List.length_set]; exact ok.cap⟩

theorem length_makeEntries (β : Type) (n : Nat) :
    (makeEntries β n).length = (n + 1) / 2 * 2 := List.length_replicate

theorem nodeInsert_ok {β : Type} {e m ind : Nat} {es : List (Obj β)} (ok : NodeOK e m es)
    (hi : ind < 32) (hb : e.testBit ind = false) (x : Obj β) (lp : Bool) :
    ∃ es', nodeInsert e m es ind x lp =
        some (.node (bitSet e ind) (if lp then bitSet m ind else m) es') ∧
      NodeOK (bitSet e ind) (if lp then bitSet m ind else m) es' ∧
      ∀ i, child (bitSet e ind) es' i = if i = ind then some x else child e es i := by
  have hcnt := countBits_bitSet ok.bound hi hb
  have hcap := ok.cap
  have hip : countBelow e ind ≤ countBits e := countBelow_le_countBits ok.bound
  have hsub : ∀ i, (if lp then bitSet m ind else m).testBit i = true →
      (bitSet e ind).testBit i = true := by
    intro i h
    rw [testBit_bitSet]
    cases lp with
    | true =>
      rw [if_pos rfl, testBit_bitSet] at h
      cases hm : m.testBit i with
      | true => rw [ok.sub i hm]; rfl
      | false => rw [hm] at h; rw [Bool.false_or] at h; rw [h]; simp
    | false =>
      rw [if_neg (by decide)] at h
      rw [ok.sub i h]; rfl
  -- what the new array has to look like
  have key : ∀ es' : List (Obj β), countBits e + 1 + (countBits e + 1) % 2 ≤ es'.length →
      (∀ j, j ≤ countBits e → es'[j]? = if j = countBelow e ind then some x
        else if countBelow e ind < j then es[j - 1]? else es[j]?) →
      NodeOK (bitSet e ind) (if lp then bitSet m ind else m) es' ∧
      ∀ i, child (bitSet e ind) es' i = if i = ind then some x else child e es i := by
    intro es' hl hg
    refine ⟨⟨bitSet_lt ok.bound hi, hsub, by rw [hcnt]; exact hl⟩, ?_⟩
    intro i
    by_cases hii : i = ind
    · subst hii
      have hbit : (bitSet e i).testBit i = true := by rw [testBit_bitSet]; simp
      rw [if_pos rfl, child_of_bit hbit, countBelow_bitSet e i hb, if_neg (by omega), Nat.add_zero,
        hg _ hip, if_pos rfl]
    · rw [if_neg hii]
      have hbit : (bitSet e ind).testBit i = e.testBit i := by
        rw [testBit_bitSet]; simp [show ¬ ind = i from fun h => hii h.symm]
      cases hbi : e.testBit i with
      | false => rw [child_none (by rw [hbit, hbi]), child_none hbi]
      | true =>
        have hlt := countBelow_lt_countBits ok.bound hbi
        rw [child_of_bit (by rw [hbit, hbi]), child_of_bit hbi, countBelow_bitSet e ind hb]
        by_cases hlt2 : ind < i
        · have hm := countBelow_mono e (le_of_lt hlt2)
          rw [if_pos hlt2, hg _ (by omega), if_neg (by omega), if_pos (by omega)]
          rfl
        · have := countBelow_lt e (show i < ind by omega) hbi
          rw [if_neg hlt2, Nat.add_zero, hg _ (by omega), if_neg (by omega), if_neg (by omega)]
  by_cases hodd : countBits e % 2 = 1
  · obtain ⟨es1, h1, h2, h3⟩ := shiftUp_ok (countBelow e ind) (countBits e - countBelow e ind) es
      (by omega)
    refine ⟨es1.set (countBelow e ind) x, ?_, key _ ?_ ?_⟩
    · simp only [nodeInsert]
      rw [if_pos hodd, h1]
      show (match putAt es1 (countBelow e ind) x with | none => none | some es' => _) = _
      rw [putAt_ok es1 (by omega)]
    · rw [List.length_set, h2]; omega
    · intro j hj
      by_cases hj2 : j = countBelow e ind
      · subst hj2; rw [if_pos rfl, List.getElem?_set_self (by omega)]
      · rw [if_neg hj2, List.getElem?_set_ne (by omega), h3 j]
        by_cases h4 : countBelow e ind < j
        · rw [if_pos (by omega), if_pos h4]
        · rw [if_neg (by omega), if_neg h4]
  · have hml := length_makeEntries β (countBits e + 2)
    obtain ⟨d1, h1, h2, h3⟩ := copyUp_ok es 0 (countBelow e ind) 0 (makeEntries β (countBits e + 2))
      (by omega) (by omega)
    obtain ⟨d2, g1, g2, g3⟩ := copyUp_ok es 1 (countBits e - countBelow e ind) (countBelow e ind)
      (d1.set (countBelow e ind) x) (by omega) (by rw [List.length_set]; omega)
    rw [List.length_set] at g2
    refine ⟨d2, ?_, key _ (by omega) ?_⟩
    · simp only [nodeInsert]
      rw [if_neg hodd, h1]
      show (match putAt d1 (countBelow e ind) x with
        | none => none
        | some d1 =>
          match copyUp es 1 (countBelow e ind) (countBits e - countBelow e ind) d1 with
          | none => none
          | some d2 => some (Obj.node _ _ d2)) = _
      rw [putAt_ok d1 (by omega)]
      show (match copyUp es 1 (countBelow e ind) (countBits e - countBelow e ind) _ with
          | none => none
          | some d2 => some (Obj.node _ _ d2)) = _
      rw [g1]
    · intro j hj
      rw [g3 j]
      by_cases hj2 : j = countBelow e ind
      · subst hj2; rw [if_neg (by omega), if_pos rfl, List.getElem?_set_self (by omega)]
      · rw [if_neg hj2]
        by_cases h4 : countBelow e ind < j
        · rw [if_pos (by omega), if_pos h4]
        · rw [if_neg (by omega), if_neg h4, List.getElem?_set_ne (by omega), h3 j, if_pos (by omega)]
          rfl

theorem nodeDelete_ok {β : Type} {e m ind : Nat} {es : List (Obj β)} (ok : NodeOK e m es)
    (hb : e.testBit ind = true) :
    ∃ es', nodeDelete e m es ind =
        some (bitReset e ind, bitReset m ind, es', countBits e - 1) ∧
      NodeOK (bitReset e ind) (bitReset m ind) es' ∧
      ∀ i, child (bitReset e ind) es' i = if i = ind then none else child e es i := by
  have hcnt := countBits_bitReset ok.bound hb
  have hcap := ok.cap
  have hlt := countBelow_lt_countBits ok.bound hb
  obtain ⟨es1, h1, h2, h3⟩ := shiftDown_ok (countBits e - 1 - countBelow e ind) (countBelow e ind) es
    (by omega)
  refine ⟨es1, ?_, ⟨bitReset_lt ind ok.bound, ?_, by omega⟩, ?_⟩
  · simp only [nodeDelete]; rw [h1]
  · intro i h
    rw [testBit_bitReset] at h ⊢
    rw [Bool.and_eq_true] at h
    rw [ok.sub i h.1, h.2]; rfl
  · intro i
    by_cases hii : i = ind
    · subst hii
      rw [if_pos rfl, child_none]
      rw [testBit_bitReset]; simp
    · rw [if_neg hii]
      have hbit : (bitReset e ind).testBit i = e.testBit i := by
        rw [testBit_bitReset]; simp [show ¬ ind = i from fun h => hii h.symm]
      cases hbi : e.testBit i with
      | false => rw [child_none (by rw [hbit, hbi]), child_none hbi]
      | true =>
        have hlti := countBelow_lt_countBits ok.bound hbi
        have hc := countBelow_bitReset e ind hb i
        rw [child_of_bit (by rw [hbit, hbi]), child_of_bit hbi, h3]
        by_cases hlt2 : ind < i
        · have := countBelow_lt e hlt2 hb
          rw [if_pos hlt2] at hc
          rw [if_pos (by omega), hc]
        · have := countBelow_lt e (show i < ind by omega) hbi
          rw [if_neg hlt2, Nat.add_zero] at hc
          rw [if_neg (by omega), hc]

end Gauche.CTrie

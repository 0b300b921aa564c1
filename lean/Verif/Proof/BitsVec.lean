import Verif.Proof.BitsUpd
/-! Bitvectors as lists of booleans. -/
namespace Gauche.Bits
open Spec

/-- The invariant of every bitvector the runtime builds: the right number of words, and no
stray bits after the last one. -/
structure Bv.WF (v : Bv) : Prop where
  words : v.bits.length = numWords v.size
  clean : ∀ i, v.size ≤ i → bitAt v.bits i = false

theorem Bv.WF.cap {v : Bv} (h : v.WF) : v.size ≤ 64 * v.bits.length := by
  rw [h.words, numWords]; omega

theorem bools_length (n : Nat) (a : Arr) : (bools n a).length = n := by simp [bools]

theorem bools_get (n : Nat) (a : Arr) (i : Nat) (h : i < n) : (bools n a)[i]? = some (bitAt a i) := by
  simp [bools, h]

theorem bools_eq {n : Nat} {a : Arr} {l : List Bool} (hl : l.length = n)
    (h : ∀ i, i < n → l[i]? = some (bitAt a i)) : bools n a = l := by
  apply List.ext_getElem?
  intro i
  by_cases hi : i < n
  · rw [bools_get n a i hi, h i hi]
  · rw [List.getElem?_eq_none (by rw [bools_length]; omega), List.getElem?_eq_none (by omega)]

theorem bools_congr {n : Nat} {a b : Arr} (h : ∀ i, i < n → bitAt a i = bitAt b i) : bools n a = bools n b := by
  apply bools_eq (bools_length n b)
  intro i hi
  rw [bools_get n b i hi, h i hi]

theorem bitAt_replicate (n i : Nat) : bitAt (List.replicate n 0#64) i = false := by
  unfold bitAt
  rw [List.getD_eq_getElem?_getD, List.getElem?_replicate]
  by_cases h : i / 64 < n
  · rw [if_pos h]; simp
  · rw [if_neg h]; simp

theorem bitAt_beyond (a : Arr) (i : Nat) (h : 64 * a.length ≤ i) : bitAt a i = false := by
  unfold bitAt
  rw [List.getD_eq_getElem?_getD, List.getElem?_eq_none (by omega)]
  simp

theorem bitAt_take (a : Arr) (n i : Nat) : bitAt (a.take n) i = if i < 64 * n then bitAt a i else false := by
  unfold bitAt
  rw [List.getD_eq_getElem?_getD, List.getD_eq_getElem?_getD, List.getElem?_take]
  by_cases h : i / 64 < n
  · rw [if_pos h, if_pos (by omega)]
  · rw [if_neg h, if_neg (by omega)]; simp

theorem bitAt_append_zero (a : Arr) (i : Nat) : bitAt (a ++ [0#64]) i = bitAt a i := by
  by_cases h : i / 64 < a.length
  · unfold bitAt
    rw [List.getD_eq_getElem?_getD, List.getD_eq_getElem?_getD, List.getElem?_append_left h]
  · rw [bitAt_beyond a i (by omega)]
    unfold bitAt
    rw [List.getD_eq_getElem?_getD, List.getElem?_append_right (by omega)]
    by_cases h2 : i / 64 - a.length = 0
    · rw [h2]; simp
    · rw [List.getElem?_eq_none (by simp; omega)]; simp

theorem makeBv_spec (n : Nat) (b : Bool) :
    ∃ v, makeBv n b = .ok v ∧ v.WF ∧ v.size = n ∧ v.immutable = false ∧
      ∀ i, i < n → bitAt v.bits i = b := by
  unfold makeBv
  have hl : (makeBits n ++ [0#64]).length = numWords n + 1 := by simp [makeBits]
  obtain ⟨a, e, l, hb⟩ := fill_spec (makeBits n ++ [0#64]) 0 n b (by omega) (by rw [hl, numWords]; omega)
  rw [e]
  refine ⟨_, rfl, ⟨?_, fun i hi => ?_⟩, rfl, rfl, fun i hi => ?_⟩
  · show (a.take (numWords n)).length = _
    rw [List.length_take, l, hl]; exact Nat.min_eq_left (by omega)
  · show bitAt (a.take (numWords n)) i = false
    have hi : n ≤ i := hi
    rw [bitAt_take, hb, if_neg (show ¬ (0 ≤ i ∧ i < n) by omega), bitAt_append_zero, makeBits, bitAt_replicate, ite_self]
  · show bitAt (a.take (numWords n)) i = b
    rw [bitAt_take, if_pos (by rw [numWords]; omega), hb, if_pos (by omega)]

theorem listGo_spec (l : List Bool) (i : Nat) (a : Arr) (h : i + l.length ≤ 64 * a.length) :
    ∃ a', listGo l i a = some a' ∧ a'.length = a.length ∧
      ∀ j, bitAt a' j = if i ≤ j ∧ j < i + l.length then l.getD (j - i) false else bitAt a j := by
  induction l generalizing i a with
  | nil => exact ⟨a, rfl, rfl, fun j => by rw [if_neg (by simp)]⟩
  | cons b l ih =>
    simp only [List.length_cons] at h
    obtain ⟨a1, e1, l1, b1⟩ := putBit_spec a i b (by omega)
    obtain ⟨a2, e2, l2, b2⟩ := ih (i + 1) a1 (by omega)
    refine ⟨a2, by simp only [listGo]; rw [e1, Option.bind_some, e2], by omega, fun j => ?_⟩
    rw [b2, b1, List.length_cons]
    by_cases hj : j = i
    · rw [if_neg (by omega), if_pos hj, if_pos (by omega), hj, Nat.sub_self]; rfl
    · by_cases h2 : i ≤ j ∧ j < i + (l.length + 1)
      · rw [if_pos (by omega), if_pos h2, show j - i = (j - (i + 1)) + 1 by omega]; rfl
      · rw [if_neg (by omega), if_neg hj, if_neg h2]

theorem ofList_spec (l : List Bool) :
    ∃ v, ofList l = .ok v ∧ v.WF ∧ v.immutable = false ∧ v.size = l.length ∧ bools v.size v.bits = l := by
  obtain ⟨v, e, wf, hs, hi, _⟩ := makeBv_spec l.length false
  have hc := wf.cap
  obtain ⟨a, e2, l2, b2⟩ := listGo_spec l 0 v.bits (by omega)
  unfold ofList
  rw [e]
  simp only [Res.bind, e2, Res.ofOption]
  refine ⟨_, rfl, ⟨l2.trans wf.words, fun i h => ?_⟩, hi, hs, ?_⟩
  · have h : v.size ≤ i := h
    show bitAt a i = false
    rw [b2, if_neg (by omega), wf.clean i h]
  · apply bools_eq hs.symm
    intro i h
    have h : i < v.size := h
    show _ = some (bitAt a i)
    rw [b2, if_pos (by omega), List.getD_eq_getElem?_getD, Nat.sub_zero, List.getElem?_eq_getElem (by omega)]
    rfl

/-! ### Text -/

def bitChar (b : Bool) : Char := if b then '1' else '0'

theorem writeGo_spec (a : Arr) (n i : Nat) (h : i + n ≤ 64 * a.length) :
    writeGo a n i = some ((List.range' i n).map fun j => bitChar (bitAt a j)) := by
  induction n generalizing i with
  | zero => rfl
  | succ n ih =>
    simp only [writeGo]
    rw [testBit_spec a i (by omega), Option.bind_some, ih (i + 1) (by omega), List.range'_succ]
    rfl

theorem toStr_spec (v : Bv) (wf : v.WF) :
    toStr v = .ok ('#' :: '*' :: (bools v.size v.bits).map bitChar) := by
  unfold toStr
  rw [writeGo_spec _ _ _ (by have := wf.cap; omega), bools, List.map_map, List.range_eq_range']
  rfl

theorem parseGo_ok (l : List Bool) (i : Nat) (a : Arr) : parseGo (l.map bitChar) i a = (listGo l i a).map some := by
  induction l generalizing i a with
  | nil => rfl
  | cons b l ih =>
    rcases b with _ | _
    · show parseGo ('0' :: l.map bitChar) i a = _
      simp only [parseGo, listGo, if_true]
      rw [if_neg (by simp)]
      rcases resetBit a i with _ | a1
      · rfl
      · exact ih (i + 1) a1
    · show parseGo ('1' :: l.map bitChar) i a = _
      simp only [parseGo, listGo, if_true]
      rw [if_neg (by decide)]
      rcases setBit a i with _ | a1
      · rfl
      · exact ih (i + 1) a1

theorem parseGo_bad (s : List Char) (i : Nat) (a : Arr) (h : i + s.length ≤ 64 * a.length)
    (hb : ¬ ∀ c ∈ s, c = '0' ∨ c = '1') : parseGo s i a = some none := by
  induction s generalizing i a with
  | nil => exact absurd (fun c hc => by cases hc) hb
  | cons c s ih =>
    simp only [List.length_cons] at h
    simp only [parseGo]
    by_cases h0 : c = '0'
    · obtain ⟨a1, e1, l1, _⟩ := resetBit_spec a i (by omega)
      rw [if_pos h0, e1, Option.bind_some]
      exact ih _ _ (by omega) (fun hh => hb (fun d hd => by
        rcases List.mem_cons.1 hd with rfl | hd
        · exact .inl h0
        · exact hh d hd))
    · rw [if_neg h0]
      by_cases h1 : c = '1'
      · obtain ⟨a1, e1, l1, _⟩ := setBit_spec a i (by omega)
        rw [if_pos h1, e1, Option.bind_some]
        exact ih _ _ (by omega) (fun hh => hb (fun d hd => by
          rcases List.mem_cons.1 hd with rfl | hd
          · exact .inr h1
          · exact hh d hd))
      · rw [if_neg h1]

theorem bits_of_chars (s : List Char) (h : ∀ c ∈ s, c = '0' ∨ c = '1') : ∃ l : List Bool, s = l.map bitChar := by
  induction s with
  | nil => exact ⟨[], rfl⟩
  | cons c s ih =>
    obtain ⟨l, e⟩ := ih (fun d hd => h d (by simp [hd]))
    rcases h c (by simp) with rfl | rfl
    · exact ⟨false :: l, by rw [e]; rfl⟩
    · exact ⟨true :: l, by rw [e]; rfl⟩

theorem ofStr_good (l : List Bool) :
    ∃ v, ofStr ('#' :: '*' :: l.map bitChar) = .ok (some v) ∧ v.WF ∧ v.immutable = false ∧ bools v.size v.bits = l := by
  obtain ⟨v, e, wf, hi, hs, hb⟩ := ofList_spec l
  refine ⟨v, ?_, wf, hi, hb⟩
  unfold ofStr
  rw [if_neg (by simp), if_neg (by simp)]
  simp only [List.length_cons, List.length_map, Nat.add_sub_cancel, List.drop_succ_cons, List.drop_zero]
  rw [show l.length + 1 + 1 - 2 = l.length by omega]
  unfold ofList at e
  rcases hm : makeBv l.length false with u | m | _
  · rw [hm] at e
    simp only [Res.bind] at e ⊢
    rw [parseGo_ok]
    rcases hg : listGo l 0 u.bits with _ | a
    · rw [hg] at e; cases e
    · rw [hg] at e
      simp only [Res.ofOption, Option.map_some] at e ⊢
      injection e with e
      rw [← e]
  · rw [hm] at e; cases e
  · rw [hm] at e; cases e

theorem ofStr_bad (s : List Char) (h : ¬ ∃ l : List Bool, s = '#' :: '*' :: l.map bitChar) : ofStr s = .ok none := by
  unfold ofStr
  by_cases h1 : s.length < 2
  · rw [if_pos h1]
  rw [if_neg h1]
  by_cases h2 : s.take 2 ≠ ['#', '*']
  · rw [if_pos h2]
  rw [if_neg h2]
  match s, h1, h2, h with
  | [], h1, _, _ => exact absurd (by decide) h1
  | [_], h1, _, _ => exact absurd (by simp) h1
  | c :: d :: s, _, h2, h =>
    have h2 : [c, d] = ['#', '*'] := by simpa using h2
    injection h2 with hc hd
    injection hd with hd _
    subst hc; subst hd
    have hbad : ¬ ∀ c ∈ s, c = '0' ∨ c = '1' := by
      intro hh
      obtain ⟨l, e⟩ := bits_of_chars s hh
      exact h ⟨l, by rw [e]⟩
    obtain ⟨v, e, wf, hs, _, _⟩ := makeBv_spec s.length false
    simp only [List.length_cons, List.drop_succ_cons, List.drop_zero]
    rw [show s.length + 1 + 1 - 2 = s.length by omega, e]
    simp only [Res.bind]
    rw [parseGo_bad s 0 v.bits (by have := wf.cap; omega) hbad]
    rfl

/-! ### Copy -/

theorem slice_get (l : List Bool) (s e i : Nat) (h : s + i < e) : (slice l s e)[i]? = l[s + i]? := by
  unfold slice
  rw [List.getElem?_drop, List.getElem?_take, if_pos h]

theorem slice_length (l : List Bool) (s e : Nat) (h : e ≤ l.length) : (slice l s e).length = e - s := by
  unfold slice
  rw [List.length_drop, List.length_take]; omega

theorem copy_range (v : Bv) (wf : v.WF) (s e : Nat) (hse : s ≤ e) (he : e ≤ v.size) :
    ∃ w, ((makeBv (e - s) false).bind fun vv =>
        (Res.ofOption (copyX vv.bits 0 (some v.bits) s e)).bind fun a => .ok { vv with bits := a }) = .ok w ∧
      w.WF ∧ w.immutable = false ∧ w.size = e - s ∧ ∀ i, i < e - s → bitAt w.bits i = bitAt v.bits (s + i) := by
  obtain ⟨u, eu, wu, hs, hi, _⟩ := makeBv_spec (e - s) false
  have hcv := wf.cap
  have hcu := wu.cap
  obtain ⟨a, ea, la, ba⟩ := copyX_spec u.bits 0 (some v.bits) s e hse (by simp only [Option.getD_some]; omega)
    (by omega) (fun h => by cases h)
  rw [eu]
  simp only [Res.bind, ea, Res.ofOption]
  refine ⟨_, rfl, ⟨la.trans wu.words, fun i h => ?_⟩, hi, hs, fun i h => ?_⟩
  · have h : u.size ≤ i := h
    show bitAt a i = false
    rw [ba, if_neg (by omega), wu.clean i h]
  · show bitAt a i = _
    rw [ba, if_pos (by omega), Option.getD_some, Nat.sub_zero]

theorem checkRange_ok (s e n : Nat) (h1 : s ≤ e) (h2 : e ≤ n) : checkRange s e n = .ok (s, e) := by
  unfold checkRange
  rw [if_neg (by omega), if_neg (by omega), if_neg (by omega), if_neg (by omega), Int.toNat_natCast, Int.toNat_natCast]

theorem checkRange_default (s n : Nat) (h1 : s ≤ n) : checkRange s (-1) n = .ok (s, n) := by
  unfold checkRange
  rw [if_neg (by omega), if_pos (by omega), Int.toNat_natCast]

theorem checkRange_shape (s e : Int) (n : Nat) :
    (∃ a b : Nat, checkRange s e n = .ok (a, b) ∧ a ≤ b ∧ b ≤ n ∧ s = a ∧ (e = b ∨ (e < 0 ∧ b = n))) ∨
    ((∃ m, checkRange s e n = .err m) ∧ (s < 0 ∨ n < s ∨ n < e ∨ (0 ≤ e ∧ e < s))) := by
  unfold checkRange
  by_cases h1 : s < 0 ∨ s > n
  · rw [if_pos h1]; exact .inr ⟨⟨_, rfl⟩, by omega⟩
  rw [if_neg h1]
  by_cases h2 : e < 0
  · rw [if_pos h2]; exact .inl ⟨_, _, rfl, by omega, by omega, by omega, .inr ⟨h2, rfl⟩⟩
  rw [if_neg h2]
  by_cases h3 : e > n
  · rw [if_pos h3]; exact .inr ⟨⟨_, rfl⟩, by omega⟩
  rw [if_neg h3]
  by_cases h4 : e < s
  · rw [if_pos h4]; exact .inr ⟨⟨_, rfl⟩, by omega⟩
  rw [if_neg h4]
  exact .inl ⟨_, _, rfl, by omega, by omega, by omega, .inl (by omega)⟩

theorem bvCopy_spec (v : Bv) (wf : v.WF) (s e : Nat) (hse : s ≤ e) (he : e ≤ v.size) :
    ∃ w, bvCopy v s e = .ok w ∧ w.WF ∧ w.immutable = false ∧ w.size = e - s ∧
      ∀ i, i < e - s → bitAt w.bits i = bitAt v.bits (s + i) := by
  unfold bvCopy
  rw [checkRange_ok s e v.size hse he]
  exact copy_range v wf s e hse he

theorem bvCopy_all (v : Bv) (wf : v.WF) :
    ∃ w, bvCopy v 0 (-1) = .ok w ∧ w.WF ∧ w.immutable = false ∧ w.size = v.size ∧
      ∀ i, bitAt w.bits i = bitAt v.bits i := by
  unfold bvCopy
  have h := checkRange_default 0 v.size (Nat.zero_le _)
  have e0 : ((0 : Nat) : Int) = 0 := rfl
  rw [e0] at h
  rw [h]
  obtain ⟨w, e1, wf1, hi, hs, hb⟩ := copy_range v wf 0 v.size (Nat.zero_le _) (Nat.le_refl _)
  refine ⟨w, e1, wf1, hi, hs, fun i => ?_⟩
  by_cases h : i < v.size
  · rw [hb i (by omega), Nat.zero_add]
  · rw [wf1.clean i (by omega), wf.clean i (by omega)]

/-- `bitvector-copy!`, when the source is another bitvector or lies at or after the target
position in the same one. -/
theorem bvCopyX_spec (d : Bv) (wd : d.WF) (hd : d.immutable = false) (src : Option Bv) (ws : (src.getD d).WF)
    (ds s e : Nat) (hse : s ≤ e) (he : e ≤ (src.getD d).size) (hds : ds + (e - s) ≤ d.size)
    (hov : src = none → ds ≤ s) :
    ∃ w, bvCopyX d ds src s e = .ok w ∧ w.WF ∧ w.immutable = false ∧ w.size = d.size ∧
      ∀ i, bitAt w.bits i = if ds ≤ i ∧ i < ds + (e - s) then bitAt (src.getD d).bits (s + (i - ds)) else bitAt d.bits i := by
  unfold bvCopyX
  rw [if_neg (by simp [hd]), checkRange_ok s e _ hse he]
  simp only [Res.bind]
  rw [if_neg (by omega), Int.toNat_natCast]
  have hc := ws.cap
  have hcd := wd.cap
  have eg : (src.map Bv.bits).getD d.bits = (src.getD d).bits := by rcases src with _ | _ <;> rfl
  obtain ⟨a, ea, la, ba⟩ := copyX_spec d.bits ds (src.map Bv.bits) s e hse (by rw [eg]; omega) (by omega)
    (fun h => hov (by rcases src with _ | _; · rfl
                      · cases h))
  rw [eg] at ba
  rw [ea]
  simp only [Res.ofOption]
  refine ⟨_, rfl, ⟨la.trans wd.words, fun i h => ?_⟩, hd, rfl, ba⟩
  have h : d.size ≤ i := h
  show bitAt a i = false
  rw [ba, if_neg (by omega), wd.clean i h]

/-! ### Bitwise operations -/

theorem bvOp_spec (op : Op) (v1 v2 : Bv) (w1 : v1.WF) (w2 : v2.WF) (hm : v1.immutable = false)
    (hs : v1.size = v2.size) :
    ∃ w, bvOp op v1 v2 = .ok w ∧ w.WF ∧ w.immutable = false ∧ w.size = v1.size ∧
      ∀ i, i < v1.size → bitAt w.bits i = op.truth (bitAt v1.bits i) (bitAt v2.bits i) := by
  unfold bvOp
  rw [if_neg (by simp [hm]), if_neg (by simpa using hs)]
  have c1 := w1.cap
  have c2 := w2.cap
  obtain ⟨a, ea, la, ba⟩ := operate_zero v1.bits op none (some v2.bits) v1.size (by omega)
    (by simp only [Option.getD_none]; omega) (by simp only [Option.getD_some]; omega)
  rw [ea]
  simp only [Res.ofOption, Res.bind]
  refine ⟨_, rfl, ⟨la.trans w1.words, fun i h => ?_⟩, hm, rfl, fun i h => ?_⟩
  · have h : v1.size ≤ i := h
    show bitAt a i = false
    rw [ba, if_neg (by omega), w1.clean i h, ite_self]
  · show bitAt a i = _
    rw [ba, if_pos h]; rfl

theorem bvNot_spec (v : Bv) (wf : v.WF) :
    ∃ w, bvNot v = .ok w ∧ w.WF ∧ w.immutable = false ∧ w.size = v.size ∧
      ∀ i, i < v.size → bitAt w.bits i = !bitAt v.bits i := by
  obtain ⟨u, eu, wu, iu, su, bu⟩ := bvCopy_all v wf
  unfold bvNot
  rw [eu]
  simp only [Res.bind]
  have c1 := wu.cap
  obtain ⟨a, ea, la, ba⟩ := operate_zero u.bits .not1 none none u.size (by omega)
    (by simp only [Option.getD_none]; omega) (by simp only [Option.getD_none]; omega)
  rw [ea]
  simp only [Res.ofOption]
  refine ⟨_, rfl, ⟨la.trans wu.words, fun i h => ?_⟩, iu, su, fun i h => ?_⟩
  · have h : u.size ≤ i := h
    show bitAt a i = false
    rw [ba, if_neg (by omega), wu.clean i h, ite_self]
  · show bitAt a i = _
    rw [ba, if_pos (by omega), ← bu i]; rfl

theorem bvBin_spec (op : Op) (v1 v2 : Bv) (w1 : v1.WF) (w2 : v2.WF) (hs : v1.size = v2.size) :
    ∃ w, bvBin op v1 v2 = .ok w ∧ w.WF ∧ w.immutable = false ∧ w.size = v1.size ∧
      ∀ i, i < v1.size → bitAt w.bits i = op.truth (bitAt v1.bits i) (bitAt v2.bits i) := by
  obtain ⟨u, eu, wu, iu, su, bu⟩ := bvCopy_all v1 w1
  obtain ⟨w, ew, ww, iw, sw, bw⟩ := bvOp_spec op u v2 wu w2 iu (su.trans hs)
  refine ⟨w, by unfold bvBin; rw [eu]; exact ew, ww, iw, sw.trans su, fun i h => ?_⟩
  rw [bw i (by omega), bu i]

theorem ifGo_spec (x y z : Arr) (n w : Nat) (r : Arr) (hx : w + n ≤ x.length) (hy : w + n ≤ y.length)
    (hz : w + n ≤ z.length) (hr : w + n ≤ r.length) :
    ∃ r', ifGo x y z n w r = some r' ∧ r'.length = r.length ∧
      ∀ j, bitAt r' j = if 64 * w ≤ j ∧ j < 64 * w + 64 * n then (if bitAt x j then bitAt y j else bitAt z j) else bitAt r j := by
  induction n generalizing w r with
  | zero => exact ⟨r, rfl, rfl, fun j => by rw [if_neg (by omega)]⟩
  | succ n ih =>
    obtain ⟨a, ha⟩ := rd_some x w (by omega)
    obtain ⟨b, hb⟩ := rd_some y w (by omega)
    obtain ⟨c, hc⟩ := rd_some z w (by omega)
    obtain ⟨r1, e1, l1, b1⟩ := wr_spec r w ((a &&& b) ||| (~~~ a &&& c)) (by omega)
    obtain ⟨r2, e2, l2, b2⟩ := ih (w + 1) r1 (by omega) (by omega) (by omega) (by omega)
    refine ⟨r2, by simp only [ifGo, ha, hb, hc, Option.bind_some, e1, e2], by omega, fun j => ?_⟩
    rw [b2, b1]
    have h64 : j % 64 < 64 := by omega
    by_cases h : j / 64 = w
    · rw [if_neg (by omega), if_pos h, if_pos (show 64 * w ≤ j ∧ j < 64 * w + 64 * (n + 1) by omega)]
      rw [BitVec.getLsbD_or, BitVec.getLsbD_and, BitVec.getLsbD_and, BitVec.getLsbD_not, decide_eq_true h64,
        word_of_bit (by rw [h]; exact ha), word_of_bit (by rw [h]; exact hb), word_of_bit (by rw [h]; exact hc)]
      cases bitAt x j <;> cases bitAt y j <;> cases bitAt z j <;> rfl
    · by_cases h2 : 64 * w ≤ j ∧ j < 64 * w + 64 * (n + 1)
      · rw [if_pos (by omega), if_pos h2]
      · rw [if_neg (by omega), if_neg h, if_neg h2]

theorem bvIf_spec (x y z : Bv) (wx : x.WF) (wy : y.WF) (wz : z.WF) (hy : y.size = x.size) (hz : z.size = x.size) :
    ∃ w, bvIf x y z = .ok w ∧ w.WF ∧ w.immutable = false ∧ w.size = x.size ∧
      ∀ i, i < x.size → bitAt w.bits i = if bitAt x.bits i then bitAt y.bits i else bitAt z.bits i := by
  obtain ⟨u, eu, wu, su, iu, _⟩ := makeBv_spec x.size false
  have lx := wx.words; have ly := wy.words; have lz := wz.words; have lu := wu.words
  rw [hy] at ly; rw [hz] at lz; rw [su] at lu
  unfold bvIf
  rw [eu]
  simp only [Res.bind]
  rw [if_neg (by simpa using hy), if_neg (by simpa using hz)]
  obtain ⟨a, ea, la, ba⟩ := ifGo_spec x.bits y.bits z.bits (numWords x.size) 0 u.bits (by omega) (by omega) (by omega) (by omega)
  rw [ea]
  simp only [Res.ofOption]
  refine ⟨_, rfl, ⟨la.trans wu.words, fun i h => ?_⟩, iu, su, fun i h => ?_⟩
  · have h : u.size ≤ i := h
    show bitAt a i = false
    rw [ba, wx.clean i (by omega), wz.clean i (by omega), wu.clean i h]
    simp
  · show bitAt a i = _
    rw [ba, if_pos (by unfold numWords; omega)]

/-! ### Runs -/

theorem runGo_spec (b : Bool) (a : Arr) (n i c : Nat) (h : i + n ≤ 64 * a.length) :
    runGo b a n i c = some (c + (((List.range' i n).map (bitAt a)).takeWhile (fun x => x == b)).length) := by
  induction n generalizing i c with
  | zero => rfl
  | succ n ih =>
    simp only [runGo]
    rw [testBit_spec a i (by omega), Option.bind_some, List.range'_succ, List.map_cons]
    rcases hb : bitAt a i with _ | _ <;> rcases b with _ | _ <;>
      simp [ih (i + 1) (c + 1) (by omega)] <;> omega

theorem bvCountRun_spec (b : Bool) (v : Bv) (wf : v.WF) (i : Nat) (hi : i ≤ v.size) :
    bvCountRun b v i = .ok (((bools v.size v.bits).drop i).takeWhile (fun x => x == b)).length := by
  unfold bvCountRun
  rw [if_neg (by omega), Int.toNat_natCast, runGo_spec _ _ _ _ _ (by have := wf.cap; omega)]
  have : (List.range' i (v.size - i)).map (bitAt v.bits) = (bools v.size v.bits).drop i := by
    rw [bools, ← List.map_drop, List.range_eq_range', List.drop_range']
    simp
  rw [this, Nat.zero_add]
  rfl

/-! ### Fields -/

theorem fieldGo_spec (f : Bool → Bool) (n i : Nat) (a : Arr) (h : i + n ≤ 64 * a.length) :
    ∃ a', fieldGo f n i a = some a' ∧ a'.length = a.length ∧
      ∀ j, bitAt a' j = if i ≤ j ∧ j < i + n then f (bitAt a j) else bitAt a j := by
  induction n generalizing i a with
  | zero => exact ⟨a, rfl, rfl, fun j => by rw [if_neg (by omega)]⟩
  | succ n ih =>
    obtain ⟨a1, e1, l1, b1⟩ := putBit_spec a i (f (bitAt a i)) (by omega)
    obtain ⟨a2, e2, l2, b2⟩ := ih (i + 1) a1 (by omega)
    refine ⟨a2, by simp only [fieldGo]; rw [testBit_spec a i (by omega), Option.bind_some, e1, Option.bind_some, e2],
      by omega, fun j => ?_⟩
    rw [b2, b1]
    by_cases hj : j = i
    · rw [if_neg (by omega), if_pos hj, if_pos (by omega), hj]
    · by_cases h2 : i ≤ j ∧ j < i + (n + 1)
      · rw [if_pos (by omega), if_neg hj, if_pos h2]
      · rw [if_neg (by omega), if_neg hj, if_neg h2]

theorem bvField_spec (f : Bool → Bool) (v : Bv) (wf : v.WF) (s e : Nat) (hse : s ≤ e) (he : e ≤ v.size) :
    ∃ w, bvField f v s e = .ok w ∧ w.WF ∧ w.immutable = v.immutable ∧ w.size = v.size ∧
      ∀ i, bitAt w.bits i = if s ≤ i ∧ i < e then f (bitAt v.bits i) else bitAt v.bits i := by
  unfold bvField
  rw [checkRange_ok s e _ hse he]
  simp only [Res.bind]
  obtain ⟨a, ea, la, ba⟩ := fieldGo_spec f (e - s) s v.bits (by have := wf.cap; omega)
  rw [ea]
  simp only [Res.ofOption]
  rw [show s + (e - s) = e by omega] at ba
  refine ⟨_, rfl, ⟨la.trans wf.words, fun i h => ?_⟩, rfl, rfl, ba⟩
  have h : v.size ≤ i := h
  show bitAt a i = false
  rw [ba, if_neg (by omega), wf.clean i h]

/-! ### Shift and rotate -/

theorem bvShift_spec (v : Bv) (wf : v.WF) (count : Int) (bit : Bool) :
    ∃ w, bvShift v count bit = .ok w ∧ w.WF ∧ w.immutable = false ∧ w.size = v.size ∧
      ∀ i : Nat, i < v.size → bitAt w.bits i =
        if 0 ≤ (i : Int) + count ∧ (i : Int) + count < v.size then bitAt v.bits ((i : Int) + count).toNat else bit := by
  obtain ⟨r, er, wr, sr, ir, br⟩ := makeBv_spec v.size bit
  unfold bvShift
  rw [er]
  simp only [Res.bind]
  by_cases h1 : (v.size : Int) ≤ count
  · rw [if_pos h1]
    exact ⟨r, rfl, wr, ir, sr, fun i hi => by rw [if_neg (by omega)]; exact br i hi⟩
  rw [if_neg h1]
  by_cases h2 : 0 ≤ count
  · rw [if_pos h2]
    obtain ⟨c, rfl⟩ := Int.eq_ofNat_of_zero_le h2
    have e0 : bvCopyX r 0 (some v) (c : Int) (-1) = bvCopyX r ((0 : Nat) : Int) (some v) (c : Int) (v.size : Int) := by
      unfold bvCopyX
      rw [Option.getD_some, checkRange_default c v.size (by omega), checkRange_ok c v.size v.size (by omega) (Nat.le_refl _)]
      rfl
    obtain ⟨w, ew, ww, iw, sw, bw⟩ := bvCopyX_spec r wr ir (some v) wf 0 c v.size (by omega) (Nat.le_refl _)
      (by omega) (fun h => by cases h)
    refine ⟨w, by rw [e0]; exact ew, ww, iw, sw.trans sr, fun i hi => ?_⟩
    rw [bw, Option.getD_some]
    by_cases h3 : i + c < v.size
    · rw [if_pos (by omega), if_pos (by omega)]; congr 1; omega
    · rw [if_neg (by omega), if_neg (by omega), br i hi]
  rw [if_neg h2]
  by_cases h3 : -(v.size : Int) < count
  · rw [if_pos h3]
    obtain ⟨c, hc⟩ : ∃ c : Nat, count = -(c : Int) := ⟨(-count).toNat, by omega⟩
    subst hc
    have e0 : bvCopyX r (-(-(c : Int))) (some v) 0 (v.size + -(c : Int))
        = bvCopyX r (c : Int) (some v) ((0 : Nat) : Int) ((v.size - c : Nat) : Int) := by
      congr 1 <;> omega
    obtain ⟨w, ew, ww, iw, sw, bw⟩ := bvCopyX_spec r wr ir (some v) wf c 0 (v.size - c) (by omega)
      (by rw [Option.getD_some]; omega) (by omega) (fun h => by cases h)
    refine ⟨w, by rw [e0]; exact ew, ww, iw, sw.trans sr, fun i hi => ?_⟩
    rw [bw, Option.getD_some]
    by_cases h3 : c ≤ i
    · rw [if_pos (by omega), if_pos (by omega)]; congr 1; omega
    · rw [if_neg (by omega), if_neg (by omega), br i hi]
  · rw [if_neg h3]
    exact ⟨r, rfl, wr, ir, sr, fun i hi => by rw [if_neg (by omega)]; exact br i hi⟩

theorem bvRotate_spec (v : Bv) (wf : v.WF) (count : Int) (s e : Nat) (hse : s ≤ e) (he : e ≤ v.size) :
    ∃ w, bvRotate v count s e = .ok w ∧ w.WF ∧ w.size = v.size ∧
      ∀ i : Nat, i < v.size → bitAt w.bits i =
        if s ≤ i ∧ i < e then bitAt v.bits (s + ((((i - s : Nat) : Int) + count) % ((e - s : Nat) : Int)).toNat)
        else bitAt v.bits i := by
  unfold bvRotate
  by_cases h0 : count = 0 ∨ s = e
  · rw [if_pos h0]
    refine ⟨v, rfl, wf, rfl, fun i hi => ?_⟩
    by_cases h : s ≤ i ∧ i < e
    · rw [if_pos h]
      rcases h0 with rfl | h0
      · rw [Int.add_zero]
        have : (((i - s : Nat) : Int)) % ((e - s : Nat) : Int) = ((i - s : Nat) : Int) :=
          Int.emod_eq_of_lt (by omega) (by omega)
        rw [this]; congr 1; omega
      · omega
    · rw [if_neg h]
  rw [if_neg h0]
  obtain ⟨r, er, wr, ir, sr, br⟩ := bvCopy_all v wf
  rw [er]
  simp only [Res.bind]
  have hsz : (e : Int) - (s : Int) = ((e - s : Nat) : Int) := by omega
  rw [hsz]
  have hpos : (0 : Int) < ((e - s : Nat) : Int) := by omega
  have m1 := Int.emod_nonneg count (Int.ne_of_gt hpos)
  have m2 := Int.emod_lt_of_pos count hpos
  obtain ⟨k, hk⟩ := Int.eq_ofNat_of_zero_le m1
  rw [hk] at m2 ⊢
  have e1 : bvCopyX r (s : Int) (some v) ((s : Int) + (k : Int)) (e : Int)
      = bvCopyX r (s : Int) (some v) ((s + k : Nat) : Int) (e : Int) := by congr 1
  obtain ⟨w, ew, ww, iw, sw, bw⟩ := bvCopyX_spec r wr ir (some v) wf s (s + k) e (by omega) he (by omega)
    (fun h => by cases h)
  rw [e1, ew]
  simp only []
  have e2 : bvCopyX w ((e : Int) - (k : Int)) (some v) (s : Int) ((s : Int) + (k : Int))
      = bvCopyX w ((e - k : Nat) : Int) (some v) (s : Int) ((s + k : Nat) : Int) := by
    congr 1; omega
  obtain ⟨u, eu, wu, iu, su, bu⟩ := bvCopyX_spec w ww iw (some v) wf (e - k) s (s + k) (by omega)
    (by rw [Option.getD_some]; omega) (by omega) (fun h => by cases h)
  refine ⟨u, by rw [e2]; exact eu, wu, by omega, fun i hi => ?_⟩
  rw [bu, bw, br, Option.getD_some]
  by_cases h : s ≤ i ∧ i < e
  · rw [if_pos h]
    have hq : (((i - s : Nat) : Int) + count) % ((e - s : Nat) : Int)
        = ((((i - s : Nat) : Int) + (k : Int)) % ((e - s : Nat) : Int)) := by
      rw [← hk, Int.add_emod_emod]
    rw [hq]
    have hc : ((i - s : Nat) : Int) + (k : Int) = ((i - s + k : Nat) : Int) := by omega
    rw [hc, ← Int.natCast_emod, Int.toNat_natCast]
    by_cases h2 : i < e - k
    · rw [if_neg (by omega), if_pos (by omega), Nat.mod_eq_of_lt (by omega)]; congr 1; omega
    · rw [if_pos (by omega)]
      rw [Nat.mod_eq_sub_mod (by omega), Nat.mod_eq_of_lt (by omega)]
      congr 1; omega
  · rw [if_neg h, if_neg (by omega), if_neg (by omega)]

/-! ### Comparison -/

theorem compareGo_zero (a b : Arr) (n w : Nat) (ha : w + n ≤ a.length) (hb : w + n ≤ b.length) :
    ∃ r, compareGo a b n w = some r ∧ (r = 0 ↔ ∀ i, w ≤ i → i < w + n → a[i]? = b[i]?) := by
  induction n generalizing w with
  | zero => exact ⟨0, rfl, fun _ i h1 h2 => by omega, fun _ => rfl⟩
  | succ n ih =>
    obtain ⟨x, hx⟩ := rd_some a w (by omega)
    obtain ⟨y, hy⟩ := rd_some b w (by omega)
    simp only [compareGo, hx, hy, Option.bind_some]
    by_cases h1 : x.toNat < y.toNat
    · rw [if_pos h1]
      refine ⟨-1, rfl, fun h => (by cases h), fun h => ?_⟩
      have := h w (by omega) (by omega)
      rw [hx, hy] at this
      injection this with this
      rw [this] at h1; omega
    · rw [if_neg h1]
      by_cases h2 : x.toNat > y.toNat
      · rw [if_pos h2]
        refine ⟨1, rfl, fun h => (by cases h), fun h => ?_⟩
        have := h w (by omega) (by omega)
        rw [hx, hy] at this
        injection this with this
        rw [this] at h2; omega
      · rw [if_neg h2]
        obtain ⟨r, e, hr⟩ := ih (w + 1) (by omega) (by omega)
        refine ⟨r, e, hr.trans ⟨fun h i i1 i2 => ?_, fun h i i1 i2 => h i (by omega) (by omega)⟩⟩
        by_cases hi : i = w
        · rw [hi, hx, hy]
          congr 1
          exact BitVec.eq_of_toNat_eq (by omega)
        · exact h i (by omega) (by omega)

theorem arr_eq_of_bits {a b : Arr} (hl : a.length = b.length) (h : ∀ i, bitAt a i = bitAt b i) : a = b := by
  apply List.ext_getElem?
  intro w
  by_cases hw : w < a.length
  · obtain ⟨x, hx⟩ := rd_some a w hw
    obtain ⟨y, hy⟩ := rd_some b w (by omega)
    rw [hx, hy]
    congr 1
    apply BitVec.eq_of_getLsbD_eq
    intro j hj
    rw [← bitAt_word hx j hj, ← bitAt_word hy j hj, h]
  · rw [List.getElem?_eq_none (by omega), List.getElem?_eq_none (by omega)]

theorem bvCompare_spec (x y : Bv) (wx : x.WF) (wy : y.WF) :
    ∃ r, bvCompare x y = .ok r ∧ (r = 0 ↔ bools x.size x.bits = bools y.size y.bits) := by
  unfold bvCompare
  by_cases h1 : x.size < y.size
  · rw [if_pos h1]
    refine ⟨-1, rfl, fun h => (by cases h), fun h => ?_⟩
    have := congrArg List.length h
    rw [bools_length, bools_length] at this; omega
  rw [if_neg h1]
  by_cases h2 : x.size > y.size
  · rw [if_pos h2]
    refine ⟨1, rfl, fun h => (by cases h), fun h => ?_⟩
    have := congrArg List.length h
    rw [bools_length, bools_length] at this; omega
  rw [if_neg h2]
  have hs : x.size = y.size := by omega
  have lx := wx.words; have ly := wy.words
  rw [← hs] at ly
  obtain ⟨r, e, hr⟩ := compareGo_zero x.bits y.bits (numWords x.size) 0 (by omega) (by omega)
  rw [e]
  refine ⟨r, rfl, hr.trans ⟨fun h => ?_, fun h i _ _ => ?_⟩⟩
  · have : x.bits = y.bits := by
      apply List.ext_getElem?
      intro w
      by_cases hw : w < numWords x.size
      · exact h w (by omega) (by omega)
      · rw [List.getElem?_eq_none (by omega), List.getElem?_eq_none (by omega)]
    rw [this, hs]
  · have : x.bits = y.bits := by
      apply arr_eq_of_bits (by omega)
      intro j
      by_cases hj : j < x.size
      · have := congrArg (fun l => l[j]?) h
        rw [bools_get _ _ _ hj, bools_get _ _ _ (by omega)] at this
        exact Option.some.inj this
      · rw [wx.clean j (by omega), wy.clean j (by omega)]
    rw [this]

end Gauche.Bits

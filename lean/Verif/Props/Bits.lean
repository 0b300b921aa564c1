import Verif.Proof.BitsVec
/-!
C79: the range operations on packed bit arrays (src/bits.c) do to each bit of the range what
they say, and nothing else.
C80: bitvectors are lists of booleans.
-/
namespace Gauche.Bits
open Spec

/-! ## C79 -/

/-- Population count of a word by the folding trick is the number of its one bits. -/
theorem C79_count_word (w : Word) : countWord w = ((List.range 64).filter (fun i => w.getLsbD i)).length :=
  countWord_pop w

/-- `Scm_BitsAny`, `Scm_BitsEvery` for every range inside the array. -/
theorem C79_any_every (a : List (BitVec 64)) (s e : Nat) (hse : s ≤ e) (he : e ≤ 64 * a.length) :
    (∃ r, any a s e = some r ∧ (r = true ↔ ∃ i, s ≤ i ∧ i < e ∧ bitAt a i = true)) ∧
    (∃ r, every a s e = some r ∧ (r = true ↔ ∀ i, s ≤ i → i < e → bitAt a i = true)) :=
  ⟨any_spec a s e hse he, every_spec a s e hse he⟩

example : any [0#64, 0x10#64] 3 70 = some true ∧ any [0#64, 0x10#64] 3 68 = some false
    ∧ every [0xf0#64] 4 8 = some true := by decide +kernel

/-- `Scm_BitsCount1`, `Scm_BitsCount0` for every range inside the array. -/
theorem C79_count (v : Bool) (a : List (BitVec 64)) (s e : Nat) (hse : s ≤ e) (he : e ≤ 64 * a.length) :
    count v a s e = some (countOf a v s e) := by
  rw [count_spec v a s e hse he]; rfl

example : count true [0xffff#64, 0x10#64] 3 69 = some 14 ∧ countOf [0xffff#64, 0x10#64] true 3 69 = 14 := by
  decide +kernel

/-- `Scm_BitsHighest1`, `Scm_BitsHighest0` for every range inside the array. -/
theorem C79_highest (v : Bool) (a : List (BitVec 64)) (s e : Nat) (hse : s ≤ e) (he : e ≤ 64 * a.length) :
    ∃ r, highestBit v a s e = some r ∧ IsHighest a v s e r := by
  have := highest_ok v a s e hse he
  rcases this with ⟨h1, h2⟩ | ⟨m, h1, h2, h3, h4, h5⟩
  · refine ⟨-1, h1, .inl ⟨rfl, fun i x y hv => ?_⟩⟩
    have := h2 i x y
    simp [pv, hv] at this
  · refine ⟨m, h1, .inr ⟨m, rfl, h2, h3, by simpa [pv] using h4, fun i x y hv => ?_⟩⟩
    have := h5 i x y
    simp [pv, hv] at this

example : highestBit true [0xffff#64, 0x11#64, 0#64] 3 180 = some 68 := by decide +kernel

/-- `Scm_BitsLowest1`, `Scm_BitsLowest0` for the ranges that begin at a word boundary or lie in
one word.  (Every caller in the tree starts at 0.) -/
theorem C79_lowest_partial (v : Bool) (a : List (BitVec 64)) (s e : Nat) (hse : s ≤ e) (he : e ≤ 64 * a.length)
    (hal : s % 64 = 0 ∨ s / 64 = (e - 1) / 64) :
    ∃ r, lowestBit v a s e = some r ∧ IsLowest a v s e r := by
  have := lowest_ok v a s e hse he hal
  rcases this with ⟨h1, h2⟩ | ⟨m, h1, h2, h3, h4, h5⟩
  · refine ⟨-1, h1, .inl ⟨rfl, fun i x y hv => ?_⟩⟩
    have := h2 i x y
    simp [pv, hv] at this
  · refine ⟨m, h1, .inr ⟨m, rfl, h2, h3, by simpa [pv] using h4, fun i x y hv => ?_⟩⟩
    have := h5 i x y
    simp [pv, hv] at this

example : lowestBit true [0#64, 0#64, 0x30#64] 0 180 = some 132 := by decide +kernel

/-- The remaining ranges are searched wrongly: the word loop starts again at the first word
without its mask, and a bit below `start` is returned. -/
theorem C79_bug_lowest_below_start :
    lowestBit true [1#64, 0x4#64] 1 128 = some 0 ∧ ¬ IsLowest [1#64, 0x4#64] true 1 128 0 := by
  refine ⟨by decide +kernel, ?_⟩
  rintro (⟨h, _⟩ | ⟨k, h, h1, _⟩)
  · cases h
  · omega

/-- `Scm_BitsFill` for every range that ends before the end of the array. -/
theorem C79_fill_partial (a : List (BitVec 64)) (s e : Nat) (b : Bool) (hse : s ≤ e) (he : e < 64 * a.length) :
    ∃ a', fill a s e b = some a' ∧ a'.length = a.length ∧
      ∀ j, bitAt a' j = if s ≤ j ∧ j < e then b else bitAt a j :=
  fill_spec a s e b hse he

example : fill [0#64, 0#64] 60 70 true = some [0xf000000000000000#64, 0x3f#64] := by decide +kernel

/-- A fill up to the last bit of the array reads and writes the word after it. -/
theorem C79_bug_fill_past_end (a : List (BitVec 64)) (s : Nat) (b : Bool) (hs : s ≤ 64 * a.length) :
    fill a s (64 * a.length) b = none := fill_end a s b hs

/-- `Scm_BitsCopyX`: from another array, or inside one array (`src = none`) towards lower bit
numbers. -/
theorem C79_copy_partial (t : List (BitVec 64)) (ts : Nat) (src : Option (List (BitVec 64))) (ss se : Nat)
    (hse : ss ≤ se) (hs : se ≤ 64 * (src.getD t).length) (ht : ts + (se - ss) ≤ 64 * t.length)
    (hov : src = none → ts ≤ ss) :
    ∃ t', copyX t ts src ss se = some t' ∧ t'.length = t.length ∧
      ∀ j, bitAt t' j = if ts ≤ j ∧ j < ts + (se - ss) then bitAt (src.getD t) (ss + (j - ts)) else bitAt t j :=
  copyX_spec t ts src ss se hse hs ht hov

example : copyX [0#64, 0#64] 62 (some [0xb#64]) 0 4 = some [0xc000000000000000#64, 0x2#64] := by decide +kernel

/-- Copying inside one array towards higher bit numbers smears the first bits. -/
theorem C79_bug_copy_overlap : copyX [0x1#64] 1 none 0 3 = some [0xf#64] ∧
    ¬ (∀ j, bitAt [0xf#64] j = if 1 ≤ j ∧ j < 4 then bitAt [0x1#64] (j - 1) else bitAt [0x1#64] j) := by
  refine ⟨by decide +kernel, fun h => ?_⟩
  exact absurd (h 2) (by decide +kernel)

/-- `Scm_BitsOperate` from bit 0 (the only start any caller uses), for all sixteen connectives,
also when the result array is one of the operands (`none`). -/
theorem C79_operate_partial (r : List (BitVec 64)) (op : Op) (a b : Option (List (BitVec 64))) (e : Nat)
    (hr : e ≤ 64 * r.length) (ha : e ≤ 64 * (a.getD r).length) (hb : e ≤ 64 * (b.getD r).length) :
    ∃ r', operate r op a b 0 e = some r' ∧ r'.length = r.length ∧
      ∀ j, bitAt r' j = if j < e then op.truth (bitAt (a.getD r) j) (bitAt (b.getD r) j)
        else if j / 64 = e / 64 ∧ e % 64 ≠ 0 then false else bitAt r j :=
  operate_zero r op a b e hr ha hb

example : operate [0xff#64] .andc2 none (some [0x0f#64]) 0 6 = some [0x30#64] := by decide +kernel

/-- `Scm_BitsOperate` on a range that ends in a later word than it starts: the range is right;
the other bits of the first and last word are cleared. -/
theorem C79_operate_multi_partial (r : List (BitVec 64)) (op : Op) (a b : Option (List (BitVec 64))) (s e : Nat)
    (hse : s / 64 < e / 64) (hr : e ≤ 64 * r.length) (ha : e ≤ 64 * (a.getD r).length)
    (hb : e ≤ 64 * (b.getD r).length) :
    ∃ r', operate r op a b s e = some r' ∧ r'.length = r.length ∧
      ∀ j, bitAt r' j = if s ≤ j ∧ j < e then op.truth (bitAt (a.getD r) j) (bitAt (b.getD r) j)
        else if j / 64 = s / 64 ∨ (j / 64 = e / 64 ∧ e % 64 ≠ 0) then false else bitAt r j := by
  obtain ⟨r', h1, h2, _, h3⟩ := operate_multi r op a b s e hse hr ha hb
  exact ⟨r', h1, h2, h3⟩

/-- Inside one word with a start that is not its first bit, the end of the range is ignored. -/
theorem C79_bug_operate_one_word :
    operate [0#64] .ior none (some [0xff#64]) 2 4 = some [0xfc#64] := by decide +kernel

/-- `Scm_BitsEqual` and `Scm_BitsIncludes` on the ranges that begin at a word boundary or end
in a later word. -/
theorem C79_compare_partial (a b : List (BitVec 64)) (s e : Nat) (hse : s ≤ e) (ha : e ≤ 64 * a.length)
    (hb : e ≤ 64 * b.length) (hal : s % 64 = 0 ∨ s / 64 < e / 64) :
    (∃ r, equal a b s e = some r ∧ (r = true ↔ ∀ i, s ≤ i → i < e → bitAt a i = bitAt b i)) ∧
    (∃ r, includes a b s e = some r ∧
      (r = true ↔ ∀ i, s ≤ i → i < e → bitAt b i = true → bitAt a i = true)) := by
  obtain ⟨r1, e1, h1⟩ := compareBits_spec marks_xor a b s e hse ha hb hal
  obtain ⟨r2, e2, h2⟩ := compareBits_spec marks_incl a b s e hse ha hb hal
  refine ⟨⟨r1, e1, h1.trans ?_⟩, ⟨r2, e2, h2.trans ?_⟩⟩
  · apply forall_congr'; intro i; apply forall_congr'; intro _; apply forall_congr'; intro _
    simp [dis]
  · apply forall_congr'; intro i; apply forall_congr'; intro _; apply forall_congr'; intro _
    simp only [dis]
    cases bitAt a i <;> cases bitAt b i <;> simp

example : equal [0x1f#64, 1#64] [0xf#64, 1#64] 5 66 = some true ∧ includes [0xf#64] [0x6#64] 0 8 = some true := by
  decide +kernel

/-- Inside one word with a start that is not its first bit, bits outside the range are
compared: here only bit 60 differs and the range is `[2, 4)`. -/
theorem C79_bug_compare_one_word :
    equal [0x1000000000000000#64] [0#64] 2 4 = some false ∧
    (∀ i, 2 ≤ i → i < 4 → bitAt [0x1000000000000000#64] i = bitAt [0#64] i) := by
  refine ⟨by decide +kernel, fun i h1 h2 => ?_⟩
  obtain rfl | rfl : i = 2 ∨ i = 3 := by omega
  · decide +kernel
  · decide +kernel

/-! ## C80 -/

/-- A well-formed bitvector: as many words as its size needs, and zeros after its last bit.
It stands for the list `bools v.size v.bits`. -/
def Proper (v : Bv) : Prop :=
  64 * v.bits.length < v.size + 64 ∧ v.size ≤ 64 * v.bits.length ∧ ∀ i, v.size ≤ i → bitAt v.bits i = false

theorem proper_iff (v : Bv) : Proper v ↔ v.WF := by
  constructor
  · rintro ⟨a, b, c⟩
    exact ⟨by unfold numWords; omega, c⟩
  · intro h
    have := h.words
    unfold numWords at this
    exact ⟨by omega, by omega, h.clean⟩

/-- `make-bitvector`, `bitvector`/`list->bitvector`: the bitvector with the given bits. -/
theorem C80_make (n : Nat) (b : Bool) (l : List Bool) :
    (∃ v, makeBv n b = .ok v ∧ Proper v ∧ bools v.size v.bits = List.replicate n b) ∧
    (∃ v, ofList l = .ok v ∧ Proper v ∧ bools v.size v.bits = l) := by
  constructor
  · obtain ⟨v, e, wf, hs, _, hb⟩ := makeBv_spec n b
    refine ⟨v, e, (proper_iff v).2 wf, ?_⟩
    apply bools_eq (by simpa using hs.symm)
    intro i hi
    rw [hb i (by omega), List.getElem?_replicate, if_pos (by omega)]
  · obtain ⟨v, e, wf, _, _, hb⟩ := ofList_spec l
    exact ⟨v, e, (proper_iff v).2 wf, hb⟩

example : ofList [true, false, true] = .ok { size := 3, bits := [5#64] } := by decide +kernel

/-- `bitvector->string` then `string->bitvector` gives the same bits back, for every
bitvector. -/
theorem C80_text_round_trip (v : Bv) (hv : Proper v) :
    ∃ cs v', toStr v = .ok cs ∧ cs = '#' :: '*' :: (bools v.size v.bits).map (fun b => if b then '1' else '0') ∧
      ofStr cs = .ok (some v') ∧ Proper v' ∧ bools v'.size v'.bits = bools v.size v.bits := by
  obtain ⟨v', e, wf, _, hb⟩ := ofStr_good (bools v.size v.bits)
  exact ⟨_, v', toStr_spec v ((proper_iff v).1 hv), rfl, e, (proper_iff v').2 wf, hb⟩

/-- `string->bitvector` returns `#f` for every other text. -/
theorem C80_text_reject (s : List Char)
    (h : ¬ ∃ l : List Bool, s = '#' :: '*' :: l.map (fun b => if b then '1' else '0')) : ofStr s = .ok none :=
  ofStr_bad s h

example : ofStr "#*0101".toList = .ok (some { size := 4, bits := [10#64] }) ∧ ofStr "#*01x".toList = .ok none := by
  decide +kernel

/-- `bitvector-ref/bool` and `bitvector-set!` at any index. -/
theorem C80_ref_set (v : Bv) (hv : Proper v) (i : Int) (b : Bool) :
    (∀ k : Nat, i = k → k < v.size → bvRef v i = .ok ((bools v.size v.bits).getD k false)) ∧
    ((i < 0 ∨ v.size ≤ i) → ∃ m m', bvRef v i = .err m ∧ bvSet v i b = .err m') ∧
    (v.immutable = true → ∃ m, bvSet v i b = .err m) ∧
    (∀ k : Nat, i = k → k < v.size → v.immutable = false → ∃ w, bvSet v i b = .ok w ∧ Proper w ∧
      bools w.size w.bits = (bools v.size v.bits).set k b) := by
  have wf := (proper_iff v).1 hv
  have hc := wf.cap
  refine ⟨?_, ?_, ?_, ?_⟩
  · rintro k rfl hk
    unfold bvRef
    rw [if_neg (by omega), Int.toNat_natCast, testBit_spec _ _ (by omega), List.getD_eq_getElem?_getD,
      bools_get _ _ _ hk]
    rfl
  · intro h
    have e1 : bvRef v i = .err "bitvector index out of range" := by unfold bvRef; rw [if_pos (by omega)]
    have e2 : bvSet v i b = .err "bitvector index out of range" := by unfold bvSet; rw [if_pos (by omega)]
    exact ⟨_, _, e1, e2⟩
  · intro h
    unfold bvSet
    by_cases h1 : i < 0 ∨ i ≥ v.size
    · rw [if_pos h1]; exact ⟨_, rfl⟩
    · rw [if_neg h1, if_pos h]; exact ⟨_, rfl⟩
  · rintro k rfl hk hm
    unfold bvSet
    rw [if_neg (by omega), if_neg (by simp [hm]), Int.toNat_natCast]
    obtain ⟨a, e, l, ha⟩ := putBit_spec v.bits k b (by omega)
    rw [e]
    simp only [Res.ofOption, Res.bind]
    refine ⟨_, rfl, (proper_iff _).2 ⟨l.trans wf.words, fun j hj => ?_⟩, ?_⟩
    · have hj : v.size ≤ j := hj
      show bitAt a j = false
      rw [ha, if_neg (by omega), wf.clean j hj]
    · apply bools_eq (by rw [List.length_set, bools_length])
      intro j hj
      have hj : j < v.size := hj
      show _ = some (bitAt a j)
      rw [ha, List.getElem?_set, bools_length]
      by_cases h : j = k
      · rw [if_pos h, if_pos h.symm, if_pos hk]
      · rw [if_neg h, if_neg (Ne.symm h), bools_get _ _ _ hj]

/-- `bitvector-copy` with any start and end: the sublist, or an error for a bad range. -/
theorem C80_copy (v : Bv) (hv : Proper v) (s e : Int) :
    (∃ (a b : Nat) (w : Bv), s = a ∧ (e = b ∨ (e < 0 ∧ b = v.size)) ∧ a ≤ b ∧ b ≤ v.size ∧
      bvCopy v s e = .ok w ∧ Proper w ∧ bools w.size w.bits = slice (bools v.size v.bits) a b) ∨
    ((∃ m, bvCopy v s e = .err m) ∧ (s < 0 ∨ v.size < s ∨ v.size < e ∨ (0 ≤ e ∧ e < s))) := by
  have wf := (proper_iff v).1 hv
  rcases checkRange_shape s e v.size with ⟨a, b, h1, h2, h3, h4, h5⟩ | ⟨⟨m, h1⟩, h2⟩
  · obtain ⟨w, ew, ww, _, sw, bw⟩ := copy_range v wf a b h2 h3
    refine .inl ⟨a, b, w, h4, h5, h2, h3, by unfold bvCopy; rw [h1]; exact ew, (proper_iff w).2 ww, ?_⟩
    apply bools_eq (by rw [slice_length _ _ _ (by rw [bools_length]; exact h3), sw])
    intro i hi
    rw [slice_get _ _ _ _ (by omega), bools_get _ _ _ (by omega), bw i (by omega)]
  · exact .inr ⟨⟨m, by unfold bvCopy; rw [h1]; rfl⟩, h2⟩

example : bvCopy { size := 3, bits := [5#64] } 1 (-1) = .ok { size := 2, bits := [2#64] } := by decide +kernel

/-- `bitvector-copy!` raises an error (and changes nothing) when the target is a literal, when the source range is not in the source, or when the range does not fit into the
target. -/
theorem C80_copy_into_reject (d : Bv) (src : Option Bv) (ds s e : Int)
    (h : d.immutable = true ∨ s < 0 ∨ s > (src.getD d).size ∨ (0 ≤ e ∧ (e > (src.getD d).size ∨ e < s)) ∨
      ds < 0 ∨ ds > d.size ∨ ds + ((if e < 0 then ((src.getD d).size : Int) else e) - s) > d.size) :
    ∃ m, bvCopyX d ds src s e = .err m := by
  unfold bvCopyX
  by_cases hi : d.immutable = true
  · rw [if_pos hi]; exact ⟨_, rfl⟩
  · rw [if_neg hi]
    have ok : ∀ a b : Nat, (ds > d.size ∨ ds < 0 ∨ ds + b - a > d.size) →
        ∃ m, ((Res.ok (a, b)).bind fun p : Nat × Nat =>
          if ds > d.size ∨ ds < 0 ∨ ds + p.2 - p.1 > d.size then (.err "destination index out of range" : Res Bv)
          else (Res.ofOption (copyX d.bits ds.toNat (src.map Bv.bits) p.1 p.2)).bind fun a => .ok { d with bits := a }) = .err m := by
      intro a b hab
      show ∃ m, (if ds > d.size ∨ ds < 0 ∨ ds + b - a > d.size then (.err "destination index out of range" : Res Bv) else _) = _
      rw [if_pos hab]
      exact ⟨_, rfl⟩
    replace h := h.resolve_left hi
    unfold checkRange
    generalize (src.getD d).size = n at h ⊢
    by_cases h1 : s < 0 ∨ s > n
    · rw [if_pos h1]; exact ⟨_, rfl⟩
    · rw [if_neg h1]
      by_cases h2 : e < 0
      · rw [if_pos h2]
        rw [if_pos h2] at h
        exact ok _ _ (by omega)
      · rw [if_neg h2]
        rw [if_neg h2] at h
        by_cases h3 : e > n
        · rw [if_pos h3]; exact ⟨_, rfl⟩
        · rw [if_neg h3]
          by_cases h4 : e < s
          · rw [if_pos h4]; exact ⟨_, rfl⟩
          · rw [if_neg h4]
            exact ok _ _ (by omega)

example : (bvCopyX { size := 2, bits := [0#64] } 1 (some { size := 3, bits := [5#64] }) 0 (-1)) = .err "destination index out of range" := by decide +kernel

/-- `bitvector-copy!` from another bitvector: the target list with the sublist written over it. -/
theorem C80_copy_into (d v : Bv) (hd : Proper d) (hv : Proper v) (hm : d.immutable = false) (ds s e : Nat)
    (hse : s ≤ e) (he : e ≤ v.size) (hds : ds + (e - s) ≤ d.size) :
    ∃ w, bvCopyX d ds (some v) s e = .ok w ∧ Proper w ∧
      bools w.size w.bits = (bools d.size d.bits).take ds ++ slice (bools v.size v.bits) s e
        ++ (bools d.size d.bits).drop (ds + (e - s)) := by
  obtain ⟨w, ew, ww, _, sw, bw⟩ := bvCopyX_spec d ((proper_iff d).1 hd) hm (some v) ((proper_iff v).1 hv) ds s e
    hse he hds (fun h => by cases h)
  refine ⟨w, ew, (proper_iff w).2 ww, ?_⟩
  have l1 : ((bools d.size d.bits).take ds).length = ds := by rw [List.length_take, bools_length]; omega
  have l2 := slice_length (bools v.size v.bits) s e (by rw [bools_length]; exact he)
  apply bools_eq
  · rw [List.length_append, List.length_append, l1, l2, List.length_drop, bools_length, sw]; omega
  · intro i hi
    rw [bw, Option.getD_some]
    by_cases h1 : i < ds
    · rw [if_neg (by omega), List.append_assoc, List.getElem?_append_left (by omega), List.getElem?_take, if_pos h1,
        bools_get _ _ _ (by omega)]
    · by_cases h2 : i < ds + (e - s)
      · rw [if_pos (by omega), List.append_assoc, List.getElem?_append_right (by omega), l1,
          List.getElem?_append_left (by omega), slice_get _ _ _ _ (by omega), bools_get _ _ _ (by omega)]
      · rw [if_neg (by omega), List.getElem?_append_right (by rw [List.length_append]; omega), List.length_append, l1, l2,
          List.getElem?_drop, show ds + (e - s) + (i - (ds + (e - s))) = i by omega, bools_get _ _ _ (by omega)]

/-- `bitvector-copy!` inside one bitvector to a higher index smears bits: the copy of
`#*1000` onto index 1 should give `#*1100`. -/
theorem C80_bug_copy_overlap :
    bvCopyX { size := 4, bits := [1#64] } 1 none 0 3 = .ok { size := 4, bits := [15#64] } := by decide +kernel

/-- `bitvector-not`, the two-argument connectives and `bitvector-if`, bit by bit. -/
theorem C80_bitwise (op : Op) (x y z : Bv) (hx : Proper x) (hy : Proper y) (hz : Proper z)
    (hy' : y.size = x.size) (hz' : z.size = x.size) :
    (∃ w, bvNot x = .ok w ∧ Proper w ∧ bools w.size w.bits = (bools x.size x.bits).map not) ∧
    (∃ w, bvBin op x y = .ok w ∧ Proper w ∧
      bools w.size w.bits = List.zipWith op.truth (bools x.size x.bits) (bools y.size y.bits)) ∧
    (∃ w, bvIf x y z = .ok w ∧ Proper w ∧
      bools w.size w.bits = List.zipWith (fun c p => if c then p.1 else p.2) (bools x.size x.bits)
        (List.zip (bools y.size y.bits) (bools z.size z.bits))) := by
  have wx := (proper_iff x).1 hx
  have wy := (proper_iff y).1 hy
  have wz := (proper_iff z).1 hz
  refine ⟨?_, ?_, ?_⟩
  · obtain ⟨w, ew, ww, _, sw, bw⟩ := bvNot_spec x wx
    refine ⟨w, ew, (proper_iff w).2 ww, ?_⟩
    apply bools_eq (by rw [List.length_map, bools_length, sw])
    intro i hi
    rw [List.getElem?_map, bools_get _ _ _ (by omega), bw i (by omega)]; rfl
  · obtain ⟨w, ew, ww, _, sw, bw⟩ := bvBin_spec op x y wx wy hy'.symm
    refine ⟨w, ew, (proper_iff w).2 ww, ?_⟩
    apply bools_eq (by rw [List.length_zipWith, bools_length, bools_length, sw, hy', Nat.min_self])
    intro i hi
    rw [List.getElem?_zipWith, bools_get _ _ _ (by omega), bools_get _ _ _ (by omega), bw i (by omega)]
  · obtain ⟨w, ew, ww, _, sw, bw⟩ := bvIf_spec x y z wx wy wz hy' hz'
    refine ⟨w, ew, (proper_iff w).2 ww, ?_⟩
    apply bools_eq (by rw [List.length_zipWith, List.length_zip, bools_length, bools_length, bools_length, sw, hy', hz',
      Nat.min_self, Nat.min_self])
    intro i hi
    have hz : (List.zip (bools y.size y.bits) (bools z.size z.bits))[i]? = some (bitAt y.bits i, bitAt z.bits i) :=
      List.getElem?_zip_eq_some.2 ⟨bools_get y.size y.bits i (by omega), bools_get z.size z.bits i (by omega)⟩
    rw [List.getElem?_zipWith, hz, bools_get _ _ _ (by omega), bw i (by omega)]

example : bvBin .xor { size := 3, bits := [5#64] } { size := 3, bits := [6#64] } = .ok { size := 3, bits := [3#64] } := by
  decide +kernel

/-- `bitvector-count`, `bitvector-count-run`, `bitvector-first-bit`. -/
theorem C80_query (b : Bool) (v : Bv) (hv : Proper v) :
    bvCount b v = .ok ((bools v.size v.bits).count b) ∧
    (∀ i : Nat, i ≤ v.size →
      bvCountRun b v i = .ok (((bools v.size v.bits).drop i).takeWhile (fun x => x == b)).length) ∧
    (∃ r, bvFirst b v = .ok r ∧ IsLowest v.bits b 0 v.size r) ∧
    (∃ r, bvLast b v = .ok r ∧ IsHighest v.bits b 0 v.size r) := by
  have wf := (proper_iff v).1 hv
  have hc := wf.cap
  refine ⟨?_, fun i hi => bvCountRun_spec b v wf i hi, ?_, ?_⟩
  · unfold bvCount
    rw [count_spec b v.bits 0 v.size (Nat.zero_le _) (by omega)]
    show Res.ok _ = Res.ok _
    congr 1
    unfold cnt bools
    rw [Nat.sub_zero, List.range_eq_range', List.count_eq_countP, List.countP_map, List.countP_eq_length_filter]
    rfl
  · obtain ⟨r, e, h⟩ := C79_lowest_partial b v.bits 0 v.size (Nat.zero_le _) (by omega) (.inl rfl)
    exact ⟨r, by unfold bvFirst; rw [e]; rfl, h⟩
  · obtain ⟨r, e, h⟩ := C79_highest b v.bits 0 v.size (Nat.zero_le _) (by omega)
    exact ⟨r, by unfold bvLast; rw [e]; rfl, h⟩

example : bvFirst true { size := 70, bits := [0#64, 0x20#64] } = .ok 69 := by decide +kernel

/-- `bitvector-any-value?`, `bitvector-every-value?` on every range. -/
theorem C80_any_every (v : Bv) (hv : Proper v) (b : Bool) (s e : Nat) (hse : s ≤ e) (he : e ≤ v.size) :
    (∃ r, bvAny v b s e = .ok r ∧ (r = true ↔ b ∈ slice (bools v.size v.bits) s e)) ∧
    (∃ r, bvEvery v b s e = .ok r ∧ (r = true ↔ ∀ x ∈ slice (bools v.size v.bits) s e, x = b)) := by
  have wf := (proper_iff v).1 hv
  have hc := wf.cap
  obtain ⟨r1, e1, h1⟩ := any_spec v.bits s e hse (by omega)
  obtain ⟨r2, e2, h2⟩ := every_spec v.bits s e hse (by omega)
  have mem : ∀ x, x ∈ slice (bools v.size v.bits) s e ↔ ∃ i, s ≤ i ∧ i < e ∧ bitAt v.bits i = x := by
    intro x
    rw [List.mem_iff_getElem?]
    constructor
    · rintro ⟨i, hi⟩
      have hl : i < (slice (bools v.size v.bits) s e).length := by
        rcases Nat.lt_or_ge i (slice (bools v.size v.bits) s e).length with h | h
        · exact h
        · rw [List.getElem?_eq_none h] at hi; cases hi
      rw [slice_length _ _ _ (by rw [bools_length]; exact he)] at hl
      rw [slice_get _ _ _ _ (by omega), bools_get _ _ _ (by omega)] at hi
      exact ⟨s + i, by omega, by omega, Option.some.inj hi⟩
    · rintro ⟨i, x1, x2, x3⟩
      refine ⟨i - s, ?_⟩
      rw [slice_get _ _ _ _ (by omega), show s + (i - s) = i by omega, bools_get _ _ _ (by omega), x3]
  unfold bvAny bvEvery
  rw [checkRange_ok s e _ hse he]
  simp only [Res.bind]
  rw [e1, e2]
  rcases b with _ | _
  · refine ⟨⟨!r2, rfl, ?_⟩, ⟨!r1, rfl, ?_⟩⟩
    · rw [Bool.not_eq_true', ← Bool.not_eq_true, h2, mem]
      constructor
      · intro h
        apply Classical.byContradiction
        intro hn
        apply h
        intro i x1 x2
        rcases hb : bitAt v.bits i with _ | _
        · exact absurd ⟨i, x1, x2, hb⟩ hn
        · rfl
      · rintro ⟨i, x1, x2, x3⟩ h
        rw [h i x1 x2] at x3; cases x3
    · rw [Bool.not_eq_true', ← Bool.not_eq_true, h1]
      constructor
      · intro h x hx
        obtain ⟨i, x1, x2, x3⟩ := (mem x).1 hx
        rcases x with _ | _
        · rfl
        · exact absurd ⟨i, x1, x2, x3⟩ h
      · rintro h ⟨i, x1, x2, x3⟩
        cases h true ((mem true).2 ⟨i, x1, x2, x3⟩)
  · refine ⟨⟨r1, rfl, ?_⟩, ⟨r2, rfl, ?_⟩⟩
    · rw [h1, mem]
    · rw [h2]
      constructor
      · intro h x hx
        obtain ⟨i, x1, x2, x3⟩ := (mem x).1 hx
        rw [← x3, h i x1 x2]
      · intro h i x1 x2
        exact h _ ((mem _).2 ⟨i, x1, x2, rfl⟩)

/-- `bitvector-logical-shift` by any count. -/
theorem C80_shift (v : Bv) (hv : Proper v) (count : Int) (bit : Bool) :
    ∃ w, bvShift v count bit = .ok w ∧ Proper w ∧
      bools w.size w.bits = shifted (bools v.size v.bits) count bit := by
  obtain ⟨w, ew, ww, _, sw, bw⟩ := bvShift_spec v ((proper_iff v).1 hv) count bit
  refine ⟨w, ew, (proper_iff w).2 ww, ?_⟩
  apply bools_eq (by simp [shifted, bools_length, sw])
  intro i hi
  rw [shifted, List.getElem?_map, List.getElem?_range (by rw [bools_length]; omega), Option.map_some, bw i (by omega),
    bools_length]
  congr 1
  by_cases h : 0 ≤ (i : Int) + count ∧ (i : Int) + count < v.size
  · rw [if_pos h, if_pos h, List.getD_eq_getElem?_getD, bools_get _ _ _ (by omega)]; rfl
  · rw [if_neg h, if_neg h]

example : bvShift { size := 4, bits := [0xb#64] } 1 false = .ok { size := 4, bits := [0x5#64] } ∧
    shifted [true, true, false, true] 1 false = [true, false, true, false] := by decide +kernel

/-- `bitvector-field-rotate` by any count: element `i` of the field becomes element
`i + count` modulo the field size; the rest is kept. -/
theorem C80_rotate (v : Bv) (hv : Proper v) (count : Int) (s e : Nat) (hse : s ≤ e) (he : e ≤ v.size) :
    ∃ w, bvRotate v count s e = .ok w ∧ Proper w ∧ w.size = v.size ∧
      ∀ i : Nat, i < v.size → bitAt w.bits i =
        if s ≤ i ∧ i < e then bitAt v.bits (s + ((((i - s : Nat) : Int) + count) % ((e - s : Nat) : Int)).toNat)
        else bitAt v.bits i := by
  obtain ⟨w, h1, h2, h3⟩ := bvRotate_spec v ((proper_iff v).1 hv) count s e hse he
  exact ⟨w, h1, (proper_iff w).2 h2, h3⟩

example : bvRotate { size := 6, bits := [0x6#64] } (-1) 1 5 = .ok { size := 6, bits := [0xc#64] } := by decide +kernel

/-- `bitvector-field-set!`, `-clear!`, `-flip!`: exactly the field changes. -/
theorem C80_field (f : Bool → Bool) (v : Bv) (hv : Proper v) (s e : Nat) (hse : s ≤ e) (he : e ≤ v.size) :
    ∃ w, bvField f v s e = .ok w ∧ Proper w ∧ w.size = v.size ∧
      ∀ i, i < v.size → bitAt w.bits i = if s ≤ i ∧ i < e then f (bitAt v.bits i) else bitAt v.bits i := by
  obtain ⟨w, h1, h2, _, h3, h4⟩ := bvField_spec f v ((proper_iff v).1 hv) s e hse he
  exact ⟨w, h1, (proper_iff w).2 h2, h3, fun i _ => h4 i⟩

/-- The field operations also change literal (immutable) bitvectors, which `bitvector-set!`
and `bitvector-copy!` refuse to do. -/
theorem C80_bug_field_immutable :
    bvField (fun _ => true) { size := 3, bits := [0#64], immutable := true } 0 2
      = .ok { size := 3, bits := [3#64], immutable := true } := by decide +kernel

/-- `equal?` on bitvectors (the comparison returns 0) says whether they have the same bits. -/
theorem C80_equal (x y : Bv) (hx : Proper x) (hy : Proper y) :
    ∃ r, bvCompare x y = .ok r ∧ (r = 0 ↔ bools x.size x.bits = bools y.size y.bits) :=
  bvCompare_spec x y ((proper_iff x).1 hx) ((proper_iff y).1 hy)

example : Proper { size := 70, bits := [0#64, 0x20#64] } := by
  refine ⟨by decide, by decide, fun i hi => ?_⟩
  have hi : 70 ≤ i := hi
  by_cases h : i < 128
  · have : ∀ k : Fin 58, bitAt [0#64, 0x20#64] (70 + k.val) = false := by decide +kernel
    have := this ⟨i - 70, by omega⟩
    rwa [show 70 + (i - 70) = i by omega] at this
  · exact bitAt_beyond _ _ (by simpa using h)

end Gauche.Bits

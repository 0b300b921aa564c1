import Verif.Proof.StrScan
/-!
# C12, C13, C43, C44 : strings are sequences of characters

`Is b cs` (`Verif.Spec.Str`) says that the body `b` is a complete string whose bytes are the UTF-8 encoding of
the character codes `cs`.  `Made b cs` below says that a program can obtain `b`, by a sequence of calls, as the
string of the characters `cs`.
-/
namespace Gauche.Str
open Gauche.Utf8 Gauche.Spec.Utf8

/-- The strings a program can make, together with the characters they are to have. -/
inductive Made : Body → List Nat → Prop
  /-- `list->string` -/
  | ofList {cs : List Nat} {r : Body} (hc : ∀ c ∈ cs, IsCode c) (e : listToStringFull cs 0 (-1) = some r) : Made r cs
  /-- `list->string` with a start index -/
  | ofListFrom {cs : List Nat} {r : Body} {s : Nat} (hc : ∀ c ∈ cs, IsCode c) (hs : s ≤ cs.length)
      (e : listToStringFull cs s (-1) = some r) : Made r (cs.drop s)
  /-- `make-string` -/
  | fill {n c : Nat} {r : Body} (hc : IsCode c) (e : makeFillString n c = some r) : Made r (List.replicate n c)
  /-- `string-append` of two strings -/
  | append2 {x y r : Body} {xs ys : List Nat} (hx : Made x xs) (hy : Made y ys) (e : append2 x y = some r) :
      Made r (xs ++ ys)
  /-- `substring` -/
  | substring {b r : Body} {cs : List Nat} {s e : Nat} (h : Made b cs) (hse : s ≤ e) (he : e ≤ cs.length)
      (hs : b.size < 2 ^ 64) (eq : Gauche.Str.substring b s e false = some r) : Made r ((cs.drop s).take (e - s))
  /-- `string-build-index!` -/
  | buildIndex {b : Body} {cs : List Nat} (h : Made b cs) : Made (buildIndex b) cs

/-- The call fails exactly when its arguments say so, or at the end of an indexed string. -/
theorem substring_some_noPanic {b r : Body} {cs : List Nat} (h : Is b cs) (hix : IndexOK b) (hsz : b.size < 2 ^ 64) {s e : Nat}
    (hse : s ≤ e) (he : e ≤ cs.length) (eq : Gauche.Str.substring b s e false = some r) :
    s = cs.length → ¬ EndPanics b := by
  intro hs hp
  unfold Gauche.Str.substring checkStartEnd at eq
  rw [h.len] at eq
  simp only [Bool.false_eq_true, if_false] at eq
  rw [if_neg (by omega), if_neg (by omega), if_neg (by omega), if_neg (by omega)] at eq
  simp only [Option.bind_some, Int.toNat_natCast] at eq
  rw [index2ptr_eq h hix hsz s (by omega), if_pos ⟨hs, hp⟩] at eq
  simp at eq

/-- Every string a program can make is a complete string with the intended characters (and an index, if it has
one, is the one `string-build-index!` computes). -/
theorem C12_made_is {b : Body} {cs : List Nat} (h : Made b cs) : Is b cs ∧ IndexOK b := by
  have aux {r : Body} {cs : List Nat} {o : Option Body} (h : ∃ r, o = some r ∧ Is r cs ∧ r.index = none)
      (e : o = some r) : Is r cs ∧ IndexOK r := by
    obtain ⟨r', e', i, n⟩ := h
    rw [e] at e'
    cases e'
    exact ⟨i, Or.inl n⟩
  induction h with
  | ofList hc e => exact aux (listToString_all _ hc) e
  | ofListFrom hc hs e => exact aux (listToString_from _ hc _ hs) e
  | fill hc e => exact aux (makeFill_eq _ _ hc) e
  | append2 _ _ e ihx ihy => exact aux (append2_eq ihx.1 ihy.1) e
  | substring _ hse he hs eq ih =>
    exact aux (substring_eq ih.1 ih.2 hs _ _ hse he (substring_some_noPanic ih.1 ih.2 hs hse he eq)) eq
  | buildIndex _ ih => exact buildIndex_is ih.1 ih.2

/-- Two sequences of characters never share a body: the string determines its characters. -/
theorem C12_contents_unique {b : Body} {cs ds : List Nat} (h : Made b cs) (g : Made b ds) : cs = ds := by
  have h1 := stringToList_eq (C12_made_is h).1
  have h2 := stringToList_eq (C12_made_is g).1
  rw [h1] at h2
  exact Option.some.inj h2

/-- `string-length` counts characters, `string-size` bytes. -/
theorem C12_length {b : Body} {cs : List Nat} (h : Made b cs) :
    b.len = cs.length ∧ b.size = (encodeAll cs).length :=
  ⟨(C12_made_is h).1.len, (C12_made_is h).1.size⟩

/-- `string-ref`, with or without the index: the character at that position, an error out of range.  The sizes
are those of a 64 bit machine. -/
theorem C12_ref {b : Body} {cs : List Nat} (h : Made b cs) (hsz : b.size < 2 ^ 64) (n : Int) :
    stringRef b n = if n < 0 then none else cs[n.toNat]? := by
  split
  · rename_i hn
    unfold stringRef
    rw [(C12_made_is h).1.complete]
    simp [hn]
  · rename_i hn
    have := stringRef_eq (C12_made_is h).1 (C12_made_is h).2 hsz n.toNat
    rwa [Int.toNat_of_nonneg (by omega)] at this

/-- `substring`.  PARTIAL: with an index there is one more error case, `start` and `end` both at the end of the
string; see `C12_substring_end_panics`. -/
theorem C12_substring_partial {b : Body} {cs : List Nat} (h : Made b cs) (hsz : b.size < 2 ^ 64) (s e : Nat) (hse : s ≤ e)
    (he : e ≤ cs.length) (hend : b.index = none ∨ s < cs.length) :
    ∃ r, substring b s e false = some r ∧ Made r ((cs.drop s).take (e - s)) := by
  have hh := C12_made_is h
  obtain ⟨r, e1, _, _⟩ := substring_eq hh.1 hh.2 hsz s e hse he (by
    rintro rfl
    rcases hend with g | g
    · simp [EndPanics, g]
    · omega)
  exact ⟨r, e1, .substring h hse he hsz e1⟩

/-- `substring` out of range is an error. -/
theorem C12_substring_range {b : Body} {cs : List Nat} (h : Made b cs) (s e : Int)
    (hr : s < 0 ∨ s > cs.length ∨ (0 ≤ e ∧ (e > cs.length ∨ e < s))) : substring b s e false = none := by
  unfold substring checkStartEnd
  simp only [Bool.false_eq_true, if_false]
  rw [(C12_made_is h).1.len]
  rcases hr with h1 | h1 | ⟨h1, h2 | h2⟩
  · rw [if_pos (Or.inl h1)]; rfl
  · rw [if_pos (Or.inr h1)]; rfl
  · by_cases h3 : s < 0 ∨ s > cs.length
    · rw [if_pos h3]; rfl
    · rw [if_neg h3, if_neg (by omega), if_pos h2]; rfl
  · by_cases h3 : s < 0 ∨ s > cs.length
    · rw [if_pos h3]; rfl
    · rw [if_neg h3, if_neg (by omega)]
      by_cases h4 : e > cs.length
      · rw [if_pos h4]; rfl
      · rw [if_neg h4, if_pos h2]; rfl

/-- `string-append` of two, and of any number of, strings. -/
theorem C12_append {x y : Body} {xs ys : List Nat} (hx : Made x xs) (hy : Made y ys) :
    ∃ r, append2 x y = some r ∧ Made r (xs ++ ys) := by
  obtain ⟨r, e, _, _⟩ := append2_eq (C12_made_is hx).1 (C12_made_is hy).1
  exact ⟨r, e, .append2 hx hy e⟩

theorem C12_append_all {bs : List Body} {css : List (List Nat)} (h : List.Forall₂ Made bs css) :
    ∃ r, append bs = some r ∧ Is r css.flatten := by
  obtain ⟨r, e, i, _⟩ := append_eq (h.imp fun _ _ g => (C12_made_is g).1)
  exact ⟨r, e, i⟩

/-- `string->list` and `list->string` are inverse to each other. -/
theorem C12_list_roundtrip {b : Body} {cs : List Nat} (h : Made b cs) : stringToList b = some cs :=
  stringToList_eq (C12_made_is h).1

theorem C12_list_to_string (cs : List Nat) (hc : ∀ c ∈ cs, IsCode c) :
    ∃ r, listToStringFull cs 0 (-1) = some r ∧ Made r cs ∧ stringToList r = some cs := by
  obtain ⟨r, e, i, _⟩ := listToString_all cs hc
  exact ⟨r, e, .ofList hc e, stringToList_eq i⟩

/-- `list->string` with both indices.  PARTIAL: right for `0 < start < end` only, see
`C12_list_to_string_end_ignored` and `C12_list_to_string_empty_range`. -/
theorem C12_list_to_string_range_partial (cs : List Nat) (hc : ∀ c ∈ cs, IsCode c) (s e : Nat) (hs : 0 < s) (hse : s < e)
    (he : e ≤ cs.length) : ∃ r, listToStringFull cs s e = some r ∧ Is r ((cs.drop s).take (e - s)) := by
  obtain ⟨r, e1, i, _⟩ := listToString_range cs hc s e hs hse he
  exact ⟨r, e1, i⟩

/-- A byte sequence becomes a complete string exactly when it is valid UTF-8, with the right characters; otherwise
it becomes an incomplete string. -/
theorem C12_validate (m : Mem) (siz : Nat) :
    (∃ cs, (∀ c ∈ cs, IsCode c) ∧ siz = (encodeAll cs).length ∧ Holds m (encodeAll cs) ∧
      ∃ b, makeString m siz (-1) false = some b ∧ Is b cs) ∨
    ((¬ ∃ cs : List Nat, (∀ c ∈ cs, IsCode c) ∧ siz = (encodeAll cs).length ∧ Holds m (encodeAll cs)) ∧
      ∃ b, makeString m siz (-1) false = some b ∧ b.incomplete = true ∧ b.mem = m ∧ b.size = siz) := by
  rcases makeString_count (m := m) (siz := siz) with ⟨cs, h1, h2, h3, b, e, i, _⟩ | ⟨h, e⟩
  · exact Or.inl ⟨cs, h1, h2, h3, b, e, i⟩
  · exact Or.inr ⟨h, _, e, rfl, rfl, rfl⟩

/-- Cursors: converting an index to a cursor and back, stepping, and reading agree with the indices.  PARTIAL: at the
end of an indexed string `string-index->cursor` may fail, see `C12_substring_end_panics`. -/
theorem C12_cursor_partial {b : Body} {cs : List Nat} (h : Made b cs) (hsz : b.size < 2 ^ 64) (n : Nat) (hn : n ≤ cs.length)
    (hend : b.index = none ∨ n < cs.length) :
    ∃ k, cursorFromIndex b n = some k ∧ cursorIndex b k = some n ∧
      (∀ d, n + d < cs.length → ∃ k', cursorForward b k d = some k' ∧ cursorIndex b k' = some (n + d)) ∧
      (∀ d ≤ n, ∃ k', cursorBack b k d = some k' ∧ cursorIndex b k' = some (n - d)) ∧
      refCursor b k = cs[n]? := by
  have hh := C12_made_is h
  refine ⟨pos cs n, ?_, cursorIndex_pos hh.1 n hn, ?_, ?_, ?_⟩
  · rw [cursorFromIndex_eq hh.1 hh.2 hsz n hn, if_neg]
    rintro ⟨rfl, g1⟩
    rcases hend with g | g
    · simp [EndPanics, g] at g1
    · omega
  · exact fun d hd => ⟨_, cursorForward_eq hh.1 n d (by omega), cursorIndex_pos hh.1 _ (by omega)⟩
  · exact fun d hd => ⟨_, cursorBack_eq hh.1 n d hn hd, cursorIndex_pos hh.1 _ (by omega)⟩
  · rcases Nat.lt_or_ge n cs.length with g | g
    · rw [refCursor_eq hh.1 n g, List.getElem?_eq_getElem g]
    · have : n = cs.length := by omega
      subst this
      rw [List.getElem?_eq_none (by omega), refCursor, hh.1.complete, pos_len cs _ (Nat.le_refl _), hh.1.size]
      simp

/-- `substring` with cursors agrees with `substring` with indices. -/
theorem C12_substring_cursor {b : Body} {cs : List Nat} (h : Made b cs) (s e : Nat) (hse : s ≤ e) (he : e ≤ cs.length) :
    ∃ r, substringCursor b (pos cs s) (pos cs e) = some r ∧ Is r ((cs.drop s).take (e - s)) := by
  obtain ⟨r, e1, i, _⟩ := substringCursor_eq (C12_made_is h).1 s e hse he
  exact ⟨r, e1, i⟩

/-- Building the index changes no answer of `string-ref`. -/
theorem C12_index_transparent {b : Body} {cs : List Nat} (h : Made b cs) (hsz : b.size < 2 ^ 64) (n : Int) :
    stringRef (buildIndex b) n = stringRef b n := by
  have hs : (buildIndex b).size = b.size := by unfold buildIndex; split <;> rfl
  rw [C12_ref h hsz, C12_ref (.buildIndex h) (by rw [hs]; exact hsz)]

/-! ### Disagreements -/

/-- 48 three-byte characters, indexed (16 characters per entry). -/
def indexed48 : Option Body := (makeFillString 48 0x3042).map buildIndex

/-- `(substring s 48 48)` of an indexed string of 48 characters fails an assertion (the process is aborted); the same
call on the same string without index returns the empty string. -/
theorem C12_substring_end_panics :
    (indexed48.bind fun b => substring b 48 48 false).isNone = true ∧
    ((makeFillString 48 0x3042).bind fun b => (substring b 48 48 false).bind fun r => stringToList r) = some [] ∧
    (indexed48.bind fun b => cursorFromIndex b 48) = none ∧
    ((makeFillString 48 0x3042).bind fun b => cursorFromIndex b 48) = some 144 := by decide +kernel

/-- `(list->string '(#\a #\b #\c) 0 1)` is `"abc"`: the end is ignored when the start is 0. -/
theorem C12_list_to_string_end_ignored :
    ((listToStringFull [97, 98, 99] 0 1).bind stringToList) = some [97, 98, 99] := by decide +kernel

/-- `(list->string '(#\a #\b #\c) 1 1)` is `"b"`, not `""`. -/
theorem C12_list_to_string_empty_range :
    ((listToStringFull [97, 98, 99] 1 1).bind stringToList) = some [98] := by decide +kernel

/-! ### C13 : search -/

/-- `string-scan`: in every return mode the leftmost occurrence, `#f` if and only if there is none. -/
theorem C13_scan {x y : Body} {cs ds : List Nat} (hx : Made x cs) (hy : Made y ds) (mode : Mode) :
    (∃ i r, FirstAt cs ds i ∧ scan x y mode = some (some r) ∧ ScanOK cs ds i mode r) ∨
    ((∀ i, ¬ OccursAt cs ds i) ∧ scan x y mode = some none) := by
  have hh := (C12_made_is hy).1
  unfold scan
  rw [hh.size, hh.len, hh.complete]
  exact stringScan_fwd (C12_made_is hx).1 hh.codes hh.holds mode

/-- `string-scan-right`: the rightmost occurrence.  PARTIAL: only if, when the Boyer-Moore path is taken, the byte
stored right after the text differs from the last byte of the pattern; see `C13_scan_right_wrong`. -/
theorem C13_scan_right_partial {x y : Body} {cs ds : List Nat} (hx : Made x cs) (hy : Made y ds) (mode : Mode)
    (hov : x.size < 256 ∨ y.size < 2 ∨ 256 ≤ y.size ∨ x.mem x.size ≠ y.mem (y.size - 1)) :
    (∃ i r, LastAt cs ds i ∧ scanRight x y mode = some (some r) ∧ ScanOK cs ds i mode r) ∨
    ((∀ i, ¬ OccursAt cs ds i) ∧ scanRight x y mode = some none) := by
  have hh := (C12_made_is hy).1
  have hn : NoOverrun x.mem x.size y.mem (blen ds) := by
    rw [← hh.size]
    intro h1 h2 h3 h4 hm
    have := hm (y.size - 1) (by omega)
    rw [show x.size - y.size + 1 + (y.size - 1) = x.size from by omega] at this
    omega
  unfold scanRight
  rw [hh.size, hh.len, hh.complete]
  exact stringScan_rev (C12_made_is hx).1 hh.codes hh.holds hn mode

/-- The Boyer-Moore search on raw bytes: the first match, for every text and every pattern of 1 to 255 bytes. -/
theorem C13_boyer_moore (s1 : Mem) (siz1 : Nat) (s2 : Mem) (siz2 : Nat) (h1 : 1 ≤ siz2) (h2 : siz2 < 256) (r : Nat) :
    boyerMoore s1 siz1 s2 siz2 = some r ↔
      (r + siz2 ≤ siz1 ∧ (∀ j < siz2, s1 (r + j) = s2 j) ∧ ∀ i < r, ¬ ∀ j < siz2, s1 (i + j) = s2 j) := by
  have := boyerMoore_spec s1 siz1 s2 siz2 h1 h2
  cases e : boyerMoore s1 siz1 s2 siz2 with
  | none =>
    rw [e] at this
    simp only [reduceCtorEq, false_iff]
    rintro ⟨g1, g2, _⟩
    exact this r g1 g2
  | some q =>
    rw [e] at this
    constructor
    · intro g; cases g; exact this
    · rintro ⟨g1, g2, g3⟩
      rcases Nat.lt_trichotomy q r with g | g | g
      · exact absurd this.2.1 (g3 q g)
      · rw [g]
      · exact absurd g2 (this.2.2 r g)

/-- 300 times `a`, then `b`. -/
def aaab : Option Body := (makeFillString 300 97).bind fun x => (makeFillString 1 98).bind fun y => append2 x y

/-- `(string-scan-right (substring s 0 300) "ab")`, with `s` 300 times `a` and a `b`, finds `"ab"` at index 299 of a
string that consists of `a`s only: it looks one byte past the end of the substring. -/
theorem C13_scan_right_wrong :
    (aaab.bind fun s => (substring s 0 300 false).bind stringToList) = some (List.replicate 300 97) ∧
    (aaab.bind fun s => (substring s 0 300 false).bind fun t => (listToStringFull [97, 98] 0 (-1)).bind fun p =>
      (scanRight t p .index).bind fun r => match r with | some (.index i) => some i | _ => none) = some 299 ∧
    (aaab.bind fun s => (substring s 0 300 false).bind fun t => (listToStringFull [97, 98] 0 (-1)).bind fun p =>
      (scan t p .index).map fun r => match r with | none => true | _ => false) = some true := by
  decide +kernel

/-! ### C43 : comparison -/

/-- `string=?` compares the characters; `string<?` etc. (through the three-way comparison) order strings
lexicographically by character code, and `lexCmp` is Lean's lexicographic order on lists. -/
theorem C43_equal {x y : Body} {xs ys : List Nat} (hx : Made x xs) (hy : Made y ys) :
    stringEqual x y = true ↔ xs = ys := stringEqual_eq (C12_made_is hx).1 (C12_made_is hy).1

theorem lexCmp_lt (xs ys : List Nat) : lexCmp xs ys = .lt ↔ xs < ys := by
  fun_induction lexCmp xs ys <;> simp_all [List.cons_lt_cons_iff] <;> grind

theorem lexCmp_gt (xs ys : List Nat) : lexCmp xs ys = .gt ↔ ys < xs := by
  fun_induction lexCmp xs ys <;> simp_all [List.cons_lt_cons_iff] <;> grind

theorem C43_compare {x y : Body} {xs ys : List Nat} (hx : Made x xs) (hy : Made y ys) :
    (stringCmp x y = .lt ↔ xs < ys) ∧ (stringCmp x y = .gt ↔ ys < xs) ∧ (stringCmp x y = .eq ↔ xs = ys) := by
  rw [stringCmp_eq (C12_made_is hx).1 (C12_made_is hy).1]
  refine ⟨lexCmp_lt xs ys, lexCmp_gt xs ys, ?_⟩
  constructor
  · intro h
    rcases lexCmp_cases xs ys (C12_made_is hx).1.codes (C12_made_is hy).1.codes with g | g | g
    · exact g.2
    · rw [h] at g; exact absurd g.1 (by simp)
    · rw [h] at g; exact absurd g.1 (by simp)
  · rintro rfl
    have h1 := lexCmp_lt xs xs
    have h2 := lexCmp_gt xs xs
    cases e : lexCmp xs xs with
    | eq => rfl
    | lt => exact absurd (h1.1 e) (List.lt_irrefl _)
    | gt => exact absurd (h2.1 e) (List.lt_irrefl _)

/-- The order does not depend on whether the strings are indexed or share storage. -/
theorem C43_compare_representation {x x' y y' : Body} {xs ys : List Nat} (hx : Made x xs) (hx' : Made x' xs)
    (hy : Made y ys) (hy' : Made y' ys) : stringCmp x y = stringCmp x' y' ∧ stringEqual x y = stringEqual x' y' := by
  rw [stringCmp_eq (C12_made_is hx).1 (C12_made_is hy).1, stringCmp_eq (C12_made_is hx').1 (C12_made_is hy').1]
  exact ⟨rfl, by rw [Bool.eq_iff_iff, C43_equal hx hy, C43_equal hx' hy']⟩

/-! ### C44 : join and split -/

/-- `string-join` in its four grammars; `strict-infix` of no strings is an error. -/
theorem C44_join {bs : List Body} {css : List (List Nat)} (h : List.Forall₂ Made bs css) {d : Body} {ds : List Nat}
    (hd : Made d ds) (g : Grammar) :
    if g = .strictInfix ∧ css = [] then join bs d g = none
    else ∃ r, join bs d g = some r ∧ Is r (joinSpec ds css g) := by
  split
  · rename_i hg
    obtain ⟨rfl, rfl⟩ := hg
    cases h
    rfl
  · rename_i hg
    obtain ⟨r, e, i, _⟩ := join_eq (h.imp fun _ _ g => (C12_made_is g).1) (C12_made_is hd).1 g (fun g1 g2 => hg ⟨g1, g2⟩)
    exact ⟨r, e, i⟩

/-- `string-split` by a character, with a limit (negative = none): the pieces joined by the character are the string,
no piece but the last contains the character, and the number of pieces is one more than the number of
splits, which is the number of occurrences or the limit. -/
theorem C44_split {b : Body} {cs : List Nat} (h : Made b cs) (ch : Nat) (hc : IsCode ch) (limit : Int) :
    ∃ bs css, splitByChar b ch limit = some bs ∧ AllIs bs css ∧ SplitOK cs ch limit css :=
  splitByChar_ok (C12_made_is h).1 ch hc limit

/-- The last piece is free of the character, too, if the limit was not reached. -/
theorem C44_split_last {b : Body} {cs : List Nat} (h : Made b cs) (ch : Nat) (hc : IsCode ch) (limit : Int) (hl : limit < 0) :
    ∃ bs css, splitByChar b ch limit = some bs ∧ AllIs bs css ∧ List.intercalate [ch] css = cs ∧ ∀ p ∈ css, ch ∉ p := by
  obtain ⟨bs, css, e, a, s⟩ := C44_split h ch hc limit
  refine ⟨bs, css, e, a, s.join, ?_⟩
  have hcnt := s.count
  rw [if_pos hl, ← s.join] at hcnt
  have hfree := s.free
  clear s e a h hl
  have key (css : List (List Nat)) (hne : css ≠ []) (hf : ∀ p ∈ css.dropLast, ch ∉ p)
      (hcn : (css.length : Int) = ((List.intercalate [ch] css).count ch : Int) + 1) : ∀ p ∈ css, ch ∉ p := by
    induction css with
    | nil => simp
    | cons a t ih =>
      cases t with
      | nil =>
        intro p hp
        simp [List.intercalate] at hp hcn
        subst hp
        exact List.count_eq_zero.1 hcn
      | cons b t =>
        rw [List.dropLast_cons_of_ne_nil (by simp)] at hf
        have ha := hf a (by simp)
        have e3 : List.intercalate [ch] (a :: b :: t) = a ++ [ch] ++ List.intercalate [ch] (b :: t) := by
          simp [List.intercalate]
        rw [e3, List.count_append, List.count_append, List.count_eq_zero.2 ha, List.count_singleton_self] at hcn
        have := ih (by simp) (fun p hp => hf p (by simp [hp])) (by simp only [List.length_cons] at *; omega)
        intro p hp
        rcases List.mem_cons.1 hp with rfl | hp
        · exact ha
        · exact this p hp
  refine key css ?_ hfree hcnt
  rintro rfl
  simp [List.intercalate] at hcnt

/-! ### The hypotheses are met -/

/-- `"aあ𝄞b"` made by append, then a substring of it: the `Made` relation holds, and what the code answers. -/
example : ∃ x y r, Made x [97, 0x3042] ∧ Made y [0x1d11e, 98] ∧ append2 x y = some r ∧
    Made r [97, 0x3042, 0x1d11e, 98] ∧ r.size = 9 ∧ stringRef r 2 = some 0x1d11e := by
  have c1 : ∀ c ∈ [97, 0x3042], IsCode c := by simp [IsCode]
  have c2 : ∀ c ∈ [0x1d11e, 98], IsCode c := by simp [IsCode]
  obtain ⟨x, e1, m1, _⟩ := C12_list_to_string _ c1
  obtain ⟨y, e2, m2, _⟩ := C12_list_to_string _ c2
  obtain ⟨r, e, m⟩ := C12_append m1 m2
  have hs : r.size = 9 := by rw [(C12_length m).2]; decide +kernel
  exact ⟨x, y, r, m1, m2, e, m, hs, by rw [C12_ref m (by omega)]; rfl⟩

/-- An indexed string exists. -/
example : (indexed48.map fun b => (b.index.isSome, b.size, b.len)) = some (true, 144, 48) := by decide +kernel

/-- Search for a self-overlapping pattern in a long text: the Boyer-Moore path is taken and finds it. -/
example : boyerMoore (fun i => [97, 98, 97, 97, 98].getD (i - 300) 97) 400 (fun i => [98, 97, 97, 98].getD i 0) 4 =
    some 301 := by decide +kernel

example : ((listToStringFull [97, 44, 98, 44, 44] 0 (-1)).bind fun b => (splitByChar b 44 (-1)).bind fun l =>
    l.mapM stringToList) = some [[97], [98], [], []] := by decide +kernel

end Gauche.Str

import Verif.Proof.SexpTree
/-
C68, C69: what `write` writes is what `read` reads back.
-/
namespace Gauche.Sexp
open Gauche.Spec Gauche.Rational Gauche.Flonum

/-- The text ends, or goes on with a character that cannot be part of a datum: white space, a parenthesis, a quote. -/
def Delimited (s : List Char) : Prop := ∀ c r, s = c :: r → c ∈ " \t\n\r()[]{}\";'`,".toList

/-- Data without parts that C68 covers.  Exact numbers are in their canonical form, flonums are well formed and the estimate taken from `log10` is the
one that C63 assumes. -/
def AtomReadable (cat : Char → Cat) (est : Flo → Int) : Atom → Prop
  | .sym s => PlainName cat s
  | .num (.exact q) => q.Canonical
  | .num (.flo x) => x.Ok ∧ ∀ neg m k, x = .num neg (.fin m k) → 0 < m → FloText.EstimateOf (est x) m k
  | _ => True

mutual
/-- Data that C68 covers; the labels are not astronomically large. -/
def Readable (cat : Char → Cat) (est : Flo → Int) : Tree → Prop
  | .atom a => AtomReadable cat est a
  | .ref n => n < 2 ^ 63
  | .lab n t => n < 2 ^ 63 ∧ Readable cat est t
  | .pair a d => Readable cat est a ∧ Readable cat est d
  | .vec l => ReadableL cat est l
  | .abbr _ t => Readable cat est t
def ReadableL (cat : Char → Cat) (est : Flo → Int) : List Tree → Prop
  | [] => True
  | t :: ts => Readable cat est t ∧ ReadableL cat est ts
end

theorem Delimited.stop {cat : Char → Cat} {s : List Char} (h : Delimited s) : Stop cat s := by
  intro c r hs
  have hc := h c r hs
  have key : ∀ c ∈ " \t\n\r()[]{}\";'`,".toList, c.toNat < 128 ∧ (wordTable.getD c.toNat 0 == 1 || (c = '#' && true)) = false ∧ c ≠ '|' := by decide +kernel
  obtain ⟨h1, h2, h3⟩ := key c hc
  refine ⟨?_, h3⟩
  unfold wordChar
  rw [if_pos h1]
  simpa using h2

mutual
theorem readable_ok {lo hi : Int} (hlo : -20 ≤ lo) (hhi : hi ≤ 17) {est : Flo → Int} {cat : Char → Cat} : ∀ (t : Tree), Readable cat est t →
    ∃ N, ∀ fuel, N ≤ fuel → TreeOk ⟨cat, est, lo, hi, fuel⟩ t
  | .atom a, h => by
    rw [Readable] at h
    simp only [TreeOk]
    match a, h with
    | .nil, _ | .bool _, _ | .char _, _ | .str _, _ => exact ⟨0, fun _ _ => trivial⟩
    | .sym s, h => exact ⟨0, fun _ _ => Or.inr h⟩
    | .num (.exact q), h => exact ⟨0, fun _ _ => h⟩
    | .num (.flo x), h => exact flo_ok hlo hhi est cat x h.1 h.2
  | .ref n, h => by
    rw [Readable] at h
    exact ⟨0, fun _ _ => by rw [TreeOk]; unfold labelMax; omega⟩
  | .lab n t, h => by
    rw [Readable] at h
    obtain ⟨N, hN⟩ := readable_ok hlo hhi t h.2
    exact ⟨N, fun f hf => by rw [TreeOk]; exact ⟨by unfold labelMax; omega, hN f hf⟩⟩
  | .pair a d, h => by
    rw [Readable] at h
    obtain ⟨N, hN⟩ := readable_ok hlo hhi a h.1
    obtain ⟨M, hM⟩ := readable_ok hlo hhi d h.2
    exact ⟨max N M, fun f hf => by rw [TreeOk]; exact ⟨hN f (by omega), hM f (by omega)⟩⟩
  | .vec l, h => by
    rw [Readable] at h
    obtain ⟨N, hN⟩ := readable_okL hlo hhi l h
    exact ⟨N, fun f hf => by rw [TreeOk]; exact hN f hf⟩
  | .abbr _ t, h => by
    rw [Readable] at h
    obtain ⟨N, hN⟩ := readable_ok hlo hhi t h
    exact ⟨N, fun f hf => by rw [TreeOk]; exact hN f hf⟩
theorem readable_okL {lo hi : Int} (hlo : -20 ≤ lo) (hhi : hi ≤ 17) {est : Flo → Int} {cat : Char → Cat} : ∀ (l : List Tree), ReadableL cat est l →
    ∃ N, ∀ fuel, N ≤ fuel → TreesOk ⟨cat, est, lo, hi, fuel⟩ l
  | [], _ => ⟨0, fun _ _ => by rw [TreesOk]; trivial⟩
  | t :: ts, h => by
    rw [ReadableL] at h
    obtain ⟨N, hN⟩ := readable_ok hlo hhi t h.1
    obtain ⟨M, hM⟩ := readable_okL hlo hhi ts h.2
    exact ⟨max N M, fun f hf => by rw [TreesOk]; exact ⟨hN f (by omega), hM f (by omega)⟩⟩
end

/-! ## C68: data of every shape -/

/-- The text that `write` makes of a datum, followed by a delimiter, is read as that datum, and exactly that text is consumed.  For every datum of lists,
vectors, quoting forms, datum labels, booleans, characters, strings, exact and inexact numbers, and symbols; partial because names with a non-ASCII decimal
digit or a spacing or enclosing mark are excluded (`C68_bug_digit` shows that the code is wrong for those).  The loops of the flonum printer and reader
get enough steps. -/
theorem C68_read_write_partial {cat : Char → Cat} (hsp : SpacesOk cat) {est : Flo → Int} {lo hi : Int} (hlo : -20 ≤ lo) (hhi : hi ≤ 17) {t : Tree}
    (h : Readable cat est t) :
    ∃ N, ∀ fuel, N ≤ fuel → ∀ rest, Delimited rest →
      read ⟨cat, est, lo, hi, fuel⟩ (writeTree ⟨cat, est, lo, hi, fuel⟩ t ++ rest) = .datum (strip t) rest := by
  obtain ⟨N, hN⟩ := readable_ok hlo hhi t h
  exact ⟨N, fun f hf rest hr => read_write hsp (hN f hf) hr.stop⟩

/-- Different data have different texts. -/
theorem C68_injective_partial {cat : Char → Cat} (hsp : SpacesOk cat) {est : Flo → Int} {lo hi : Int} (hlo : -20 ≤ lo) (hhi : hi ≤ 17) {t u : Tree}
    (ht : Readable cat est t) (hu : Readable cat est u) :
    ∃ N, ∀ fuel, N ≤ fuel → writeTree ⟨cat, est, lo, hi, fuel⟩ t = writeTree ⟨cat, est, lo, hi, fuel⟩ u → strip t = strip u := by
  obtain ⟨N, hN⟩ := C68_read_write_partial hsp hlo hhi ht
  obtain ⟨M, hM⟩ := C68_read_write_partial hsp hlo hhi hu
  refine ⟨max N M, fun f hf he => ?_⟩
  have hd : Delimited [] := by intro c r h; cases h
  have h1 := hN f (by omega) [] hd
  have h2 := hM f (by omega) [] hd
  rw [he, h2] at h1
  injection h1 with h1 _
  exact h1.symm

/-- A symbol whose name has a non-ASCII decimal digit is written without bars, and the reader stops before the digit: it reads another symbol and leaves
the digit in the text. -/
theorem C68_bug_digit (e : Env) (c : Char) (hc : 128 ≤ c.toNat) (hz : c.toNat ≠ 0x200c ∧ c.toNat ≠ 0x200d) (hd : e.cat c = .Nd) :
    writeTree e (.atom (.sym ['a', c])) = ['a', c] ∧ read e ['a', c] = .datum (.atom (.sym ['a'])) [c] := by
  have h1 : lexCategory e.cat .subsequent c = true := by
    unfold lexCategory; rw [if_neg (by omega), if_neg (by omega), hd]; rfl
  have h2 : ∀ b, wordChar e.cat b c = false := by
    intro b; unfold wordChar; rw [if_neg (by omega), if_neg (by omega), hd]
  have h3 : lexCategory e.cat .initial 'a' = true := by unfold lexCategory; rw [if_pos (by decide)]; decide
  constructor
  · have : escapeRequired e.cat ['a', c] = false := by
      unfold escapeRequired; simp [h3, needSubsequent, h1]
    simp [writeTree, writeBoth, writeAtom, writeSymbol, this]
  · rw [read]
    show readItem e 12 _ = _
    rw [readItem, readInternal_head fun _ => skip_char (by decide) (by decide) (by decide)]
    simp [asciiDigit, readSymbol, readWord, h2]

/-- A list of two symbols, the second of which is a dot and such a digit, is read back as a dotted pair. -/
theorem C68_bug_dot (e : Env) (hsp : SpacesOk e.cat) (c : Char) (hc : 128 ≤ c.toNat) (hz : c.toNat ≠ 0x200c ∧ c.toNat ≠ 0x200d) (hd : e.cat c = .Nd) :
    writeTree e (.pair (.atom (.sym ['a'])) (.pair (.atom (.sym ['.', c])) (.atom .nil))) = ['(', 'a', ' ', '.', c, ')'] ∧
      read e ['(', 'a', ' ', '.', c, ')'] = .datum (.pair (.atom (.sym ['a'])) (.atom (.sym [c]))) [] := by
  have hne : ∀ d : Char, d.toNat < 128 → c ≠ d := by rintro d hd' rfl; omega
  have h1 : lexCategory e.cat .signSubsequent c = true := by
    unfold lexCategory; rw [if_neg (by omega), if_neg (by omega), hd]; rfl
  have h2 : ∀ b, wordChar e.cat b c = false := by
    intro b; unfold wordChar; rw [if_neg (by omega), if_neg (by omega), hd]
  have h3 : lexCategory e.cat .initial 'a' = true := by unfold lexCategory; rw [if_pos (by decide)]; decide
  have hskip : ∀ s, skipws false (c :: s) = c :: s := by
    intro s
    refine skip_char ?_ (hne _ (by decide)) ?_
    · unfold cSpace; simp; omega
    · cases hx : extraSpace false c with
      | false => rfl
      | true =>
        have := hsp c (by unfold extraSpace at hx; simp at hx; omega)
        rw [hd] at this
        simp at this
  have hdig : asciiDigit c = false := by unfold asciiDigit; simp; omega
  constructor
  · have g1 : escapeRequired e.cat ['a'] = false := by unfold escapeRequired; simp [h3, needSubsequent]
    have g2 : escapeRequired e.cat ['.', c] = false := by unfold escapeRequired; simp [needDot, needSubsequent, h1]
    simp [writeTree, writeBoth, writeAtom, writeSymbol, g1, g2]
  · have hsp1 : ∀ b, wordChar e.cat b ' ' = false := by intro b; unfold wordChar; rw [if_pos (by decide)]; cases b <;> decide
    have hcl : ∀ b, wordChar e.cat b ')' = false := by intro b; unfold wordChar; rw [if_pos (by decide)]; cases b <;> decide
    have ha : ∀ n s, readInternal e (n + 1) ('a' :: ' ' :: s) = .datum (.atom (.sym ['a'])) (' ' :: s) := by
      intro n s
      rw [readInternal_head fun _ => skip_char (by decide) (by decide) (by decide)]
      simp [asciiDigit, readSymbol, readWord, hsp1]
    have hcc : ∀ n, readInternal e (n + 1) [c, ')'] = .datum (.atom (.sym [c])) [')'] := by
      intro n
      rw [readInternal_head hskip]
      have hh : '#' ≠ c := fun h => hne '#' (by decide) h.symm
      simp [hne, hdig, readSymbol, readWord, hcl, hh]
    rw [read]
    show readItem e 28 _ = _
    rw [readItem, readInternal_head fun _ => skip_char (by decide) (by decide) (by decide), if_pos rfl, readList, readListInt,
      skip_char (by decide) (by decide) (by decide)]
    simp only [ha]
    simp
    rw [readListInt_space, readListInt, skip_char (by decide) (by decide) (by decide)]
    simp [h2, hne, readItem, hcc]
    rw [readListInt, skip_char (by decide) (by decide) (by decide)]
    simp [mkList]

/-! ## C69: strings, characters and symbols between bars -/

/-- Every string is read back, whatever characters it has, whatever the character tables say, and whatever follows. -/
theorem C69_string (e : Env) (s rest : List Char) :
    readString .text [] ((writeString e.cat s).tail ++ rest) = .ok (s, rest) ∧ (writeString e.cat s).head? = some '"' := by
  refine ⟨?_, rfl⟩
  have : (writeString e.cat s).tail ++ rest = s.flatMap (strEsc e.cat) ++ '"' :: rest := by unfold writeString; simp
  rw [this, readString_write]
  rfl

/-- Every string, as a datum. -/
theorem C69_string_datum (e : Env) (s rest : List Char) (hr : Delimited rest) :
    read e (writeTree e (.atom (.str s)) ++ rest) = .datum (.atom (.str s)) rest := by
  unfold read writeTree
  exact readItem_of (reads_string s) hr.stop (by simp [writeBoth, writeAtom]; omega)

/-- Every character, as a datum. -/
theorem C69_char (e : Env) (c : Char) (rest : List Char) (hr : Delimited rest) :
    read e (writeTree e (.atom (.char c)) ++ rest) = .datum (.atom (.char c)) rest := by
  unfold read writeTree
  exact readItem_of (reads_char c) hr.stop (by simp [writeBoth, writeAtom]; omega)

/-- Every name between bars, with the escapes that the writer uses. -/
theorem C69_escaped (e : Env) (s rest : List Char) (hr : Delimited rest) :
    read e ('|' :: s.flatMap symEsc ++ '|' :: rest) = .datum (.atom (.sym s)) rest := by
  have e1 : '|' :: s.flatMap symEsc ++ '|' :: rest = ('|' :: s.flatMap symEsc ++ ['|']) ++ rest := by simp
  rw [e1]
  unfold read
  exact readItem_of (reads_escaped s) hr.stop (by simp; omega)

/-! ## examples -/

/-- ASCII only. -/
def asciiCat (c : Char) : Cat := if c.toNat < 128 then .Ll else if c.toNat = 0x663 then .Nd else if extraSpace false c then .Zs else .Lo

example : SpacesOk asciiCat := by
  intro c hc
  left
  unfold asciiCat
  rw [if_neg (by omega), if_neg (by omega), if_pos (by unfold extraSpace; simp; omega)]

/-- `(a |b c| "x\ny" #\space . #0=#(-3/4 'q))` -/
def sample : Tree :=
  .pair (.atom (.sym ['a'])) (.pair (.atom (.sym "b c".toList)) (.pair (.atom (.str "x\ny".toList)) (.pair (.atom (.char ' '))
    (.lab 0 (.vec [.atom (.num (.exact (.rat (.fix (-3)) (.fix 4)))), .abbr .quote (.atom (.sym ['q']))])))))

example : writeTree ⟨asciiCat, fun _ => 0, -3, 10, 0⟩ sample = "(a |b c| \"x\\ny\" #\\space . #0=#(-3/4 'q))".toList := by decide +kernel

example : Readable asciiCat (fun _ => 0) sample := by
  have h : ∀ s : List Char, (∀ c ∈ s, c.toNat < 128) → PlainName asciiCat s := by
    intro s hs c hc hge; have := hs c hc; omega
  simp only [sample, Readable, ReadableL, AtomReadable, and_true, true_and]
  refine ⟨h _ (by decide), h _ (by decide), by norm_num, ?_, h _ (by decide)⟩
  simp only [Q.Canonical, Bignum.Num.Canonical, Bignum.Num.toInt]
  decide

/-- The hypotheses of `C68_bug_digit` are met by the Arabic digit three. -/
example : 128 ≤ (Char.ofNat 0x663).toNat ∧ asciiCat (Char.ofNat 0x663) = .Nd := by decide

end Gauche.Sexp

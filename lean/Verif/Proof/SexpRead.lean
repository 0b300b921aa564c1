import Verif.Proof.SexpAtom
import Verif.Spec.Sexp
/-
What is written is read back: symbols, numbers, and the structure of lists and vectors.
-/
namespace Gauche.Sexp
open Gauche.NumText

theorem lex_mono {cat : Char → Cat} {k : Lex} {c : Char} (h : lexCategory cat k c = true) : lexCategory cat .subsequent c = true := by
  unfold lexCategory at h ⊢
  by_cases h1 : c.toNat < 128
  · rw [if_pos h1] at h ⊢
    have := ascii_all (P := fun c => !(asciiLex k c) || asciiLex .subsequent c) (by cases k <;> decide +kernel) c h1
    simpa [h] using this
  · rw [if_neg h1] at h ⊢
    by_cases h2 : c.toNat = 0x200c ∨ c.toNat = 0x200d
    · rw [if_pos h2]
    · rw [if_neg h2] at h ⊢
      cases hcat : cat c <;> simp_all

theorem subsequent_all {cat : Char → Cat} {s : List Char} (h : needSubsequent cat s = false) : ∀ c ∈ s, lexCategory cat .subsequent c = true := by
  intro c hc
  unfold needSubsequent at h
  rw [List.any_eq_false] at h
  simpa using h c hc

theorem dot_all {cat : Char → Cat} {s : List Char} (h : needDot cat s = false) : ∀ c ∈ s, lexCategory cat .subsequent c = true := by
  cases s with
  | nil => simp
  | cons c s =>
    unfold needDot at h
    simp only [] at h
    by_cases hd : c ≠ '.' ∧ lexCategory cat .signSubsequent c = false
    · rw [if_pos hd] at h; cases h
    · rw [if_neg hd] at h
      intro d hm
      rw [List.mem_cons] at hm
      rcases hm with rfl | hm
      · by_cases hdot : d = '.'
        · subst hdot; unfold lexCategory; rw [if_pos (by decide)]; decide
        · cases hl : lexCategory cat .signSubsequent d with
          | true => exact lex_mono hl
          | false => exact absurd ⟨hdot, hl⟩ hd
      · exact subsequent_all h d hm

theorem bare_all {cat : Char → Cat} {s : List Char} (h : escapeRequired cat s = false) : ∀ c ∈ s, lexCategory cat .subsequent c = true := by
  cases s with
  | nil => simp
  | cons c r =>
    have hpm : ∀ d, d = '+' ∨ d = '-' ∨ d = '.' → lexCategory cat .subsequent d = true := by
      rintro d (rfl | rfl | rfl) <;> (unfold lexCategory; rw [if_pos (by decide)]; decide)
    unfold escapeRequired at h
    simp only [] at h
    intro x hx
    rw [List.mem_cons] at hx
    by_cases hs : c = '+' ∨ c = '-'
    · rw [if_pos hs] at h
      rcases hx with rfl | hx
      · exact hpm _ (by tauto)
      cases r with
      | nil => cases hx
      | cons d r' =>
        simp only [] at h
        by_cases hdot : d = '.'
        · rw [if_pos hdot] at h
          rw [List.mem_cons] at hx
          rcases hx with rfl | hx
          · exact hpm _ (by tauto)
          · exact dot_all h x hx
        rw [if_neg hdot] at h
        by_cases h1 : r' = [] ∧ (d = 'i' ∨ d = 'I')
        · rw [if_pos h1] at h; cases h
        rw [if_neg h1] at h
        cases h2 : specialNum (d :: r') with
        | true => rw [if_pos h2] at h; cases h
        | false =>
          rw [h2, if_neg (by decide)] at h
          cases h3 : lexCategory cat .signSubsequent d with
          | false => rw [if_pos h3] at h; cases h
          | true =>
            rw [h3, if_neg (by decide)] at h
            rw [List.mem_cons] at hx
            rcases hx with rfl | hx
            · exact lex_mono h3
            · exact subsequent_all h x hx
    rw [if_neg hs] at h
    by_cases hdot : c = '.'
    · rw [if_pos hdot] at h
      rcases hx with rfl | hx
      · exact hpm _ (by tauto)
      · exact dot_all h x hx
    rw [if_neg hdot] at h
    cases h3 : lexCategory cat .initial c with
    | false => rw [if_pos h3] at h; cases h
    | true =>
      rw [h3, if_neg (by decide)] at h
      rcases hx with rfl | hx
      · exact lex_mono h3
      · exact subsequent_all h x hx

theorem initial_of_bare {cat : Char → Cat} {c : Char} {r : List Char} (h : escapeRequired cat (c :: r) = false) (h1 : c ≠ '+') (h2 : c ≠ '-') (h3 : c ≠ '.') :
    lexCategory cat .initial c = true := by
  unfold escapeRequired at h
  simp only [] at h
  rw [if_neg (by tauto), if_neg h3] at h
  cases h3 : lexCategory cat .initial c with
  | false => rw [if_pos h3] at h; cases h
  | true => rfl

theorem initial_ne {cat : Char → Cat} {c : Char} (h : lexCategory cat .initial c = true) :
    (∀ d ∈ "(\"#'`,|[{+-.)]};".toList, c ≠ d) ∧ asciiDigit c = false ∧ cSpace c = false := by
  by_cases hc : c.toNat < 128
  · unfold lexCategory at h
    rw [if_pos hc] at h
    have := ascii_all (P := fun c => !(asciiLex .initial c) || (("(\"#'`,|[{+-.)]};".toList.all fun d => c != d) && !asciiDigit c && !cSpace c))
      (by decide +kernel) c hc
    simp only [h, Bool.not_true, Bool.false_or, Bool.and_eq_true] at this
    obtain ⟨⟨h1, h2⟩, h3⟩ := this
    refine ⟨fun d hd => ?_, by simpa using h2, by simpa using h3⟩
    have := List.all_eq_true.1 h1 d hd
    simpa using this
  · refine ⟨?_, ?_, ?_⟩
    · intro d hd
      have : ∀ d ∈ "(\"#'`,|[{+-.)]};".toList, d.toNat < 128 := by decide
      rintro rfl
      exact hc (this c hd)
    · unfold asciiDigit; simp; omega
    · unfold cSpace; simp; omega

theorem skip_char {c : Char} {s : List Char} (h1 : cSpace c = false) (h2 : c ≠ ';') (h3 : extraSpace false c = false) : skipws false (c :: s) = c :: s := by
  rw [skipws]
  by_cases h : c.toNat ≤ 127
  · rw [if_pos h, h1]; simp [h2]
  · rw [if_neg h, h3]; simp

theorem extra_ascii {c : Char} {b : Bool} (h : c.toNat < 128) : extraSpace b c = false := by
  unfold extraSpace
  simp only []
  have : (b = true ∨ b = false) := by cases b <;> simp
  simp
  omega

theorem initial_extra {cat : Char → Cat} (hsp : SpacesOk cat) {c : Char} (h : lexCategory cat .initial c = true) : extraSpace false c = false := by
  by_cases hc : c.toNat < 128
  · exact extra_ascii hc
  · cases he : extraSpace false c with
    | false => rfl
    | true =>
      exfalso
      have hz := hsp c (by unfold extraSpace at he; simp at he; omega)
      unfold lexCategory at h
      rw [if_neg hc] at h
      by_cases h2 : c.toNat = 0x200c ∨ c.toNat = 0x200d
      · unfold extraSpace at he; simp at he; omega
      · rw [if_neg h2] at h
        rcases hz with hz | hz | hz <;> rw [hz] at h <;> simp at h

/-! ### the first character -/

/-- A text begins with a character of a datum. -/
def HeadOk (cat : Char → Cat) (w : List Char) : Prop :=
  ∃ c r, w = c :: r ∧ c ≠ ')' ∧ (∀ s, skipws false (c :: s) = c :: s) ∧ (c = '.' → ∃ d r', r = d :: r' ∧ wordChar cat false d = true ∧ d ≠ ')')

theorem headOk_of {cat : Char → Cat} {c : Char} {r : List Char} (h1 : c ≠ ')') (h2 : cSpace c = false) (h3 : c ≠ ';') (h4 : c ≠ '.') (h5 : c.toNat < 128) :
    HeadOk cat (c :: r) :=
  ⟨c, r, rfl, h1, fun _ => skip_char h2 h3 (extra_ascii h5), fun h => absurd h h4⟩

theorem headOk_sharp {cat : Char → Cat} {r : List Char} : HeadOk cat ('#' :: r) :=
  headOk_of (by decide) (by decide) (by decide) (by decide) (by decide)

/-- The text of one datum, followed by something else. -/
def Reads (e : Env) (w : List Char) (t : Tree) : Prop :=
  HeadOk e.cat w ∧ ∀ n rest, Stop e.cat rest → 4 * w.length ≤ n → readInternal e n (w ++ rest) = .datum t rest

theorem readInternal_head {e : Env} {n : Nat} {c : Char} {s : List Char} (h : ∀ s, skipws false (c :: s) = c :: s) :
    readInternal e (n + 1) (c :: s) =
      (if c = '(' then readList e n ')' s
      else if c = '"' then
        match readString .text [] s with
        | .ok (t, rest) => .datum (.atom (.str t)) rest
        | .err => .err
        | .other => .other
      else if c = '#' then readSharp e n s
      else if c = '\'' then readQuoted e n .quote s
      else if c = '`' then readQuoted e n .quasi s
      else if c = ':' then readKeyword e.cat s
      else if c = ',' then
        match s with
        | [] => .err
        | c1 :: r1 => if c1 = '@' then readQuoted e n .splice r1 else readQuoted e n .unquote s
      else if c = '|' then
        match readEscaped .text [] s with
        | .ok (t, rest) => .datum (.atom (.sym t)) rest
        | .err => .err
        | .other => .other
      else if c = '[' then readList e n ']' s
      else if c = '{' then readList e n '}' s
      else if c = '+' ∨ c = '-' then readSymNum e c s
      else if c = '.' then
        match s with
        | [] => .err
        | c1 :: _ => if wordChar e.cat false c1 = false then .err else readSymNum e c s
      else if asciiDigit c then readSymNum e c s
      else if c = ')' ∨ c = ']' ∨ c = '}' then .err
      else readSymbol e.cat c s) := by
  rw [readInternal, h]
  rfl

theorem bare_nohash {cat : Char → Cat} {s : List Char} (h : ∀ c ∈ s, wordChar cat false c = true) : s.contains '#' = false := by
  cases hc : s.contains '#' with
  | false => rfl
  | true =>
    have := h '#' (by simpa using hc)
    rw [word_ne_hash] at this; cases this

theorem reads_bare {e : Env} (hsp : SpacesOk e.cat) {s : List Char} (hne : s ≠ []) (hb : escapeRequired e.cat s = false) (hp : PlainName e.cat s) :
    Reads e s (.atom (.sym s)) := by
  cases s with
  | nil => exact absurd rfl hne
  | cons c r =>
    have hw : ∀ d ∈ c :: r, wordChar e.cat false d = true := fun d hd => lex_word (bare_all hb d hd) (hp d hd) false
    have hwr : ∀ d ∈ r, wordChar e.cat false d = true := fun d hd => hw d (List.mem_cons_of_mem _ hd)
    have hwt : ∀ d ∈ r, wordChar e.cat true d = true := fun d hd => word_hash (hwr d hd)
    have hnh := bare_nohash hw
    have hsn : ∀ rest, Stop e.cat rest → (c = '+' ∨ c = '-' ∨ c = '.') → readSymNum e c (r ++ rest) = .datum (.atom (.sym (c :: r))) rest := by
      intro rest hr hc
      unfold readSymNum
      rw [readWord_eq hwt hr, map_fold_false]
      simp only []
      rw [parse_no hb hc]
      simp only [hnh]
      rfl
    by_cases hs : c = '+' ∨ c = '-'
    · constructor
      · rcases hs with rfl | rfl <;> exact headOk_of (by decide) (by decide) (by decide) (by decide) (by decide)
      · intro n rest hr hn
        cases n with
        | zero => simp at hn
        | succ n =>
          rw [List.cons_append, readInternal_head]
          · rcases hs with rfl | rfl
            · simp; exact hsn rest hr (by tauto)
            · simp; exact hsn rest hr (by tauto)
          · rcases hs with rfl | rfl <;> exact fun _ => skip_char (by decide) (by decide) (by decide)
    by_cases hdot : c = '.'
    · subst hdot
      obtain ⟨d, r', rfl, hd⟩ : ∃ d r', r = d :: r' ∧ asciiDigit d = false := by
        unfold escapeRequired at hb
        simp only [] at hb
        rw [if_neg (by decide), if_pos trivial] at hb
        exact needDot_head hb
      have hd1 := hwr d (by simp)
      have hd2 : d ≠ ')' := by rintro rfl; unfold wordChar at hd1; rw [if_pos (by decide)] at hd1; revert hd1; decide
      constructor
      · exact ⟨'.', d :: r', rfl, by decide, fun _ => skip_char (by decide) (by decide) (by decide), fun _ => ⟨d, r', rfl, hd1, hd2⟩⟩
      · intro n rest hr hn
        cases n with
        | zero => simp at hn
        | succ n =>
          rw [List.cons_append, readInternal_head fun _ => skip_char (by decide) (by decide) (by decide)]
          simp [hd1]
          exact hsn rest hr (by tauto)
    · have hi := initial_of_bare hb (by tauto) (by tauto) hdot
      obtain ⟨hne', hdig, hspc⟩ := initial_ne hi
      have hskip : ∀ s, skipws false (c :: s) = c :: s := fun s => skip_char hspc (hne' ';' (by decide)) (initial_extra hsp hi)
      refine ⟨⟨c, r, rfl, hne' ')' (by decide), hskip, fun h => absurd h hdot⟩, ?_⟩
      intro n rest hr hn
      cases n with
      | zero => simp at hn
      | succ n =>
        rw [List.cons_append, readInternal_head hskip]
        rw [if_neg (hne' '(' (by decide)), if_neg (hne' '"' (by decide)), if_neg (hne' '#' (by decide)), if_neg (hne' '\'' (by decide)),
          if_neg (hne' '`' (by decide))]
        by_cases hcol : c = ':'
        · subst hcol
          rw [if_pos rfl]
          unfold readKeyword
          have hbar : ∀ t, r ++ rest ≠ '|' :: t := by
            intro t ht
            cases r with
            | nil => exact (hr '|' t ht).2 rfl
            | cons d r' =>
              injection ht with h1 _
              have := hwr d (by simp)
              rw [h1] at this
              unfold wordChar at this; rw [if_pos (by decide)] at this; revert this; decide
          split
          · rename_i t ht; exact absurd ht (hbar t)
          · rw [readWord_eq hwr hr, map_fold_false]
        · rw [if_neg hcol, if_neg (hne' ',' (by decide)), if_neg (hne' '|' (by decide)), if_neg (hne' '[' (by decide)), if_neg (hne' '{' (by decide)),
            if_neg hs, if_neg hdot, hdig]
          rw [if_neg (by decide), if_neg (by
            rintro (h | h | h)
            · exact hne' ')' (by decide) h
            · exact hne' ']' (by decide) h
            · exact hne' '}' (by decide) h)]
          unfold readSymbol
          rw [readWord_eq hwt hr, map_fold_false]
          simp only [hnh]
          rfl

theorem reads_escaped {e : Env} (s : List Char) : Reads e ('|' :: s.flatMap symEsc ++ ['|']) (.atom (.sym s)) := by
  constructor
  · exact headOk_of (by decide) (by decide) (by decide) (by decide) (by decide)
  · intro n rest _ hn
    cases n with
    | zero => simp at hn
    | succ n =>
      have : '|' :: s.flatMap symEsc ++ ['|'] ++ rest = '|' :: (s.flatMap symEsc ++ '|' :: rest) := by simp
      rw [this, readInternal_head fun _ => skip_char (by decide) (by decide) (by decide)]
      simp [readEscaped_write]

theorem reads_symbol {e : Env} (hsp : SpacesOk e.cat) {s : List Char} (h : escapeRequired e.cat s = true ∨ PlainName e.cat s) :
    Reads e (writeSymbol e.cat s) (.atom (.sym s)) := by
  unfold writeSymbol
  by_cases hs : s = []
  · rw [if_pos hs, hs]; exact reads_escaped []
  rw [if_neg hs]
  cases he : escapeRequired e.cat s with
  | true => exact reads_escaped s
  | false => exact reads_bare hsp hs he (by rcases h with h | h; rw [he] at h; cases h; exact h)

theorem reads_string {e : Env} (s : List Char) : Reads e (writeString e.cat s) (.atom (.str s)) := by
  unfold writeString
  constructor
  · exact headOk_of (by decide) (by decide) (by decide) (by decide) (by decide)
  · intro n rest _ hn
    cases n with
    | zero => simp at hn
    | succ n =>
      have : '"' :: s.flatMap (strEsc e.cat) ++ ['"'] ++ rest = '"' :: (s.flatMap (strEsc e.cat) ++ '"' :: rest) := by simp
      rw [this, readInternal_head fun _ => skip_char (by decide) (by decide) (by decide)]
      simp [readString_write]

theorem readInternal_sharp {e : Env} {n : Nat} {s : List Char} : readInternal e (n + 1) ('#' :: s) = readSharp e n s := by
  rw [readInternal_head fun _ => skip_char (by decide) (by decide) (by decide)]
  simp

theorem reads_char {e : Env} (c : Char) : Reads e (writeChar e.cat c) (.atom (.char c)) := by
  constructor
  · unfold writeChar; exact headOk_sharp
  · intro n rest hr hn
    obtain ⟨w, hw, hc⟩ := readChar_write e.cat c hr
    rw [hw] at hn ⊢
    match n, hn with
    | n + 2, _ =>
      rw [List.cons_append, readInternal_sharp, List.cons_append, readSharp]
      simp [hc, asciiDigit]
    | 0, hn => simp at hn
    | 1, hn => simp at hn; omega

theorem reads_bool {e : Env} (b : Bool) : Reads e (writeAtom e (.bool b)) (.atom (.bool b)) := by
  have hb : writeAtom e (.bool b) = '#' :: (if b then ['t'] else ['f']) := by cases b <;> rfl
  rw [hb]
  refine ⟨headOk_sharp, ?_⟩
  intro n rest hr hn
  have hrw := readWord_eq (cat := e.cat) (fold := true) (hash := false) (w := []) (by simp) hr
  rw [List.nil_append] at hrw
  match n, hn with
  | n + 2, _ =>
    rw [List.cons_append, readInternal_sharp]
    cases b with
    | true =>
      simp only [if_true, List.singleton_append]
      rw [readSharp]
      simp [readSharpWord, hrw]
    | false =>
      simp only [Bool.false_eq_true, if_false, List.singleton_append]
      rw [readSharp]
      simp [readSharpWord, hrw]
  | 0, hn => cases b <;> simp at hn
  | 1, hn => cases b <;> simp at hn

end Gauche.Sexp

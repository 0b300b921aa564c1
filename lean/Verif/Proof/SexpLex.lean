import Verif.Model.Sexp
import Mathlib.Data.List.Basic
import Mathlib.Tactic.Ring
/-
Lemmas about characters, words and digits for the external representation of data.
-/
namespace Gauche.Sexp
open Gauche.NumText

theorem toNat_ofNat_self (c : Char) : Char.ofNat c.toNat = c := Char.ofNat_toNat c

theorem ascii_all {P : Char → Bool} (h : ∀ n : Fin 128, P (Char.ofNat n) = true) (c : Char) (hc : c.toNat < 128) : P c = true := by
  have := h ⟨c.toNat, hc⟩
  simpa [toNat_ofNat_self] using this

/-- A character that the reader allows inside of words whenever the writer does. -/
def Plain (cat : Char → Cat) (c : Char) : Prop := 128 ≤ c.toNat → cat c ≠ .Nd ∧ cat c ≠ .Mc ∧ cat c ≠ .Me

theorem lex_ascii (k : Lex) (c : Char) (hc : c.toNat < 128) (h : asciiLex k c = true) : (wordTable.getD c.toNat 0 == 1) = true := by
  have := ascii_all (P := fun c => !(asciiLex k c) || (wordTable.getD c.toNat 0 == 1)) (by cases k <;> decide +kernel) c hc
  simpa [h] using this

theorem lex_word {cat : Char → Cat} {k : Lex} {c : Char} (h : lexCategory cat k c = true) (hp : Plain cat c) (hash : Bool) :
    wordChar cat hash c = true := by
  unfold lexCategory at h
  unfold wordChar
  by_cases h1 : c.toNat < 128
  · rw [if_pos h1] at h ⊢
    rw [lex_ascii k c h1 h]; rfl
  · rw [if_neg h1] at h ⊢
    by_cases h2 : c.toNat = 0x200c ∨ c.toNat = 0x200d
    · rw [if_pos h2]
    · rw [if_neg h2] at h ⊢
      obtain ⟨p1, p2, p3⟩ := hp (by omega)
      cases hcat : cat c <;> simp_all

theorem word_hash {cat : Char → Cat} {c : Char} (h : wordChar cat false c = true) : wordChar cat true c = true := by
  unfold wordChar at h ⊢
  by_cases h1 : c.toNat < 128
  · rw [if_pos h1] at h ⊢
    simp at h
    simp [h]
  · rw [if_neg h1] at h ⊢; exact h

theorem word_nohash {cat : Char → Cat} {c : Char} (h : wordChar cat true c = false) : wordChar cat false c = false := by
  cases hh : wordChar cat false c with
  | false => rfl
  | true => rw [word_hash hh] at h; cases h

theorem word_ne_hash {cat : Char → Cat} : wordChar cat false '#' = false := by
  unfold wordChar; rw [if_pos (by decide)]; decide

/-- The text after a datum: it is empty, or begins with a character that ends words (but not with a bar: `:|a|` is one symbol). -/
def Stop (cat : Char → Cat) (s : List Char) : Prop := ∀ c r, s = c :: r → wordChar cat true c = false ∧ c ≠ '|'

theorem takeWhile_stop {p : Char → Bool} {w rest : List Char} (hw : ∀ c ∈ w, p c = true) (hr : ∀ c r, rest = c :: r → p c = false) :
    (w ++ rest).takeWhile p = w ∧ (w ++ rest).dropWhile p = rest := by
  induction w with
  | nil =>
    cases rest with
    | nil => exact ⟨rfl, rfl⟩
    | cons c r => simp [hr c r rfl]
  | cons c w ih =>
    obtain ⟨h1, h2⟩ := ih fun d hd => hw d (List.mem_cons_of_mem _ hd)
    have hc := hw c (by simp)
    constructor <;> simp [hc, h1, h2]

theorem readWord_eq {cat : Char → Cat} {fold hash : Bool} {w rest : List Char} (hw : ∀ c ∈ w, wordChar cat hash c = true) (hr : Stop cat rest) :
    readWord cat fold hash (w ++ rest) = (w.map (foldCase fold), rest) := by
  have hr' : ∀ c r, rest = c :: r → wordChar cat hash c = false := by
    intro c r h
    have := (hr c r h).1
    cases hash with
    | true => exact this
    | false => exact word_nohash this
  obtain ⟨h1, h2⟩ := takeWhile_stop hw hr'
  unfold readWord
  rw [h1, h2]

theorem map_fold_false (w : List Char) : w.map (foldCase false) = w := by
  have : foldCase false = id := by funext c; unfold foldCase; simp
  rw [this, List.map_id]

/-! ### numbers that are not -/

theorem digval_nondigit {c : Char} (h : asciiDigit c = false) : digval 10 c.toLower = none := by
  by_cases hc : c.toNat < 128
  · have := ascii_all (P := fun c => asciiDigit c || (digval 10 c.toLower).isNone) (by decide +kernel) c hc
    simpa [h] using this
  · have hl : c.toLower = c := by
      unfold Char.toLower
      rw [dif_neg]
      intro hh
      have h2 : c.val ≤ 90 := hh.2
      have : c.toNat ≤ 90 := by
        have := UInt32.le_iff_toNat_le.1 h2
        exact this
      omega
    rw [hl]
    unfold digval
    rw [List.idxOf?_eq_none_iff]
    intro hm
    have : ∀ d ∈ tab.take 10, d.toNat < 128 := by decide
    exact hc (this c hm)

theorem readUint_bad {strict : Bool} {c : Char} (h : asciiDigit c = false) (cs : List Char) : readUint 10 strict (c :: cs) = .bad := by
  have h0 : c ≠ '0' := by rintro rfl; exact absurd h (by decide)
  unfold readUint
  simp only [List.takeWhile_cons, List.dropWhile_cons, h0, decide_false, Bool.false_eq_true, if_false, List.isEmpty_nil, Bool.not_true]
  unfold ruLoop
  simp only [digval_nondigit h]
  by_cases hu : c.toLower = '_'
  · rw [if_pos hu]; cases strict <;> simp
  · rw [if_neg hu]; simp

theorem sign_nondigit {cat : Char → Cat} {c : Char} (h : lexCategory cat .signSubsequent c = true) : asciiDigit c = false ∧ c ≠ '.' ∧ c ≠ '#' := by
  unfold lexCategory at h
  by_cases hc : c.toNat < 128
  · rw [if_pos hc] at h
    have := ascii_all (P := fun c => !asciiLex .signSubsequent c || (!asciiDigit c && c != '.' && c != '#')) (by decide +kernel) c hc
    simpa [h, and_assoc] using this
  · refine ⟨?_, ?_, ?_⟩
    · unfold asciiDigit; simp; omega
    · rintro rfl; exact hc (by decide)
    · rintro rfl; exact hc (by decide)

theorem toLower_big {c : Char} (hc : ¬ c.toNat < 128) : c.toLower = c := by
  unfold Char.toLower
  rw [dif_neg]
  intro hh
  have h2 : c.val ≤ 90 := hh.2
  have : c.toNat ≤ 90 := UInt32.le_iff_toNat_le.1 h2
  omega

theorem toLower_eq {d e : Char} (he : (d, e) ∈ [('i', 'I'), ('n', 'N'), ('f', 'F'), ('a', 'A'), ('.', '.'), ('0', '0')]) {c : Char}
    (hd : c.toLower = d) : c = d ∨ c = e := by
  by_cases hc : c.toNat < 128
  · have : ∀ p ∈ [('i', 'I'), ('n', 'N'), ('f', 'F'), ('a', 'A'), ('.', '.'), ('0', '0')], ∀ n : Fin 128,
        (!((Char.ofNat n).toLower == p.1) || ((Char.ofNat n) == p.1 || (Char.ofNat n) == p.2)) = true := by decide +kernel
    have := ascii_all (P := fun c => !(c.toLower == d) || (c == d || c == e)) (this _ he) c hc
    simpa [hd] using this
  · rw [toLower_big hc] at hd
    exact Or.inl hd

theorem lower5_inf {s : List Char} (h : specialNum s = false) : ((s.take 5).map Char.toLower == "inf.0".toList) = false ∧
    ((s.take 5).map Char.toLower == "nan.0".toList) = false := by
  match s, h with
  | a :: b :: c :: d :: x :: r, h =>
    have e1 : "inf.0".toList = ['i', 'n', 'f', '.', '0'] := by decide
    have e2 : "nan.0".toList = ['n', 'a', 'n', '.', '0'] := by decide
    rw [e1, e2]
    simp only [List.take, List.map_cons, List.map_nil, beq_eq_false_iff_ne, ne_eq]
    constructor
    · intro hh
      injection hh with h1 hh; injection hh with h2 hh; injection hh with h3 hh; injection hh with h4 hh; injection hh with h5 hh
      rcases toLower_eq (e := 'I') (by decide) h1 with rfl | rfl <;> rcases toLower_eq (e := 'N') (by decide) h2 with rfl | rfl <;>
      rcases toLower_eq (e := 'F') (by decide) h3 with rfl | rfl <;> rcases toLower_eq (e := '.') (by decide) h4 with rfl | rfl <;>
      rcases toLower_eq (e := '0') (by decide) h5 with rfl | rfl <;> simp [specialNum] at h
    · intro hh
      injection hh with h1 hh; injection hh with h2 hh; injection hh with h3 hh; injection hh with h4 hh; injection hh with h5 hh
      rcases toLower_eq (e := 'N') (by decide) h1 with rfl | rfl <;> rcases toLower_eq (e := 'A') (by decide) h2 with rfl | rfl <;>
      rcases toLower_eq (e := 'N') (by decide) h3 with rfl | rfl <;> rcases toLower_eq (e := '.') (by decide) h4 with rfl | rfl <;>
      rcases toLower_eq (e := '0') (by decide) h5 with rfl | rfl <;> simp [specialNum] at h
  | [], _ => exact ⟨rfl, rfl⟩
  | [_], _ => simp [show "inf.0".toList = ['i', 'n', 'f', '.', '0'] by decide, show "nan.0".toList = ['n', 'a', 'n', '.', '0'] by decide]
  | [_, _], _ => simp [show "inf.0".toList = ['i', 'n', 'f', '.', '0'] by decide, show "nan.0".toList = ['n', 'a', 'n', '.', '0'] by decide]
  | [_, _, _], _ => simp [show "inf.0".toList = ['i', 'n', 'f', '.', '0'] by decide, show "nan.0".toList = ['n', 'a', 'n', '.', '0'] by decide]
  | [_, _, _, _], _ => simp [show "inf.0".toList = ['i', 'n', 'f', '.', '0'] by decide, show "nan.0".toList = ['n', 'a', 'n', '.', '0'] by decide]

/-- The text after a sign or a dot in a symbol that is written without bars. -/
theorem udec_no {fuel : Nat} {minusp sign : Bool} {s : List Char} (hs : sign = true → specialNum s = false)
    (h : (∃ c r, s = c :: r ∧ asciiDigit c = false ∧ c ≠ '.') ∨ (∃ c r, s = '.' :: c :: r ∧ asciiDigit c = false)) :
    FloText.readUdec fuel false minusp sign s = .no ∧ (readUreal 10 false .noexact minusp sign s = .no ∨
      readUreal 10 false .noexact minusp sign s = .other) := by
  have hA : (sign && (s.take 5).map Char.toLower == "inf.0".toList) = false := by
    cases sign with
    | false => rfl
    | true => exact (lower5_inf (hs rfl)).1
  have hB : (sign && (s.take 5).map Char.toLower == "nan.0".toList) = false := by
    cases sign with
    | false => rfl
    | true => exact (lower5_inf (hs rfl)).2
  have hne : s ≠ [] := by rcases h with ⟨_, _, rfl, _⟩ | ⟨_, _, rfl, _⟩ <;> simp
  have hsp : (sign && isSpecial s) = false := by
    unfold isSpecial
    cases sign with
    | false => rfl
    | true =>
      simp only [Bool.true_and] at hA hB ⊢
      rw [hA, hB]; rfl
  rcases h with ⟨c, r, rfl, hd, hdot⟩ | ⟨c, r, rfl, hd⟩
  · constructor
    · unfold FloText.readUdec
      rw [if_neg hne, hA, hB]
      simp only [Bool.false_eq_true, if_false]
      split
      · rename_i t he; injection he with h1 _; exact absurd h1 hdot
      · rw [readUint_bad hd]
    · left
      unfold readUreal
      rw [if_neg hne, hsp]
      simp only [Bool.false_eq_true, if_false, List.head?_cons, Option.some.injEq, hdot]
      rw [readUint_bad hd]
  · constructor
    · unfold FloText.readUdec
      rw [if_neg hne, hA, hB]
      simp only [Bool.false_eq_true, if_false]
      rw [if_neg (by simp)]
      unfold FloText.readFrac
      simp only []
      rw [readUint_bad hd]
    · right
      unfold readUreal
      rw [if_neg hne, hsp]
      simp

/-- After a sign or a dot a symbol that is written without bars goes on like this. -/
theorem needDot_head {cat : Char → Cat} {r : List Char} (h : needDot cat r = false) : ∃ c r', r = c :: r' ∧ asciiDigit c = false := by
  cases r with
  | nil => simp [needDot] at h
  | cons c r =>
    refine ⟨c, r, rfl, ?_⟩
    unfold needDot at h
    simp only [] at h
    by_cases hd : c = '.'
    · subst hd; decide
    · cases hl : lexCategory cat .signSubsequent c with
      | true => exact (sign_nondigit hl).1
      | false => rw [if_pos ⟨hd, hl⟩] at h; cases h

theorem stringToNumber_plain {c : Char} {s : List Char} (hc : c ≠ '#') (o : Out) (ho : o = .no ∨ o = .other)
    (h : readBody 10 false .noexact (c :: s) = o) :
    stringToNumber ⟨10, false, false, .noexact⟩ (c :: s) = .no ∨ stringToNumber ⟨10, false, false, .noexact⟩ (c :: s) = .other := by
  unfold stringToNumber
  by_cases ha : ((c :: s).any fun c => decide (c.toNat ≥ 128)) = true
  · rw [if_pos ha]; exact Or.inl rfl
  · rw [if_neg ha, if_neg (by decide)]
    have : readPrefix ((c :: s).length + 1) ⟨10, false, false, .noexact⟩ false false (c :: s) = readBody 10 false .noexact (c :: s) := by
      unfold readPrefix
      simp only []
      split
      · rename_i he; injection he with h1 _; exact absurd h1 hc
      · rename_i he; injection he with h1 _; exact absurd h1 hc
      · rfl
    rw [this, h]
    rcases ho with rfl | rfl
    · exact Or.inl rfl
    · exact Or.inr rfl

theorem readBody_of {s : List Char} (h0 : s ≠ []) (h1 : ¬ ((s.head? = some '+' ∨ s.head? = some '-') ∧ s.length = 1))
    (h2 : ¬ ((s.head? = some '+' ∨ s.head? = some '-') ∧ s.length = 2 ∧ (s[1]? = some 'i' ∨ s[1]? = some 'I')))
    (h : readReal 10 false .noexact s = .no ∨ readReal 10 false .noexact s = .other) :
    readBody 10 false .noexact s = .no ∨ readBody 10 false .noexact s = .other := by
  unfold readBody
  rw [if_neg h0]
  simp only [h1, h2, if_false]
  rcases h with h | h <;> simp [h]

theorem readNumber_of {fuel : Nat} {s : List Char}
    (h2 : ¬ ((s.head? = some '+' ∨ s.head? = some '-') ∧ s.length = 2 ∧ (s[1]? = some 'i' ∨ s[1]? = some 'I')))
    (h : FloText.readDec fuel false s = .no) : FloText.readNumber fuel false s = .no := by
  unfold FloText.readNumber
  by_cases h0 : s = []
  · rw [if_pos h0]
  rw [if_neg h0]
  simp only [h2, if_false, h]
  split <;> rfl

theorem parse_of {fuel : Nat} {s : List Char} (h1 : stringToNumber ⟨10, false, false, .noexact⟩ s = .no ∨
    stringToNumber ⟨10, false, false, .noexact⟩ s = .other) (h2 : FloText.readNumber fuel false s = .no) : parseNumb fuel s = .no := by
  unfold parseNumb
  rcases h1 with h | h
  · simp only [h, h2]; split <;> rfl
  · simp only [h, h2]

/-- A symbol that begins with a sign or a dot and is written without bars is not the text of a number. -/
theorem parse_no {cat : Char → Cat} {fuel : Nat} {c : Char} {r : List Char} (he : escapeRequired cat (c :: r) = false)
    (hc : c = '+' ∨ c = '-' ∨ c = '.') : parseNumb fuel (c :: r) = .no := by
  have hhash : c ≠ '#' := by rcases hc with rfl | rfl | rfl <;> decide
  unfold escapeRequired at he
  simp only [] at he
  by_cases hs : c = '+' ∨ c = '-'
  · rw [if_pos hs] at he
    have key : FloText.readNumber fuel false (c :: r) = .no ∧ (readBody 10 false .noexact (c :: r) = .no ∨ readBody 10 false .noexact (c :: r) = .other) := by
      cases r with
      | nil =>
        constructor
        · unfold FloText.readNumber; rcases hs with rfl | rfl <;> simp
        · left; unfold readBody; rcases hs with rfl | rfl <;> simp
      | cons d r' =>
        simp only [] at he
        have hi : ¬ (((c :: d :: r').head? = some '+' ∨ (c :: d :: r').head? = some '-') ∧ (c :: d :: r').length = 2 ∧
            ((c :: d :: r')[1]? = some 'i' ∨ (c :: d :: r')[1]? = some 'I')) := by
          rintro ⟨-, hl, hd⟩
          have hr' : r' = [] := by simpa using hl
          have hd' : d = 'i' ∨ d = 'I' := by simpa using hd
          have hdot : d ≠ '.' := by rcases hd' with rfl | rfl <;> decide
          rw [if_neg hdot, if_pos ⟨hr', hd'⟩] at he
          cases he
        have hu : ∀ minusp, FloText.readUdec fuel false minusp true (d :: r') = .no ∧ (readUreal 10 false .noexact minusp true (d :: r') = .no ∨
            readUreal 10 false .noexact minusp true (d :: r') = .other) := by
          intro minusp
          by_cases hdot : d = '.'
          · subst hdot
            rw [if_pos rfl] at he
            obtain ⟨c', r'', rfl, hd⟩ := needDot_head he
            refine udec_no (fun _ => ?_) (Or.inr ⟨c', r'', rfl, hd⟩)
            match r'' with
            | a :: b :: d :: _ => simp [specialNum]
            | [] => rfl
            | [_] => rfl
            | [_, _] => rfl
          · rw [if_neg hdot] at he
            by_cases h1 : r' = [] ∧ (d = 'i' ∨ d = 'I')
            · rw [if_pos h1] at he; cases he
            rw [if_neg h1] at he
            cases h2 : specialNum (d :: r') with
            | true => rw [if_pos h2] at he; cases he
            | false =>
              rw [h2, if_neg (by decide)] at he
              cases h3 : lexCategory cat .signSubsequent d with
              | false => rw [if_pos h3] at he; cases he
              | true =>
                have := sign_nondigit h3
                exact udec_no (fun _ => h2) (Or.inl ⟨d, r', rfl, this.1, this.2.1⟩)
        constructor
        · refine readNumber_of hi ?_
          rcases hs with rfl | rfl
          · exact (hu false).1
          · exact (hu true).1
        · refine readBody_of (by simp) (by simp) hi ?_
          rcases hs with rfl | rfl
          · exact (hu false).2
          · exact (hu true).2
    refine parse_of ?_ key.1
    rcases key.2 with h | h
    · exact stringToNumber_plain hhash _ (Or.inl rfl) h
    · exact stringToNumber_plain hhash _ (Or.inr rfl) h
  · rw [if_neg hs] at he
    have hdot : c = '.' := by
      rcases hc with h | h | h
      · exact absurd (Or.inl h) hs
      · exact absurd (Or.inr h) hs
      · exact h
    subst hdot
    rw [if_pos rfl] at he
    obtain ⟨d, r', rfl, hd⟩ := needDot_head he
    have hu := udec_no (fuel := fuel) (minusp := false) (sign := false) (s := '.' :: d :: r') (by simp) (Or.inr ⟨d, r', rfl, hd⟩)
    have hsg : ¬ ((('.' :: d :: r').head? = some '+' ∨ ('.' :: d :: r').head? = some '-')) := by simp
    refine parse_of ?_ (readNumber_of (fun h => hsg h.1) ?_)
    · have : readBody 10 false .noexact ('.' :: d :: r') = .no ∨ readBody 10 false .noexact ('.' :: d :: r') = .other :=
        readBody_of (by simp) (fun h => hsg h.1) (fun h => hsg h.1) hu.2
      rcases this with h | h
      · exact stringToNumber_plain hhash _ (Or.inl rfl) h
      · exact stringToNumber_plain hhash _ (Or.inr rfl) h
    · exact hu.1

end Gauche.Sexp

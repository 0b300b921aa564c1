import Verif.Proof.SexpNum
/-
What is written is read back: lists, vectors, labels and abbreviations.
-/
namespace Gauche.Sexp

theorem stop_space {cat : Char → Cat} {s : List Char} : Stop cat (' ' :: s) := by
  intro c r h
  injection h with h1 _
  subst h1
  refine ⟨?_, by decide⟩
  unfold wordChar; rw [if_pos (by decide)]; decide

theorem stop_close {cat : Char → Cat} {s : List Char} : Stop cat (')' :: s) := by
  intro c r h
  injection h with h1 _
  subst h1
  refine ⟨?_, by decide⟩
  unfold wordChar; rw [if_pos (by decide)]; decide

theorem readInternal_space {e : Env} {n : Nat} {s : List Char} : readInternal e n (' ' :: s) = readInternal e n s := by
  cases n with
  | zero => rw [readInternal, readInternal]
  | succ n =>
    have h : skipws false (' ' :: s) = skipws false s := by rw [skipws]; simp [cSpace]
    rw [readInternal, readInternal, h]

theorem readListInt_space {e : Env} {n : Nat} {cl : Char} {acc : List Tree} {tl : Option Tree} {s : List Char} :
    readListInt e n cl acc tl (' ' :: s) = readListInt e n cl acc tl s := by
  cases n with
  | zero => rw [readListInt, readListInt]
  | succ n =>
    have h : skipws false (' ' :: s) = skipws false s := by rw [skipws]; simp [cSpace]
    rw [readListInt, readListInt, h]

theorem readItem_of {e : Env} {w : List Char} {t : Tree} (h : Reads e w t) {n : Nat} {rest : List Char} (hr : Stop e.cat rest) (hn : 4 * w.length + 1 ≤ n) :
    readItem e n (w ++ rest) = .datum t rest := by
  match n, hn with
  | n + 1, hn => rw [readItem, h.2 n rest hr (by omega)]

theorem readItem_space {e : Env} {w : List Char} {t : Tree} (h : Reads e w t) {n : Nat} {rest : List Char} (hr : Stop e.cat rest) (hn : 4 * w.length + 1 ≤ n) :
    readItem e n (' ' :: (w ++ rest)) = .datum t rest := by
  match n, hn with
  | n + 1, hn => rw [readItem, readInternal_space, h.2 n rest hr (by omega)]

theorem readListInt_item {e : Env} {w : List Char} {t : Tree} (h : Reads e w t) {n : Nat} {acc : List Tree} {rest : List Char} (hr : Stop e.cat rest)
    (hn : 4 * w.length ≤ n) :
    readListInt e (n + 1) ')' acc none (w ++ rest) = readListInt e n ')' (t :: acc) none rest := by
  have hread := h.2 n rest hr hn
  obtain ⟨⟨c, r, rfl, hc, hskip, hdot⟩, _⟩ := h
  rw [List.cons_append] at hread ⊢
  rw [readListInt, hskip]
  simp only []
  rw [if_neg hc]
  by_cases hd : c = '.'
  · obtain ⟨d, r', rfl, hw, hd'⟩ := hdot hd
    subst hd
    rw [if_pos rfl]
    match n, hn with
    | n + 1, _ =>
      rw [readInternal_head hskip] at hread
      simp [hw] at hread
      simp [hd', hw, hread]
  · rw [if_neg hd, hread]
    simp

theorem readListInt_close {e : Env} {n : Nat} {acc : List Tree} {tl : Option Tree} {rest : List Char} :
    readListInt e (n + 1) ')' acc tl (')' :: rest) = .datum (mkList acc.reverse (tl.getD (.atom .nil))) rest := by
  rw [readListInt, skip_char (by decide) (by decide) (by decide)]
  simp

/-- The text of the rest of a list. -/
def TailReads (e : Env) (w : List Char) (t : Tree) : Prop :=
  (∃ r, w = ' ' :: r ∨ w = ')' :: r) ∧
    ∀ n acc rest, acc ≠ [] → 4 * w.length ≤ n → readListInt e n ')' acc none (w ++ rest) = .datum (mkList acc.reverse t) rest

theorem tail_dot {e : Env} {w : List Char} {t : Tree} (h : Reads e w t) : TailReads e (" . ".toList ++ w ++ [')']) t := by
  constructor
  · exact ⟨_, Or.inl (by simp; rfl)⟩
  · intro n acc rest ha hn
    have e1 : (" . ".toList ++ w ++ [')']) ++ rest = ' ' :: '.' :: ' ' :: (w ++ ')' :: rest) := by simp
    have e2 : (" . ".toList ++ w ++ [')']).length = w.length + 4 := by simp
    rw [e1, readListInt_space]
    rw [e2] at hn
    match n, hn with
    | n + 2, hn =>
      rw [readListInt, skip_char (by decide) (by decide) (by decide)]
      have hsp : wordChar e.cat false ' ' = false := by unfold wordChar; rw [if_pos (by decide)]; decide
      have he : acc.isEmpty = false := by cases acc with | nil => exact absurd rfl ha | cons => rfl
      simp only [hsp, he]
      rw [readItem_space h stop_close (by omega)]
      simp [readListInt_close]

theorem tail_pair {e : Env} {w v : List Char} {t d : Tree} (h : Reads e w t) (hv : TailReads e v d) : TailReads e (' ' :: w ++ v) (.pair t d) := by
  constructor
  · exact ⟨_, Or.inl rfl⟩
  · intro n acc rest ha hn
    have e1 : (' ' :: w ++ v) ++ rest = ' ' :: (w ++ (v ++ rest)) := by simp
    simp at hn
    have hs : Stop e.cat (v ++ rest) := by
      obtain ⟨⟨r, rfl | rfl⟩, _⟩ := hv
      · exact stop_space
      · exact stop_close
    rw [e1, readListInt_space]
    match n, hn with
    | n + 1, hn =>
      rw [readListInt_item h hs (by omega), hv.2 n (t :: acc) rest (by simp) (by omega)]
      congr 1
      rw [List.reverse_cons]
      have : ∀ (l : List Tree) (x y : Tree), mkList (l ++ [x]) y = mkList l (.pair x y) := by
        intro l x y
        induction l with
        | nil => rfl
        | cons a l ih => simp [mkList, ih]
      exact this _ _ _

theorem tail_nil {e : Env} : TailReads e [')'] (.atom .nil) := by
  refine ⟨⟨[], Or.inr rfl⟩, ?_⟩
  intro n acc rest _ hn
  match n, hn with
  | n + 1, _ => rw [List.singleton_append, readListInt_close]; rfl

theorem reads_pair {e : Env} {w v : List Char} {t d : Tree} (h : Reads e w t) (hv : TailReads e v d) : Reads e ('(' :: w ++ v) (.pair t d) := by
  constructor
  · exact headOk_of (by decide) (by decide) (by decide) (by decide) (by decide)
  · intro n rest _ hn
    have e1 : ('(' :: w ++ v) ++ rest = '(' :: (w ++ (v ++ rest)) := by simp
    have hs : Stop e.cat (v ++ rest) := by
      obtain ⟨⟨r, rfl | rfl⟩, _⟩ := hv
      · exact stop_space
      · exact stop_close
    simp at hn
    rw [e1]
    match n, hn with
    | n + 3, hn =>
      rw [readInternal_head fun _ => skip_char (by decide) (by decide) (by decide), if_pos rfl, readList, readListInt_item h hs (by omega),
        hv.2 n [t] rest (by simp) (by omega)]
      rfl

theorem reads_nil {e : Env} : Reads e ['(', ')'] (.atom .nil) := by
  refine ⟨headOk_of (by decide) (by decide) (by decide) (by decide) (by decide), ?_⟩
  intro n rest _ hn
  match n, hn with
  | n + 3, hn =>
    have e1 : ['(', ')'] ++ rest = '(' :: ')' :: rest := rfl
    rw [e1, readInternal_head fun _ => skip_char (by decide) (by decide) (by decide), if_pos rfl, readList, readListInt_close]
    rfl
  | 0, hn => simp at hn
  | 1, hn => simp at hn
  | 2, hn => simp at hn

/-- The numbers of labels that the reader accepts. -/
def labelMax : Nat := 9223372036854775810

theorem readSharp_digits {e : Env} {k : Nat} (hk : k < labelMax) {m : Nat} {c : Char} {s : List Char} (hc : asciiDigit c = false) :
    readSharp e (m + 1) (decText k ++ c :: s) =
      (if c = '#' then .datum (.ref k) s
       else if c = '=' then
         match readItem e m s with
         | .datum t rest => .datum (.lab k t) rest
         | .comment _ => .err
         | .eof => .other
         | x => x
       else if c = 'r' ∨ c = 'R' ∨ c = 'a' ∨ c = 'A' ∨ c = 'c' ∨ c = 'C' ∨ c = 'f' ∨ c = 'F' ∨ c = 's' ∨ c = 'S' ∨ c = 'u' ∨ c = 'U' then .other
       else .err) := by
  obtain ⟨h1, a, r, h2, h3⟩ := decText_spec k
  have ha : asciiDigit a = true := h1 a (by rw [h2]; simp)
  have hne : ∀ d, asciiDigit d = false → a ≠ d := by rintro d hd rfl; rw [ha] at hd; cases hd
  rw [h2, List.cons_append, readSharp]
  rw [if_neg (by rintro (h | h) <;> exact hne _ (by decide) h), if_neg (by rintro (h | h) <;> exact hne _ (by decide) h), if_neg (hne _ (by decide)),
    if_neg (hne _ (by decide)), if_neg (hne _ (by decide)), if_pos ha, h3 c s hk hc]
  rfl

theorem reads_ref {e : Env} {k : Nat} (hk : k < labelMax) : Reads e ('#' :: decText k ++ ['#']) (.ref k) := by
  refine ⟨headOk_sharp, ?_⟩
  intro n rest _ hn
  have e1 : ('#' :: decText k ++ ['#']) ++ rest = '#' :: (decText k ++ '#' :: rest) := by simp
  simp at hn
  match n, hn with
  | n + 2, hn =>
    rw [e1, readInternal_sharp, readSharp_digits hk (by decide)]
    simp

theorem reads_lab {e : Env} {k : Nat} (hk : k < labelMax) {w : List Char} {t : Tree} (h : Reads e w t) : Reads e ('#' :: decText k ++ '=' :: w) (.lab k t) := by
  refine ⟨headOk_sharp, ?_⟩
  intro n rest hr hn
  have e1 : ('#' :: decText k ++ '=' :: w) ++ rest = '#' :: (decText k ++ '=' :: (w ++ rest)) := by simp
  simp at hn
  match n, hn with
  | n + 2, hn =>
    rw [e1, readInternal_sharp, readSharp_digits hk (by decide)]
    simp only [readItem_of h hr (show 4 * w.length + 1 ≤ n by omega)]
    simp

theorem reads_abbr {e : Env} {w : List Char} {t : Tree} (q : Quoter) (h : Reads e w t) (hat : ∀ r, w ≠ '@' :: r) :
    Reads e (q.mark ++ w) (.pair (.atom (.sym q.name)) (.pair t (.atom .nil))) := by
  have hq : ∀ n rest, Stop e.cat rest → 4 * w.length + 2 ≤ n →
      readQuoted e n q (w ++ rest) = .datum (.pair (.atom (.sym q.name)) (.pair t (.atom .nil))) rest := by
    intro n rest hr hn
    match n, hn with
    | n + 1, hn => rw [readQuoted, readItem_of h hr (by omega)]
  have hw : ∃ c r, w = c :: r := by obtain ⟨⟨c, r, h, _⟩, _⟩ := h; exact ⟨c, r, h⟩
  constructor
  · cases q <;> exact headOk_of (by decide) (by decide) (by decide) (by decide) (by decide)
  · intro n rest hr hn
    have hlen : (q.mark ++ w).length = q.mark.length + w.length := by simp
    have hml : 1 ≤ q.mark.length := by cases q <;> decide
    rw [hlen] at hn
    match n, hn with
    | n + 1, hn =>
      have hq' := hq n rest hr (by omega)
      obtain ⟨c, r, rfl⟩ := hw
      cases q with
      | quote =>
        show readInternal e (n + 1) ('\'' :: ((c :: r) ++ rest)) = _
        rw [readInternal_head fun _ => skip_char (by decide) (by decide) (by decide)]
        simpa using hq'
      | quasi =>
        show readInternal e (n + 1) ('`' :: ((c :: r) ++ rest)) = _
        rw [readInternal_head fun _ => skip_char (by decide) (by decide) (by decide)]
        simpa using hq'
      | unquote =>
        show readInternal e (n + 1) (',' :: ((c :: r) ++ rest)) = _
        rw [readInternal_head fun _ => skip_char (by decide) (by decide) (by decide)]
        have : c ≠ '@' := by rintro rfl; exact hat r rfl
        simpa [this] using hq'
      | splice =>
        show readInternal e (n + 1) (',' :: '@' :: ((c :: r) ++ rest)) = _
        rw [readInternal_head fun _ => skip_char (by decide) (by decide) (by decide)]
        simpa using hq'
    | 0, hn => omega

theorem vecOf_mkList (l : List Tree) : vecOf (mkList l (.atom .nil)) = some l := by
  induction l with
  | nil => rfl
  | cons a l ih => simp [mkList, vecOf, ih]

/-- The text of the elements of a vector. -/
def ElemsRead (e : Env) (w : List Char) (l : List Tree) : Prop :=
  ∀ n acc rest, 4 * w.length ≤ n → readListInt e n ')' acc none (w ++ rest) = .datum (mkList (acc.reverse ++ l) (.atom .nil)) rest

theorem elems_nil {e : Env} : ElemsRead e [')'] [] := by
  intro n acc rest hn
  match n, hn with
  | n + 1, _ => rw [List.singleton_append, readListInt_close]; simp

theorem elems_cons {e : Env} {w v : List Char} {t : Tree} {l : List Tree} (h : Reads e w t) (hv : ElemsRead e v l) (hs : ∃ r, v = ' ' :: r ∨ v = ')' :: r) :
    ElemsRead e (w ++ v) (t :: l) := by
  intro n acc rest hn
  have hst : Stop e.cat (v ++ rest) := by
    obtain ⟨r, rfl | rfl⟩ := hs
    · exact stop_space
    · exact stop_close
  have hl : 1 ≤ v.length := by obtain ⟨r, rfl | rfl⟩ := hs <;> simp
  have hl' : 1 ≤ w.length := by obtain ⟨⟨c, r, h, _⟩, _⟩ := h; rw [h]; simp
  simp at hn
  match n, hn with
  | n + 1, hn =>
    rw [List.append_assoc, readListInt_item h hst (by omega), hv n _ _ (by omega)]
    simp
  | 0, hn => omega

theorem elems_space {e : Env} {w : List Char} {l : List Tree} (h : ElemsRead e w l) : ElemsRead e (' ' :: w) l := by
  intro n acc rest hn
  rw [List.cons_append, readListInt_space]
  exact h n acc rest (by simp at hn; omega)

theorem reads_vec {e : Env} {w : List Char} {l : List Tree} (h : ElemsRead e w l) : Reads e ('#' :: '(' :: w) (.vec l) := by
  refine ⟨headOk_sharp, ?_⟩
  intro n rest _ hn
  simp at hn
  match n, hn with
  | n + 2, hn =>
    rw [List.cons_append, readInternal_sharp, List.cons_append, readSharp]
    simp only []
    rw [if_neg (by decide), if_neg (by decide), if_pos trivial, h n [] rest (by omega)]
    simp [vecOf_mkList]

/-- The data that this theory covers: symbols that are written in a form that can be read, numbers that can be read back, labels that fit. -/
def AtomOk (e : Env) : Atom → Prop
  | .sym s => escapeRequired e.cat s = true ∨ PlainName e.cat s
  | .num n => NumbOk e n
  | _ => True

mutual
def TreeOk (e : Env) : Tree → Prop
  | .atom a => AtomOk e a
  | .ref n => n < labelMax
  | .lab n t => n < labelMax ∧ TreeOk e t
  | .pair a d => TreeOk e a ∧ TreeOk e d
  | .vec l => TreesOk e l
  | .abbr _ t => TreeOk e t
def TreesOk (e : Env) : List Tree → Prop
  | [] => True
  | t :: ts => TreeOk e t ∧ TreesOk e ts
end

theorem reads_atom {e : Env} (hsp : SpacesOk e.cat) {a : Atom} (h : AtomOk e a) : Reads e (writeAtom e a) (.atom a) := by
  cases a with
  | nil => exact reads_nil
  | bool b => exact reads_bool b
  | char c => exact reads_char c
  | str s => exact reads_string s
  | sym s => exact reads_symbol hsp h
  | num n => exact reads_numb h

theorem not_at {e : Env} (hsp : SpacesOk e.cat) {t : Tree} (h : TreeOk e t) : ∀ r, (writeBoth e t).1 ≠ '@' :: r := by
  intro r hr
  cases t with
  | atom a =>
    cases a with
    | nil => cases hr
    | bool b => cases b <;> cases hr
    | char c => cases hr
    | str s => cases hr
    | sym s =>
      replace hr : writeSymbol e.cat s = '@' :: r := by simpa [writeBoth, writeAtom] using hr
      unfold writeSymbol at hr
      by_cases hs : s = []
      · rw [if_pos hs] at hr; cases hr
      rw [if_neg hs] at hr
      cases he : escapeRequired e.cat s with
      | true => rw [he] at hr; cases hr
      | false =>
        rw [he] at hr
        simp at hr
        rw [hr] at he
        have := initial_of_bare he (by decide) (by decide) (by decide)
        unfold lexCategory at this
        rw [if_pos (by decide)] at this
        revert this
        decide
    | num n =>
      have h1 := reads_atom hsp (a := .num n) (by simpa [TreeOk] using h)
      have hw : writeAtom e (.num n) = '@' :: r := by simpa [writeBoth] using hr
      rw [hw] at h1
      have h2 := h1.2 (4 * ('@' :: r).length) [] (by intro c r h; cases h) (by omega)
      have e1 : 4 * ('@' :: r).length = (4 * r.length + 3) + 1 := by simp; omega
      rw [e1, List.append_nil, readInternal_head fun _ => skip_char (by decide) (by decide) (by decide)] at h2
      simp [asciiDigit, readSymbol] at h2
      split at h2 <;> cases h2
  | ref n => cases hr
  | lab n t => unfold writeBoth at hr; cases hr
  | pair a d => unfold writeBoth at hr; cases hr
  | vec l => unfold writeBoth at hr; cases hr
  | abbr q t => unfold writeBoth at hr; cases q <;> cases hr

mutual
theorem reads_both {e : Env} (hsp : SpacesOk e.cat) : ∀ (t : Tree), TreeOk e t →
    Reads e (writeBoth e t).1 (strip t) ∧ TailReads e (writeBoth e t).2 (strip t)
  | .atom a, h => by
    rw [TreeOk] at h
    have h1 := reads_atom hsp h
    rw [writeBoth, strip]
    refine ⟨h1, ?_⟩
    by_cases ha : a = .nil
    · simp only [if_pos ha]; rw [ha]; exact tail_nil
    · simp only [if_neg ha]; exact tail_dot h1
  | .ref n, h => by
    rw [TreeOk] at h
    rw [writeBoth, strip]
    exact ⟨reads_ref h, tail_dot (reads_ref h)⟩
  | .lab n t, h => by
    rw [TreeOk] at h
    have h1 := reads_lab h.1 (reads_both hsp t h.2).1
    rw [writeBoth, strip]
    exact ⟨h1, tail_dot h1⟩
  | .pair a d, h => by
    rw [TreeOk] at h
    have h1 := (reads_both hsp a h.1).1
    have h2 := (reads_both hsp d h.2).2
    rw [writeBoth, strip]
    exact ⟨reads_pair h1 h2, tail_pair h1 h2⟩
  | .vec l, h => by
    rw [TreeOk] at h
    have h1 := reads_vec (reads_elems hsp l h).1
    rw [writeBoth, strip]
    exact ⟨h1, tail_dot h1⟩
  | .abbr q t, h => by
    rw [TreeOk] at h
    have h1 := reads_abbr q (reads_both hsp t h).1 (not_at hsp h)
    rw [writeBoth, strip]
    exact ⟨h1, tail_dot h1⟩
theorem reads_elems {e : Env} (hsp : SpacesOk e.cat) : ∀ (l : List Tree), TreesOk e l →
    ElemsRead e (writeElems e true l) (stripL l) ∧ ElemsRead e (writeElems e false l) (stripL l) ∧
      ∃ r, writeElems e false l = ' ' :: r ∨ writeElems e false l = ')' :: r
  | [], _ => by
    rw [writeElems, writeElems, stripL]
    exact ⟨elems_nil, elems_nil, [], Or.inr rfl⟩
  | t :: ts, h => by
    rw [TreesOk] at h
    have h1 := (reads_both hsp t h.1).1
    obtain ⟨_, h2, h3⟩ := reads_elems hsp ts h.2
    rw [writeElems, writeElems, stripL]
    exact ⟨elems_cons h1 h2 h3, elems_space (elems_cons h1 h2 h3), _, Or.inl rfl⟩
end

/-- What is written is read back. -/
theorem read_write {e : Env} (hsp : SpacesOk e.cat) {t : Tree} (h : TreeOk e t) {rest : List Char} (hr : Stop e.cat rest) :
    read e (writeTree e t ++ rest) = .datum (strip t) rest := by
  unfold read writeTree
  exact readItem_of (reads_both hsp t h).1 hr (by simp; omega)

end Gauche.Sexp

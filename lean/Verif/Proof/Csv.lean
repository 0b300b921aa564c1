import Verif.Model.Csv
/-! Proofs about the model of csv readers and writers. -/
namespace Gauche.Csv

theorem replacement_quo (q : Nat) (h : q ≠ 92) : replacement [q, q] = [q, q] := by
  simp [replacement, h]

theorem unquoted_app (r : Reader) (f : List Nat) (hf : ∀ c ∈ f, c ≠ 10 ∧ c ≠ r.sep ∧ c ≠ r.quo) :
    ∀ chs fields rest, unquoted r (f ++ rest) chs fields = unquoted r rest (f.reverse ++ chs) fields := by
  induction f with
  | nil => intros; rfl
  | cons c f ih =>
    intro chs fields rest
    obtain ⟨h1, h2, h3⟩ := hf c (by simp)
    rw [List.cons_append, unquoted, if_neg h1, if_neg h2, if_neg h3, ih (fun d hd => hf d (by simp [hd]))]
    simp

theorem quoted_app (r : Reader) (f : List Nat) :
    ∀ chs fields rest, quoted r (replaceAll r.quo [r.quo, r.quo] f ++ rest) chs fields
      = quoted r rest (f.reverse ++ chs) fields := by
  induction f with
  | nil => intros; rfl
  | cons c f ih =>
    intro chs fields rest
    by_cases h : c = r.quo
    · subst h
      rw [replaceAll, if_pos rfl, List.append_assoc]
      show quoted r (r.quo :: r.quo :: (replaceAll r.quo [r.quo, r.quo] f ++ rest)) chs fields = _
      rw [quoted.eq_def]
      simp only [if_pos]
      rw [ih]; simp
    · rw [replaceAll, if_neg h, List.cons_append, quoted.eq_def]
      simp only [if_neg h]
      rw [ih]; simp

theorem quotedTail_app (r : Reader) (f : List Nat) (hf : ∀ c ∈ f, c ≠ 10 ∧ c ≠ r.sep) :
    ∀ fields rest, quotedTail r (f ++ rest) fields = quotedTail r rest fields := by
  induction f with
  | nil => intros; rfl
  | cons c f ih =>
    intro fields rest
    obtain ⟨h1, h2⟩ := hf c (by simp)
    rw [List.cons_append, quotedTail, if_neg h1, if_neg h2, ih (fun d hd => hf d (by simp [hd]))]

theorem quoted_close (r : Reader) (d : Nat) (l : List Nat) (chs : List Nat) (fields) (h : d ≠ r.quo) :
    quoted r (r.quo :: d :: l) chs fields = quotedTail r (d :: l) (chs.reverse :: fields) := by
  rw [quoted, if_pos rfl]
  show (if d = r.quo then _ else _) = _
  rw [if_neg h]; rfl

theorem dropWhile_none (p : Nat → Bool) (l : List Nat) (h : ∀ c ∈ l, p c = false) : l.dropWhile p = l := by
  cases l with
  | nil => rfl
  | cons a l => rw [List.dropWhile_cons]; simp [h a (by simp)]

theorem dropWhile_all (p : Nat → Bool) (l m : List Nat) (h : ∀ c ∈ l, p c = true) :
    (l ++ m).dropWhile p = m.dropWhile p := by
  induction l with
  | nil => rfl
  | cons a l ih =>
    rw [List.cons_append, List.dropWhile_cons, if_pos (h a (by simp)), ih (fun c hc => h c (by simp [hc]))]

theorem trimBoth_tail (p : Nat → Bool) (f nl : List Nat) (hf : ∀ c ∈ f, p c = false) (hn : ∀ c ∈ nl, p c = true) :
    trimBoth p (f ++ nl) = f := by
  unfold trimBoth
  cases f with
  | nil =>
    have := dropWhile_all p nl [] hn
    simp only [List.append_nil] at this
    simp [this]
  | cons a f =>
    have : ((a :: f) ++ nl).dropWhile p = (a :: f) ++ nl := by
      rw [List.cons_append, List.dropWhile_cons]; simp [hf a (by simp)]
    rw [this, List.reverse_append, dropWhile_all p _ _ (by simpa using hn),
      dropWhile_none p _ (fun c hc => hf c (List.mem_reverse.1 hc)), List.reverse_reverse]

theorem mem_takeWhile {p : Nat → Bool} {l : List Nat} : ∀ c ∈ l.takeWhile p, p c = true := by
  induction l with
  | nil => simp
  | cons a l ih =>
    intro c hc
    rw [List.takeWhile_cons] at hc
    by_cases h : p a = true
    · rw [if_pos h] at hc
      rcases List.mem_cons.1 hc with rfl | hc
      · exact h
      · exact ih c hc
    · rw [if_neg h] at hc; simp at hc

theorem head_dropWhile (p : Nat → Bool) (l : List Nat) : ∀ c, (l.dropWhile p).head? = some c → p c = false := by
  induction l with
  | nil => simp
  | cons a l ih =>
    intro c hc
    rw [List.dropWhile_cons] at hc
    by_cases h : p a = true
    · rw [if_pos h] at hc; exact ih c hc
    · rw [if_neg h] at hc; simp at hc; subst hc; simpa using h

/-- `string-trim-both` does what the specification says. -/
theorem trimBoth_spec (p : Nat → Bool) (s : List Nat) : TrimmedBy p s (trimBoth p s) := by
  refine ⟨s.takeWhile p, (((s.dropWhile p).reverse.takeWhile p)).reverse, ?_, mem_takeWhile, ?_, ?_, ?_⟩
  · have h1 : s.takeWhile p ++ s.dropWhile p = s := List.takeWhile_append_dropWhile
    have h2 := List.takeWhile_append_dropWhile (p := p) (l := (s.dropWhile p).reverse)
    have h3 : (s.dropWhile p) = trimBoth p s ++ ((s.dropWhile p).reverse.takeWhile p).reverse := by
      unfold trimBoth
      rw [← List.reverse_append, h2, List.reverse_reverse]
    rw [List.append_assoc, ← h3, h1]
  · intro c hc; exact mem_takeWhile c (by simpa using hc)
  · intro c hc
    by_cases he : trimBoth p s = []
    · rw [he] at hc; simp at hc
    · have h2 := List.takeWhile_append_dropWhile (p := p) (l := (s.dropWhile p).reverse)
      have h3 : (s.dropWhile p) = trimBoth p s ++ ((s.dropWhile p).reverse.takeWhile p).reverse := by
        unfold trimBoth
        rw [← List.reverse_append, h2, List.reverse_reverse]
      apply head_dropWhile p s c
      rw [h3, List.head?_append, hc]; rfl
  · intro c hc
    unfold trimBoth at hc
    rw [List.getLast?_reverse] at hc
    exact head_dropWhile p _ c hc

/-- The conditions under which a reader understands a writer: the same separator and quote, a newline that ends in the newline
character, with characters before it that the reader trims, and every trimmed character special for the writer. -/
structure Agree (r : Reader) (w : Writer) (nl : List Nat) : Prop where
  sep : w.sep = [r.sep]
  quo : w.quo = r.quo
  newline : w.newline = nl ++ [10]
  sep_quo : r.sep ≠ r.quo
  sep_nl : r.sep ≠ 10
  quo_nl : r.quo ≠ 10
  quo_bs : r.quo ≠ 92
  nl_ok : ∀ c ∈ nl, c ≠ 10 ∧ c ≠ r.sep ∧ c ≠ r.quo
  nl_trim : ∀ c ∈ nl, ∃ p, r.trim = some p ∧ p c = true
  trim_special : ∀ p, r.trim = some p → ∀ c, p c = true → specialChars w c = true

variable {r : Reader} {w : Writer} {nl : List Nat}

theorem plain_char (H : Agree r w nl) {f : List Nat} (hf : f.any (specialChars w) = false) :
    ∀ c ∈ f, (c ≠ 10 ∧ c ≠ r.sep ∧ c ≠ r.quo) ∧ (∀ p, r.trim = some p → p c = false) := by
  intro c hc
  have h : specialChars w c = false := by
    have := List.any_eq_false.1 hf c hc
    simpa using this
  refine ⟨⟨?_, ?_, ?_⟩, ?_⟩
  · rintro rfl; simp [specialChars, H.newline] at h
  · rintro rfl; simp [specialChars, H.sep] at h
  · rintro rfl; simp [specialChars, H.quo] at h
  · intro p hp
    by_cases hpc : p c = true
    · rw [H.trim_special p hp c hpc] at h; exact absurd h (by simp)
    · simpa using hpc

theorem finish_plain (H : Agree r w nl) {f m : List Nat} (hf : f.any (specialChars w) = false)
    (hm : ∀ c ∈ m, c ∈ nl) : finish ((f ++ m).reverse) r.trim = f := by
  unfold finish
  cases ht : r.trim with
  | none =>
    have : m = [] := by
      cases m with
      | nil => rfl
      | cons c m =>
        obtain ⟨p, hp, _⟩ := H.nl_trim c (hm c (by simp))
        rw [ht] at hp; cases hp
    simp [this]
  | some p =>
    simp only [List.reverse_reverse]
    apply trimBoth_tail
    · intro c hc; exact (plain_char H hf c hc).2 p ht
    · intro c hc
      obtain ⟨p', hp', h⟩ := H.nl_trim c (hm c hc)
      rw [ht] at hp'; cases hp'; exact h

/-- From the start of a field, plain characters lead to the unquoted state, or nowhere if there are none. -/
theorem start_plain (H : Agree r w nl) (f : List Nat) (hf : f ≠ [])
    (h : ∀ c ∈ f, c ≠ 10 ∧ c ≠ r.sep ∧ c ≠ r.quo) (rest) (fields) :
    start r (f ++ rest) fields = unquoted r rest f.reverse fields := by
  cases f with
  | nil => exact absurd rfl hf
  | cons c f =>
    obtain ⟨h1, h2, h3⟩ := h c (by simp)
    rw [List.cons_append, start, if_neg h1, if_neg h2, if_neg h3, unquoted_app r f (fun d hd => h d (by simp [hd]))]
    simp

theorem start_quoted (H : Agree r w nl) (f rest : List Nat) (fields) (d : Nat) (hd : d ≠ r.quo) :
    start r ((r.quo :: (replaceAll r.quo (replacement [r.quo, r.quo]) f ++ [r.quo])) ++ d :: rest) fields
      = quotedTail r (d :: rest) (f :: fields) := by
  rw [replacement_quo _ H.quo_bs, List.cons_append, start, if_neg H.quo_nl, if_neg (Ne.symm H.sep_quo), if_pos rfl,
    List.append_assoc, quoted_app]
  show quoted r (r.quo :: d :: rest) _ _ = _
  rw [quoted_close _ _ _ _ _ hd]; simp

theorem start_sep (H : Agree r w nl) (f rest : List Nat) (fields) :
    start r (writeField w f ++ r.sep :: rest) fields = start r rest (f :: fields) := by
  unfold writeField
  by_cases h : f.any (specialChars w) = true
  · rw [if_pos h, H.quo]
    have := start_quoted H f rest fields r.sep H.sep_quo
    simp only [List.cons_append, List.append_assoc, List.nil_append] at this ⊢
    rw [this, quotedTail, if_neg H.sep_nl, if_pos rfl]
  · rw [if_neg h]
    have h : f.any (specialChars w) = false := by simpa using h
    by_cases he : f = []
    · subst he
      rw [List.nil_append, start, if_neg H.sep_nl, if_pos rfl]
    · rw [start_plain H f he (fun c hc => (plain_char H h c hc).1), unquoted, if_neg H.sep_nl, if_pos rfl]
      have := finish_plain H (m := []) h (by simp)
      simp only [List.append_nil] at this
      rw [this]

theorem start_end (H : Agree r w nl) (f rest : List Nat) (fields) :
    start r (writeField w f ++ (nl ++ 10 :: rest)) fields = .row (f :: fields).reverse rest := by
  unfold writeField
  by_cases h : f.any (specialChars w) = true
  · rw [if_pos h, H.quo]
    have key : ∀ d l, nl ++ 10 :: rest = d :: l → d ≠ r.quo := by
      intro d l hd
      cases hn : nl with
      | nil => rw [hn] at hd; cases hd; exact Ne.symm H.quo_nl
      | cons c m => rw [hn] at hd; injection hd with h1 _; rw [← h1]; exact (H.nl_ok c (by rw [hn]; exact List.mem_cons_self)).2.2
    obtain ⟨d, l, hd⟩ : ∃ d l, nl ++ 10 :: rest = d :: l := by
      cases nl with
      | nil => exact ⟨_, _, rfl⟩
      | cons c m => exact ⟨_, _, rfl⟩
    have := start_quoted H f l fields d (key d l hd)
    rw [hd]
    simp only [List.cons_append, List.append_assoc, List.nil_append] at this ⊢
    rw [this, ← hd, quotedTail_app r nl (fun c hc => ⟨(H.nl_ok c hc).1, (H.nl_ok c hc).2.1⟩), quotedTail, if_pos rfl]
  · rw [if_neg h]
    have h : f.any (specialChars w) = false := by simpa using h
    by_cases he : f ++ nl = []
    · have h1 : f = [] := (List.append_eq_nil_iff.1 he).1
      have h2 : nl = [] := (List.append_eq_nil_iff.1 he).2
      rw [h1, h2, List.nil_append, List.nil_append, start, if_pos rfl]
    · rw [← List.append_assoc, start_plain H (f ++ nl) he, unquoted, if_pos rfl, finish_plain H h (fun c hc => hc)]
      intro c hc
      rcases List.mem_append.1 hc with hc | hc
      · exact (plain_char H h c hc).1
      · exact H.nl_ok c hc

theorem start_rest (H : Agree r w nl) (fs : List (List Nat)) :
    ∀ f fields rest, start r (writeField w f ++ (writeRest w fs ++ (nl ++ 10 :: rest))) fields
      = .row (fields.reverse ++ f :: fs) rest := by
  induction fs with
  | nil => intro f fields rest; rw [writeRest, List.nil_append, start_end H]; simp
  | cons g fs ih =>
    intro f fields rest
    rw [writeRest, H.sep]
    simp only [List.cons_append, List.append_assoc, List.nil_append]
    rw [start_sep H, ih]; simp

theorem readRow_writeRow (H : Agree r w nl) (row : List (List Nat)) (rest : List Nat) :
    readRow r (writeRow w row ++ rest) = .row (seen row) rest := by
  have hne : ∃ c l, writeRow w row ++ rest = c :: l := by
    unfold writeRow
    rw [H.newline]
    cases h : ((match row with | [] => [] | f :: fs => writeField w f ++ writeRest w fs) ++ (nl ++ [10]) ++ rest) with
    | nil => simp at h
    | cons c l => exact ⟨c, l, rfl⟩
  obtain ⟨c, l, hc⟩ := hne
  have : readRow r (writeRow w row ++ rest) = start r (writeRow w row ++ rest) [] := by rw [hc]; rfl
  rw [this]
  unfold writeRow seen
  rw [H.newline]
  cases row with
  | nil =>
    have := start_end H [] rest []
    have hw : writeField w [] = [] := rfl
    rw [hw] at this
    simpa using this
  | cons f fs =>
    have := start_rest H fs f [] rest
    simpa using this

theorem readRows_writeRows (H : Agree r w nl) (rows : List (List (List Nat))) (rest : List Nat) :
    readRows r rows.length (writeRows w rows ++ rest) = some (rows.map seen, rest) := by
  induction rows with
  | nil => rfl
  | cons row rows ih =>
    have : writeRows w (row :: rows) ++ rest = writeRow w row ++ (writeRows w rows ++ rest) := by
      simp [writeRows]
    rw [this, List.length_cons, readRows, readRow_writeRow H]
    simp only [ih, List.map_cons]

/-! ### Text without quotes -/

theorem intercalate_cons (sep : Nat) (f g : List Nat) (fs : List (List Nat)) :
    List.intercalate [sep] (f :: g :: fs) = f ++ sep :: List.intercalate [sep] (g :: fs) := by
  simp [List.intercalate]

/-- The field a reader makes of plain text. -/
def plainField (r : Reader) (f : List Nat) : List Nat := finish f.reverse r.trim

theorem finish_nil (t : Option (Nat → Bool)) : finish [] t = [] := by
  cases t <;> rfl

theorem start_pieces (r : Reader) (hs : r.sep ≠ 10) (stop : List Nat) (hstop : stop = [] ∨ stop.head? = some 10)
    (fs : List (List Nat)) :
    ∀ f fields, (∀ g ∈ f :: fs, ∀ c ∈ g, c ≠ 10 ∧ c ≠ r.sep ∧ c ≠ r.quo) →
      start r (List.intercalate [r.sep] (f :: fs) ++ stop) fields
        = .row (fields.reverse ++ (f :: fs).map (plainField r)) stop.tail := by
  induction fs with
  | nil =>
    intro f fields h
    have hi : List.intercalate [r.sep] [f] = f := by simp [List.intercalate]
    rw [hi]
    have hend : ∀ chs fl, unquoted r stop chs fl = .row (finish chs r.trim :: fl).reverse stop.tail := by
      intro chs fl
      rcases hstop with rfl | hst
      · rw [unquoted]; rfl
      · cases stop with
        | nil => cases hst
        | cons c l =>
          simp only [List.head?_cons, Option.some.injEq] at hst
          rw [unquoted, if_pos hst]; rfl
    cases f with
    | nil =>
      rw [List.nil_append]
      rcases hstop with rfl | hst
      · rw [start]; simp [plainField, finish_nil]
      · cases stop with
        | nil => cases hst
        | cons c l =>
          simp only [List.head?_cons, Option.some.injEq] at hst
          rw [start, if_pos hst]; simp [plainField, finish_nil]
    | cons c f =>
      obtain ⟨h1, h2, h3⟩ := h (c :: f) (by simp) c (by simp)
      rw [List.cons_append, start, if_neg h1, if_neg h2, if_neg h3,
        unquoted_app r f (fun d hd => h (c :: f) (by simp) d (by simp [hd])), hend]
      simp [plainField]
  | cons g fs ih =>
    intro f fields h
    rw [intercalate_cons, List.append_assoc, List.cons_append]
    have hg : ∀ g' ∈ g :: fs, ∀ c ∈ g', c ≠ 10 ∧ c ≠ r.sep ∧ c ≠ r.quo := fun g' hg' => h g' (List.mem_cons_of_mem _ hg')
    cases f with
    | nil =>
      rw [List.nil_append, start, if_neg hs, if_pos rfl, ih _ _ hg]
      simp [plainField, finish_nil]
    | cons c f =>
      obtain ⟨h1, h2, h3⟩ := h (c :: f) (by simp) c (by simp)
      rw [List.cons_append, start, if_neg h1, if_neg h2, if_neg h3,
        unquoted_app r f (fun d hd => h (c :: f) (by simp) d (by simp [hd])), unquoted, if_neg hs, if_pos rfl, ih _ _ hg]
      simp [plainField]

/-! ### Progress -/

theorem progress (r : Reader) : ∀ (n : Nat) (inp : List Nat), inp.length ≤ n →
    (∀ fields f rest, start r inp fields = .row f rest → ∃ used, inp = used ++ rest ∧ (used = [] → inp = [])) ∧
    (∀ chs fields f rest, unquoted r inp chs fields = .row f rest → ∃ used, inp = used ++ rest ∧ (used = [] → inp = [])) ∧
    (∀ chs fields f rest, quoted r inp chs fields = .row f rest → ∃ used, inp = used ++ rest ∧ (used = [] → inp = [])) ∧
    (∀ fields f rest, quotedTail r inp fields = .row f rest → ∃ used, inp = used ++ rest ∧ (used = [] → inp = [])) := by
  intro n
  induction n with
  | zero =>
    intro inp hn
    have : inp = [] := List.length_eq_zero_iff.1 (by omega)
    subst this
    refine ⟨?_, ?_, ?_, ?_⟩
    · intro fields f rest h; rw [start] at h; cases h; exact ⟨[], rfl, fun _ => rfl⟩
    · intro chs fields f rest h; rw [unquoted] at h; cases h; exact ⟨[], rfl, fun _ => rfl⟩
    · intro chs fields f rest h; rw [quoted] at h; cases h
    · intro fields f rest h; rw [quotedTail] at h; cases h; exact ⟨[], rfl, fun _ => rfl⟩
  | succ n ih =>
    intro inp hn
    cases inp with
    | nil => exact ih [] (by simp)
    | cons ch l =>
      have hl : l.length ≤ n := by simpa using hn
      obtain ⟨i1, i2, i3, i4⟩ := ih l hl
      have wrap : ∀ rest, (∃ used, l = used ++ rest ∧ (used = [] → l = [])) →
          ∃ used, ch :: l = used ++ rest ∧ (used = [] → ch :: l = []) := by
        rintro rest ⟨u, hu, _⟩
        exact ⟨ch :: u, by rw [hu]; rfl, fun h => (by cases h)⟩
      have one : ∃ used, ch :: l = used ++ l ∧ (used = [] → ch :: l = []) := ⟨[ch], rfl, fun h => (by cases h)⟩
      refine ⟨?_, ?_, ?_, ?_⟩
      · intro fields f rest h
        rw [start] at h
        by_cases h1 : ch = 10
        · rw [if_pos h1] at h; cases h; exact one
        · rw [if_neg h1] at h
          by_cases h2 : ch = r.sep
          · rw [if_pos h2] at h; exact wrap _ (i1 _ _ _ h)
          · rw [if_neg h2] at h
            by_cases h3 : ch = r.quo
            · rw [if_pos h3] at h; exact wrap _ (i3 _ _ _ _ h)
            · rw [if_neg h3] at h; exact wrap _ (i2 _ _ _ _ h)
      · intro chs fields f rest h
        rw [unquoted] at h
        by_cases h1 : ch = 10
        · rw [if_pos h1] at h; cases h; exact one
        · rw [if_neg h1] at h
          by_cases h2 : ch = r.sep
          · rw [if_pos h2] at h; exact wrap _ (i1 _ _ _ h)
          · rw [if_neg h2] at h
            by_cases h3 : ch = r.quo
            · rw [if_pos h3] at h
              by_cases h4 : allTrimmed r.trim chs = true
              · rw [if_pos h4] at h; exact wrap _ (i3 _ _ _ _ h)
              · rw [if_neg h4] at h; cases h
            · rw [if_neg h3] at h; exact wrap _ (i2 _ _ _ _ h)
      · intro chs fields f rest h
        rw [quoted.eq_def] at h
        simp only at h
        by_cases h3 : ch = r.quo
        · rw [if_pos h3] at h
          cases l with
          | nil =>
            exact wrap _ (i4 _ _ _ h)
          | cons d l' =>
            simp only at h
            by_cases h4 : d = r.quo
            · rw [if_pos h4] at h
              obtain ⟨_, _, j3, _⟩ := ih l' (by simp at hl; omega)
              obtain ⟨u, hu, _⟩ := j3 _ _ _ _ h
              exact ⟨ch :: d :: u, by rw [hu]; rfl, fun h => (by cases h)⟩
            · rw [if_neg h4] at h; exact wrap _ (i4 _ _ _ h)
        · rw [if_neg h3] at h; exact wrap _ (i3 _ _ _ _ h)
      · intro fields f rest h
        rw [quotedTail] at h
        by_cases h1 : ch = 10
        · rw [if_pos h1] at h; cases h; exact one
        · rw [if_neg h1] at h
          by_cases h2 : ch = r.sep
          · rw [if_pos h2] at h; exact wrap _ (i1 _ _ _ h)
          · rw [if_neg h2] at h; exact wrap _ (i4 _ _ _ h)

end Gauche.Csv

import Verif.Proof.Csv
import Mathlib.Data.List.Forall2
import Mathlib.Tactic.Tauto
import Mathlib.Tactic.SplitIfs
/-! C83: rows written by a csv writer are read back by a csv reader. -/
namespace Gauche.Csv

/-- The default character set `#[\s]` of `csv-trim-unquoted-charset` (lib/text/csv.scm:54), the ASCII white space. -/
def space (c : Nat) : Bool := c = 32 || (9 ≤ c && c ≤ 13)

/-- The default special characters `#[\;\s]` of a writer (lib/text/csv.scm:118-120). -/
def special (c : Nat) : Bool := c = 59 || space c

/-- C83.  Every list of rows of arbitrary strings that a writer writes is read back by as many calls of a reader with the same separator
and quote character, field by field, whatever text follows.  The reader may leave fields as they are, or trim any set of characters that
are special for the writer.  The newline may be any string that ends in the newline character, with only trimmed characters before. -/
theorem C83_roundtrip (r : Reader) (w : Writer) (nl : List Nat)
    (hsep : w.sep = [r.sep]) (hquo : w.quo = r.quo) (hnl : w.newline = nl ++ [10])
    (hsq : r.sep ≠ r.quo) (hs : r.sep ≠ 10) (hq : r.quo ≠ 10) (hbs : r.quo ≠ 92)
    (hnl1 : ∀ c ∈ nl, c ≠ 10 ∧ c ≠ r.sep ∧ c ≠ r.quo)
    (hnl2 : ∀ c ∈ nl, ∃ p, r.trim = some p ∧ p c = true)
    (htrim : ∀ p, r.trim = some p → ∀ c, p c = true →
      w.special c = true ∨ c = w.quo ∨ c ∈ w.newline ∨ c ∈ w.sep)
    (rows : List (List (List Nat))) (rest : List Nat) :
    readRows r rows.length (writeRows w rows ++ rest) = some (rows.map seen, rest) := by
  refine readRows_writeRows (nl := nl) ⟨hsep, hquo, hnl, hsq, hs, hq, hbs, hnl1, hnl2, ?_⟩ rows rest
  intro p hp c hc
  have := htrim p hp c hc
  unfold specialChars
  simp only [Bool.or_eq_true, beq_iff_eq, List.contains_iff_mem]
  tauto

/-- C83, with the defaults of both: any separator other than a double quote, a newline or a return; the writer's newline `"\n"` or
`"\r\n"`.  After the rows the reader meets the end of file. -/
theorem C83_roundtrip_default (sep : Nat) (h1 : sep ≠ 34) (h2 : sep ≠ 10) (h3 : sep ≠ 13) (crlf : Bool)
    (rows : List (List (List Nat))) :
    readRows ⟨sep, 34, some space⟩ rows.length
      (writeRows ⟨[sep], if crlf then [13, 10] else [10], 34, special⟩ rows) = some (rows.map seen, []) ∧
    readRow ⟨sep, 34, some space⟩ [] = .eof := by
  refine ⟨?_, rfl⟩
  have := C83_roundtrip ⟨sep, 34, some space⟩ ⟨[sep], if crlf then [13, 10] else [10], 34, special⟩
    (if crlf then [13] else []) rfl rfl (by cases crlf <;> rfl) h1 h2 (show 34 ≠ 10 by decide) (show 34 ≠ 92 by decide)
    (by cases crlf <;> simp; exact Ne.symm h3) (by cases crlf <;> simp [space])
    (by intro p hp c hc; cases hp; left; simp [special, hc]) rows []
  simpa using this

/-- C83: a reader that trims nothing reads everything back too, when the newline is `"\n"`. -/
theorem C83_roundtrip_notrim (sep quo : Nat) (sp : Nat → Bool) (h1 : sep ≠ quo) (h2 : sep ≠ 10) (h3 : quo ≠ 10) (h4 : quo ≠ 92)
    (rows : List (List (List Nat))) (rest : List Nat) :
    readRows ⟨sep, quo, none⟩ rows.length (writeRows ⟨[sep], [10], quo, sp⟩ rows ++ rest) = some (rows.map seen, rest) :=
  C83_roundtrip ⟨sep, quo, none⟩ ⟨[sep], [10], quo, sp⟩ [] rfl rfl rfl h1 h2 h3 h4 (by simp) (by simp)
    (by intro p hp; cases hp) rows rest

/-- C83: text without quotes, up to a newline or the end of the input, is cut at the separators, and every piece loses exactly its leading
and trailing characters of the trim set. -/
theorem C83_plain_text (sep quo : Nat) (p : Nat → Bool) (hs : sep ≠ 10) (line stop : List Nat)
    (hline : ∀ c ∈ line, c ≠ 10 ∧ c ≠ quo) (hstop : stop = [] ∨ stop.head? = some 10) (hne : line ++ stop ≠ [])
    (parts : List (List Nat)) (hp : Pieces sep line parts) :
    ∃ fields, readRow ⟨sep, quo, some p⟩ (line ++ stop) = .row fields stop.tail ∧
      List.Forall₂ (TrimmedBy p) parts fields ∧
      readRow ⟨sep, quo, none⟩ (line ++ stop) = .row parts stop.tail := by
  obtain ⟨hp1, hp2, hp3⟩ := hp
  cases parts with
  | nil => exact absurd rfl hp1
  | cons f fs =>
    have hc : ∀ g ∈ f :: fs, ∀ c ∈ g, c ≠ 10 ∧ c ≠ sep ∧ c ≠ quo := by
      intro g hg c hcg
      have hmem : c ∈ line := by
        rw [hp3]
        clear hp1 hp2 hp3 hne hline
        induction fs generalizing f with
        | nil =>
          simp only [List.mem_singleton] at hg
          subst hg
          simpa [List.intercalate] using hcg
        | cons f' fs ih =>
          rw [intercalate_cons]
          rcases List.mem_cons.1 hg with rfl | hg
          · simp [hcg]
          · have := ih f' hg
            simp [this]
      exact ⟨(hline c hmem).1, fun h => hp2 g hg (h ▸ hcg), (hline c hmem).2⟩
    have hrd : ∀ t, readRow ⟨sep, quo, t⟩ (line ++ stop) = start ⟨sep, quo, t⟩ (line ++ stop) [] := by
      intro t
      cases h : line ++ stop with
      | nil => exact absurd h hne
      | cons c l => rfl
    refine ⟨(f :: fs).map (trimBoth p), ?_, ?_, ?_⟩
    · rw [hrd, hp3, start_pieces ⟨sep, quo, some p⟩ hs stop hstop fs f [] hc]
      simp [plainField, finish]
    · rw [List.forall₂_map_right_iff]
      exact List.forall₂_same.2 (fun x _ => trimBoth_spec p x)
    · rw [hrd, hp3, start_pieces ⟨sep, quo, none⟩ hs stop hstop fs f [] hc]
      have : plainField ⟨sep, quo, none⟩ = id := by funext g; simp [plainField, finish]
      simp [this]

/-- C83: a row that is read is made of a part of the input that is not empty, and what is left is the rest of the input; so a program that
reads rows until the end of file comes to an end. -/
theorem C83_progress (r : Reader) (inp : List Nat) (fields : List (List Nat)) (rest : List Nat)
    (h : readRow r inp = .row fields rest) : ∃ used, used ≠ [] ∧ inp = used ++ rest := by
  cases inp with
  | nil => cases h
  | cons c l =>
    obtain ⟨u, hu, hn⟩ := (progress r _ (c :: l) (Nat.le_refl _)).1 [] fields rest h
    exact ⟨u, fun he => (by cases hn he), hu⟩

/-- C83: the end of file is reported only at the end of the input. -/
theorem C83_eof (r : Reader) (inp : List Nat) (h : readRow r inp = .eof) : inp = [] := by
  cases inp with
  | nil => rfl
  | cons c l =>
    exfalso
    revert h
    show start r (c :: l) [] ≠ .eof
    have key : ∀ (n : Nat) (inp : List Nat), inp.length ≤ n →
        (∀ fields, start r inp fields ≠ .eof) ∧ (∀ chs fields, unquoted r inp chs fields ≠ .eof) ∧
        (∀ chs fields, quoted r inp chs fields ≠ .eof) ∧ (∀ fields, quotedTail r inp fields ≠ .eof) := by
      intro n
      induction n with
      | zero =>
        intro inp hn
        have : inp = [] := List.length_eq_zero_iff.1 (by omega)
        subst this
        refine ⟨?_, ?_, ?_, ?_⟩ <;> intros <;> simp [start, unquoted, quoted, quotedTail]
      | succ n ih =>
        intro inp hn
        cases inp with
        | nil => exact ih [] (by simp)
        | cons ch l =>
          obtain ⟨i1, i2, i3, i4⟩ := ih l (by simpa using hn)
          refine ⟨?_, ?_, ?_, ?_⟩
          · intro fields; rw [start]; split_ifs <;> simp [i1, i2, i3]
          · intro chs fields; rw [unquoted]; split_ifs <;> simp [i1, i2, i3]
          · intro chs fields
            rw [quoted.eq_def]
            simp only
            split_ifs with h3
            · cases l with
              | nil => exact i4 _
              | cons d l' =>
                simp only
                split_ifs
                · exact (ih l' (by simp at hn; omega)).2.2.1 _ _
                · exact i4 _
            · exact i3 _ _
          · intro fields; rw [quotedTail]; split_ifs <;> simp [i1, i4]
    exact (key _ (c :: l) (Nat.le_refl _)).1 []

/-- C83: before an opening quote only trimmed characters may stand, and they are ignored; other text before a quote is an error. -/
theorem C83_before_quote (r : Reader) (hs : r.sep ≠ r.quo) (hq : r.quo ≠ 10) (f rest : List Nat)
    (hf : ∀ c ∈ f, c ≠ 10 ∧ c ≠ r.sep ∧ c ≠ r.quo) :
    (∀ p, r.trim = some p → (∀ c ∈ f, p c = true) → readRow r (f ++ r.quo :: rest) = readRow r (r.quo :: rest)) ∧
    (∀ p, r.trim = some p → (∃ c ∈ f, p c = false) → readRow r (f ++ r.quo :: rest) = .err .quoteInField) ∧
    (r.trim = none → f ≠ [] → readRow r (f ++ r.quo :: rest) = .err .quoteInField) := by
  have hst : readRow r (r.quo :: rest) = quoted r rest [] [] := by
    show start r (r.quo :: rest) [] = _
    rw [start, if_neg hq, if_neg (Ne.symm hs), if_pos rfl]
  have key : f ≠ [] → readRow r (f ++ r.quo :: rest)
      = if allTrimmed r.trim f.reverse then quoted r rest [] [] else .err .quoteInField := by
    intro hne
    cases f with
    | nil => exact absurd rfl hne
    | cons c f =>
      obtain ⟨h1, h2, h3⟩ := hf c (by simp)
      show start r (c :: (f ++ r.quo :: rest)) [] = _
      rw [start, if_neg h1, if_neg h2, if_neg h3, unquoted_app r f (fun d hd => hf d (by simp [hd])), unquoted, if_neg hq,
        if_neg (Ne.symm hs), if_pos rfl]
      simp
  refine ⟨?_, ?_, ?_⟩
  · intro p hp hall
    by_cases hne : f = []
    · rw [hne]; rfl
    · rw [key hne, hst, hp, if_pos]
      simpa [allTrimmed] using hall
  · rintro p hp ⟨c, hc, hpc⟩
    have hne : f ≠ [] := by rintro rfl; cases hc
    rw [key hne, hp, if_neg]
    intro h
    have := List.all_eq_true.1 (show f.reverse.all p = true from h) c (by simpa using hc)
    rw [hpc] at this; cases this
  · intro ht hne
    rw [key hne, ht, if_neg (by simp [allTrimmed])]

/-- What C83 does not give: with the backslash as the quote character the writer does not double it, because the replacement string of
`regexp-replace-all` takes the backslash as an escape; a field with a backslash comes back cut. -/
theorem C83_bug_backslash_quote :
    writeRow ⟨[44], [10], 92, special⟩ [[97, 92, 98]] = [92, 97, 92, 98, 92, 10] ∧
    readRow ⟨44, 92, some space⟩ [92, 97, 92, 98, 92, 10] = .row [[97]] [] := by
  decide +kernel

/-- What C83 does not give: whatever stands between a closing quote and the next separator or newline is dropped without an error. -/
theorem C83_bug_after_quote (r : Reader) (junk rest : List Nat) (hj : ∀ c ∈ junk, c ≠ 10 ∧ c ≠ r.sep) (hd : junk.head? ≠ some r.quo)
    (hq : r.quo ≠ 10) (hs : r.sep ≠ r.quo) :
    readRow r (r.quo :: r.quo :: (junk ++ 10 :: rest)) = .row [[]] rest := by
  show start r _ [] = _
  rw [start, if_neg hq, if_neg (Ne.symm hs), if_pos rfl]
  cases junk with
  | nil =>
    rw [List.nil_append, quoted_close r 10 rest [] [] (Ne.symm hq), quotedTail, if_pos rfl]; rfl
  | cons c j =>
    rw [List.cons_append, quoted_close r c _ [] [] (fun h => hd (by simp [h])), ← List.cons_append, quotedTail_app r _ hj,
      quotedTail, if_pos rfl]; rfl

/-- What C83 does not give: with newline `"\r\n"` and a reader that trims nothing, the carriage return stays in an unquoted last field. -/
theorem C83_bug_crlf_notrim :
    readRow ⟨44, 34, none⟩ (writeRow ⟨[44], [13, 10], 34, special⟩ [[97], [98]]) = .row [[97], [98, 13]] [] := by
  decide +kernel

/-- What C83 does not give: a writer whose special characters are only those asked for by an empty set writes white space bare, and the
default reader trims it. -/
theorem C83_bug_trim_not_special :
    readRow ⟨44, 34, some space⟩ (writeRow ⟨[44], [10], 34, fun _ => false⟩ [[32, 97, 32]]) = .row [[97]] [] := by
  decide +kernel

/-! Non-vacuity: three rows with quotes, separators, newlines and white space. -/
example : readRows ⟨44, 34, some space⟩ 3
    (writeRows ⟨[44], [10], 34, special⟩ [[[97], [34, 44, 10], []], [[32, 98]], [[], [34]]])
    = some ([[[97], [34, 44, 10], []], [[32, 98]], [[], [34]]], []) := by decide +kernel
example : writeRow ⟨[44], [13, 10], 34, special⟩ [[97, 34, 98], [99]] = [34, 97, 34, 34, 98, 34, 44, 99, 13, 10] := by decide +kernel
example : readRow ⟨44, 34, some space⟩ [97, 34, 98] = .err .quoteInField := by decide +kernel
example : readRow ⟨44, 34, some space⟩ [32, 34, 98] = .err .unterminated := by decide +kernel
example : Pieces 44 [32, 97, 44, 44, 98] [[32, 97], [], [98]] := ⟨by decide, by decide, by decide⟩
example : readRow ⟨44, 34, some space⟩ [32, 97, 44, 44, 98] = .row [[97], [], [98]] [] := by decide +kernel

end Gauche.Csv

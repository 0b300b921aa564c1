import Verif.Proof.SexpRead
import Verif.Props.NumText
import Verif.Props.Flonum
/-
Numbers in the external representation of data.
-/
namespace Gauche.Sexp
open Gauche.Spec Gauche.NumText Gauche.NumText.Spec Gauche.Rational Gauche.Flonum Gauche.FloText.Spec

/-- A character of the text of a number. -/
def NumChar (c : Char) : Prop := c.toNat < 128 ∧ (wordTable.getD c.toNat 0 == 1) = true

theorem reads_num {e : Env} {c : Char} {r : List Char} {n : Numb} (hw : ∀ d ∈ c :: r, NumChar d)
    (hc : c = '+' ∨ c = '-' ∨ asciiDigit c = true ∨ (c = '.' ∧ r ≠ [])) (hn : parseNumb e.fuel (c :: r) = .num n) : Reads e (c :: r) (.atom (.num n)) := by
  have hwr : ∀ d ∈ r, wordChar e.cat true d = true := fun d hd => word_ascii (hw d (List.mem_cons_of_mem _ hd)).1 (hw d (List.mem_cons_of_mem _ hd)).2
  have hsn : ∀ rest, Stop e.cat rest → readSymNum e c (r ++ rest) = .datum (.atom (.num n)) rest := by
    intro rest hr
    unfold readSymNum
    rw [readWord_eq hwr hr, map_fold_false]
    simp only [hn]
  have hdig : asciiDigit c = true → ∀ d, asciiDigit d = false → c ≠ d := by rintro h d hd rfl; rw [h] at hd; cases hd
  have hsp : cSpace c = false ∧ c ≠ ';' ∧ c ≠ ')' := by
    rcases hc with rfl | rfl | h | ⟨rfl, _⟩
    · decide
    · decide
    · refine ⟨?_, hdig h ';' (by decide), hdig h ')' (by decide)⟩
      unfold asciiDigit at h; unfold cSpace; simp at h ⊢; omega
    · decide
  have hskip : ∀ s, skipws false (c :: s) = c :: s := fun s => skip_char hsp.1 hsp.2.1 (extra_ascii (hw c (by simp)).1)
  constructor
  · refine ⟨c, r, rfl, hsp.2.2, hskip, ?_⟩
    rintro rfl
    cases r with
    | nil => rcases hc with h | h | h | h <;> simp [asciiDigit] at h
    | cons d r' =>
      have hd := hw d (by simp)
      refine ⟨d, r', rfl, word_ascii hd.1 hd.2, ?_⟩
      rintro rfl
      exact absurd hd.2 (by decide)
  · intro k rest hr hk
    cases k with
    | zero => simp at hk
    | succ k =>
      rw [List.cons_append, readInternal_head hskip]
      rcases hc with rfl | rfl | h | ⟨rfl, h⟩
      · simp; exact hsn rest hr
      · simp; exact hsn rest hr
      · rw [if_neg (hdig h _ (by decide)), if_neg (hdig h _ (by decide)), if_neg (hdig h _ (by decide)), if_neg (hdig h _ (by decide)),
          if_neg (hdig h _ (by decide)), if_neg (hdig h _ (by decide)), if_neg (hdig h _ (by decide)), if_neg (hdig h _ (by decide)),
          if_neg (hdig h _ (by decide)), if_neg (hdig h _ (by decide)), if_neg (by
            rintro (h' | h')
            · exact hdig h '+' (by decide) h'
            · exact hdig h '-' (by decide) h'), if_neg (hdig h _ (by decide)), if_pos h]
        exact hsn rest hr
      · cases r with
        | nil => exact absurd rfl h
        | cons d r' =>
          have hd := hw d (by simp)
          simp [word_ascii hd.1 hd.2]
          exact hsn rest hr

theorem digit_numChar {c : Char} {d : Nat} (h : digitOf 10 c = some d) : NumChar c ∧ asciiDigit c = true := by
  have hd : asciiDigit c = true := by
    unfold digitOf at h
    unfold asciiDigit
    rw [Option.filter_eq_some_iff] at h
    obtain ⟨h1, h2⟩ := h
    simp at h2
    simp only [decide_eq_true_eq]
    split at h1
    · assumption
    · split at h1
      · injection h1 with h1; omega
      · split at h1
        · injection h1 with h1; omega
        · cases h1
  refine ⟨?_, hd⟩
  have hc : c.toNat < 128 := by unfold asciiDigit at hd; simp at hd; omega
  refine ⟨hc, ?_⟩
  have := ascii_all (P := fun c => !asciiDigit c || (wordTable.getD c.toNat 0 == 1)) (by decide +kernel) c hc
  simpa [hd] using this

theorem uint_numChar {strict : Bool} {s : List Char} {n : Nat} (h : UIntText 10 strict s n) : ∀ c ∈ s, NumChar c := by
  intro c hc
  rcases uint_chars h c hc with rfl | ⟨d, hd⟩
  · unfold NumChar; decide
  · exact (digit_numChar hd).1

theorem reads_exact {e : Env} {q : Q} (hq : q.Canonical) : Reads e (writeNumb e (.exact q)) (.atom (.num (.exact q))) := by
  obtain ⟨s, hs, hr⟩ := C19_round_trip hq (r := 10) (by omega) (by omega) ⟨false, false, false⟩ (cx := ⟨10, false, false, .noexact⟩) (by simp) (by simp)
    (by simp) (by omega)
  obtain ⟨sg, tn, td, h1, h2, h3, h4⟩ := numberToString_spec hq (r := 10) (by omega) (by omega) ⟨false, false, false⟩
  unfold writeNumb
  simp only [hs, Option.getD_some]
  have hsn : s = sg ++ if q.val.den = 1 then tn else tn ++ '/' :: td := by
    rw [hs] at h4; simpa using h4
  have hn : parseNumb e.fuel s = .num (.exact q) := by unfold parseNumb; rw [hr]
  have hch : ∀ c ∈ s, NumChar c := by
    intro c hc
    rw [hsn, List.mem_append] at hc
    rcases hc with hc | hc
    · rw [h3] at hc
      have : c = '-' := by
        split at hc
        · simpa using hc
        · simp at hc
      rw [this]; unfold NumChar; decide
    · split at hc
      · exact uint_numChar h1.1 c hc
      · rw [List.mem_append, List.mem_cons] at hc
        rcases hc with hc | rfl | hc
        · exact uint_numChar h1.1 c hc
        · unfold NumChar; decide
        · exact uint_numChar h2.1 c hc
  obtain ⟨c, cs, d, htn, hd⟩ := uint_head h1.1
  have hhead : ∃ c r, s = c :: r ∧ (c = '-' ∨ asciiDigit c = true) := by
    rw [hsn, h3, htn]
    by_cases hneg : q.val < 0
    · exact ⟨'-', _, by rw [if_pos hneg]; rfl, Or.inl rfl⟩
    · refine ⟨c, (if q.val.den = 1 then cs else cs ++ '/' :: td), ?_, Or.inr (digit_numChar hd).2⟩
      rw [if_neg hneg]
      by_cases hden : q.val.den = 1 <;> simp [hden]
  obtain ⟨c, r, rfl, hc⟩ := hhead
  exact reads_num hch (by tauto) hn

/-- A decimal number is not an exact number. -/
theorem exact_of_dec {fuel : Nat} {s : List Char} {x : Flo} (hc : ∀ c ∈ s, c.toNat < 128 ∧ c ≠ '#') (h : FloText.readNumber fuel false s = .flo x []) :
    parseNumb fuel s = .num (.flo x) := by
  have hany : (s.any fun c => decide (c.toNat ≥ 128)) = false := by
    rw [List.any_eq_false]; intro c hm; have := (hc c hm).1; simp; omega
  have key : readBody 10 false .noexact s = .no ∨ readBody 10 false .noexact s = .other := by
    unfold FloText.readNumber at h
    unfold readBody
    by_cases h0 : s = []
    · rw [if_pos h0] at h; cases h
    rw [if_neg h0] at h ⊢
    simp only [] at h ⊢
    by_cases h1 : (s.head? = some '+' ∨ s.head? = some '-') ∧ s.length = 1
    · rw [if_pos h1] at h; cases h
    rw [if_neg h1] at h ⊢
    by_cases h2 : (s.head? = some '+' ∨ s.head? = some '-') ∧ s.length = 2 ∧ (s[1]? = some 'i' ∨ s[1]? = some 'I')
    · rw [if_pos h2] at h; cases h
    rw [if_neg h2] at h ⊢
    have hnum : ∀ minusp sign cs q rest, readUreal 10 false .noexact minusp sign cs = .num q rest → ∀ y, FloText.readUdec fuel false minusp sign cs ≠ .flo y [] := by
      intro minusp sign cs q rest hq y hy
      unfold readUreal at hq
      unfold FloText.readUdec at hy
      by_cases g0 : cs = []
      · rw [if_pos g0] at hq; cases hq
      rw [if_neg g0] at hq hy
      cases g1 : (sign && isSpecial cs) with
      | true => rw [g1] at hq; cases hq
      | false =>
        have gA : (sign && (cs.take 5).map Char.toLower == "inf.0".toList) = false := by
          unfold isSpecial at g1; cases sign <;> simp_all
        have gB : (sign && (cs.take 5).map Char.toLower == "nan.0".toList) = false := by
          unfold isSpecial at g1; cases sign <;> simp_all
        rw [g1] at hq
        rw [gA, gB] at hy
        simp only [Bool.false_eq_true, if_false] at hq hy
        by_cases g2 : cs.head? = some '.'
        · rw [if_pos g2] at hq; cases hq
        rw [if_neg g2] at hq
        cases hu : readUint 10 false cs with
        | bad => rw [hu] at hq; cases hq
        | pad => rw [hu] at hq; cases hq
        | ok k rs =>
          rw [hu] at hq
          simp only [] at hq
          split at hy
          · simp at g2
          · rw [hu] at hy
            simp only [] at hy
            cases rs with
            | nil => cases hy
            | cons d rs' =>
              simp only [] at hq hy
              by_cases g3 : d = '/'
              · rw [if_pos g3] at hy; cases hy
              · rw [if_neg g3] at hq; cases hq
    have hreal : ∀ q rest, readReal 10 false .noexact s = .num q rest → ∀ y, FloText.readDec fuel false s ≠ .flo y [] := by
      intro q rest hq
      have e1 : ∃ m sg cs, readReal 10 false .noexact s = readUreal 10 false .noexact m sg cs ∧ FloText.readDec fuel false s = FloText.readUdec fuel false m sg cs := by
        cases s with
        | nil => exact ⟨_, _, _, rfl, rfl⟩
        | cons c r =>
          by_cases g1 : c = '-'
          · subst g1; exact ⟨_, _, _, rfl, rfl⟩
          by_cases g2 : c = '+'
          · subst g2; exact ⟨_, _, _, rfl, rfl⟩
          refine ⟨false, false, c :: r, ?_, ?_⟩
          · unfold readReal
            split
            · rename_i he; injection he with he _; exact absurd he g1
            · rename_i he; injection he with he _; exact absurd he g2
            · rfl
          · unfold FloText.readDec
            split
            · rename_i he; injection he with he _; exact absurd he g1
            · rename_i he; injection he with he _; exact absurd he g2
            · rfl
      obtain ⟨m, sg, cs, e1, e2⟩ := e1
      rw [e1] at hq
      rw [e2]
      exact hnum _ _ _ _ _ hq
    cases hrr : readReal 10 false .noexact s with
    | no => exact Or.inl rfl
    | other => exact Or.inr rfl
    | num q rest =>
      exfalso
      have hh := hreal q rest hrr
      split at h
      · rename_i y hy; exact hh y hy
      · split at h <;> cases h
      · rename_i r _ hr; exact hh x h
  have hsn : stringToNumber ⟨10, false, false, .noexact⟩ s = .no ∨ stringToNumber ⟨10, false, false, .noexact⟩ s = .other := by
    cases s with
    | nil => unfold FloText.readNumber at h; rw [if_pos rfl] at h; cases h
    | cons c r =>
      rcases key with k | k
      · exact stringToNumber_plain (hc c (by simp)).2 _ (Or.inl rfl) k
      · exact stringToNumber_plain (hc c (by simp)).2 _ (Or.inr rfl) k
  unfold parseNumb
  rcases hsn with k | k
  · simp only [k, hany, h]; rfl
  · simp only [k, h]

/-- A number whose text is read back. -/
def NumbOk (e : Env) : Numb → Prop
  | .exact q => q.Canonical
  | .flo x => ∃ c r, FloText.printDouble e.fuel e.lo e.hi false (e.est x) x = some (c :: r) ∧ FloText.readNumber e.fuel false (c :: r) = .flo x [] ∧
      (∀ d ∈ c :: r, NumChar d) ∧ (c = '+' ∨ c = '-' ∨ asciiDigit c = true ∨ (c = '.' ∧ r ≠ []))

theorem reads_numb {e : Env} {n : Numb} (h : NumbOk e n) : Reads e (writeNumb e n) (.atom (.num n)) := by
  cases n with
  | exact q => exact reads_exact h
  | flo x =>
    obtain ⟨c, r, h1, h2, h3, h4⟩ := h
    unfold writeNumb
    simp only [h1, Option.getD_some]
    refine reads_num h3 h4 (exact_of_dec (fun d hd => ⟨(h3 d hd).1, ?_⟩) h2)
    rintro rfl
    exact absurd (h3 '#' hd).2 (by decide)

theorem run_numChar {strict : Bool} {s : List Char} {ds : List Nat} (h : DigitRun strict s ds) : ∀ c ∈ s, NumChar c := by
  intro c hc
  by_cases hu : c = '_'
  · subst hu; unfold NumChar; decide
  · have h1 := h.1
    have hm : digitOf 10 c ∈ (s.filter (· ≠ '_')).map (digitOf 10) := by
      refine List.mem_map_of_mem ?_
      rw [List.mem_filter]
      exact ⟨hc, by simpa using hu⟩
    rw [h1, List.mem_map] at hm
    obtain ⟨d, _, hd⟩ := hm
    exact (digit_numChar hd.symm).1

theorem run_head {strict : Bool} {s : List Char} {ds : List Nat} (h : DigitRun strict s ds) (hne : ds ≠ []) : ∃ c r, s = c :: r ∧ asciiDigit c = true := by
  cases s with
  | nil =>
    have := h.1
    simp at this
    exact absurd this.symm (by simpa using hne)
  | cons c r =>
    refine ⟨c, r, rfl, ?_⟩
    have hu : c ≠ '_' := by have := h.2.1; simpa using this
    have h1 := h.1
    have hm : digitOf 10 c ∈ ((c :: r).filter (· ≠ '_')).map (digitOf 10) := by
      refine List.mem_map_of_mem ?_
      rw [List.mem_filter]
      exact ⟨by simp, by simpa using hu⟩
    rw [h1, List.mem_map] at hm
    obtain ⟨d, _, hd⟩ := hm
    exact (digit_numChar hd.symm).2

theorem exp_numChar {strict : Bool} {s : List Char} {x : Int} (h : ExponentText strict s x) : ∀ c ∈ s, NumChar c := by
  rcases h with ⟨rfl, _⟩ | ⟨c, sg, t, sgn, ds, rfl, hc, hsg, hrun, _⟩
  · simp
  · intro d hd
    rw [List.mem_cons, List.mem_append] at hd
    rcases hd with rfl | hd | hd
    · have : ∀ d ∈ "eEsSfFdDlL".toList, d.toNat < 128 ∧ (wordTable.getD d.toNat 0 == 1) = true := by decide
      exact this d hc
    · rcases hsg with ⟨rfl, _⟩ | ⟨rfl, _⟩ | ⟨rfl, _⟩
      · cases hd
      · rw [List.mem_singleton] at hd; subst hd; unfold NumChar; decide
      · rw [List.mem_singleton] at hd; subst hd; unfold NumChar; decide
    · exact run_numChar hrun d hd

theorem dec_shape {strict : Bool} {s : List Char} {neg : Bool} {f d : Nat} {x : Int} (h : DecimalText strict s neg f d x) :
    (∀ c ∈ s, NumChar c) ∧ ∃ c r, s = c :: r ∧ (c = '+' ∨ c = '-' ∨ asciiDigit c = true ∨ (c = '.' ∧ r ≠ [])) := by
  obtain ⟨sg, body, rfl, hsg, b, ex, rfl, hex, hb⟩ := h
  have hchars : ∀ c ∈ b ++ ex, NumChar c := by
    intro c hc
    rw [List.mem_append] at hc
    rcases hc with hc | hc
    · rcases hb with ⟨da, hrun, _⟩ | ⟨a, b', da, db, rfl, h1, h2, _⟩
      · exact run_numChar hrun c hc
      · rw [List.mem_append, List.mem_cons] at hc
        rcases hc with hc | rfl | hc
        · exact run_numChar h1 c hc
        · unfold NumChar; decide
        · exact run_numChar h2 c hc
    · exact exp_numChar hex c hc
  have hhead : ∃ c r, b ++ ex = c :: r ∧ (asciiDigit c = true ∨ (c = '.' ∧ r ≠ [])) := by
    rcases hb with ⟨da, hrun, hne, _⟩ | ⟨a, b', da, db, rfl, h1, h2, hne, _⟩
    · obtain ⟨c, r, rfl, hc⟩ := run_head hrun hne
      exact ⟨c, r ++ ex, rfl, Or.inl hc⟩
    · by_cases hda : da = []
      · subst hda
        have hdb : db ≠ [] := by simpa using hne
        obtain ⟨c, r, rfl, _⟩ := run_head h2 hdb
        have ha : a = [] := by
          cases a with
          | nil => rfl
          | cons y ys =>
            have hy : y ≠ '_' := by have := h1.2.1; simpa using this
            have := h1.1
            simp [hy] at this
        subst ha
        exact ⟨'.', c :: r ++ ex, rfl, Or.inr ⟨rfl, by simp⟩⟩
      · obtain ⟨c, r, rfl, hc⟩ := run_head h1 hda
        exact ⟨c, r ++ '.' :: b' ++ ex, by simp, Or.inl hc⟩
  obtain ⟨c, r, hcr, hc⟩ := hhead
  have hsign : sg = ['-'] ∨ sg = ['+'] ∨ sg = [] := by
    rcases hsg with ⟨h, _⟩ | ⟨h | h, _⟩ <;> simp [h]
  constructor
  · intro y hy
    rw [List.mem_append] at hy
    rcases hy with hy | hy
    · rcases hsign with rfl | rfl | rfl
      · rw [List.mem_singleton] at hy; subst hy; unfold NumChar; decide
      · rw [List.mem_singleton] at hy; subst hy; unfold NumChar; decide
      · cases hy
    · exact hchars y hy
  · rcases hsign with rfl | rfl | rfl
    · exact ⟨'-', _, rfl, by tauto⟩
    · exact ⟨'+', _, rfl, by tauto⟩
    · exact ⟨c, r, hcr, by tauto⟩

/-- Flonums are read back if the loops of the printer and the reader are given enough steps. -/
theorem flo_ok {lo hi : Int} (hlo : -20 ≤ lo) (hhi : hi ≤ 17) (est : Flo → Int) (cat : Char → Cat) (x : Flo) (hx : x.Ok)
    (he : ∀ neg m k, x = .num neg (.fin m k) → 0 < m → FloText.EstimateOf (est x) m k) :
    ∃ N, ∀ fuel, N ≤ fuel → NumbOk ⟨cat, est, lo, hi, fuel⟩ (.flo x) := by
  obtain ⟨txt, N, h⟩ := FloText.C63_round_trip hlo hhi x hx (est x) he false false
  have shape : (∀ c ∈ txt, NumChar c) ∧ ∃ c r, txt = c :: r ∧ (c = '+' ∨ c = '-' ∨ asciiDigit c = true ∨ (c = '.' ∧ r ≠ [])) := by
    have lit : ∀ l ∈ ["+nan.0".toList, "-inf.0".toList, "+inf.0".toList, "-0.0".toList, "0.0".toList],
        (∀ c ∈ l, NumChar c) ∧ ∃ c r, l = c :: r ∧ (c = '+' ∨ c = '-' ∨ asciiDigit c = true ∨ (c = '.' ∧ r ≠ [])) := by
      intro l hl
      simp only [List.mem_cons, List.not_mem_nil, or_false] at hl
      unfold NumChar
      rcases hl with rfl | rfl | rfl | rfl | rfl
      · exact ⟨by decide, '+', "nan.0".toList, by decide, by decide⟩
      · exact ⟨by decide, '-', "inf.0".toList, by decide, by decide⟩
      · exact ⟨by decide, '+', "inf.0".toList, by decide, by decide⟩
      · exact ⟨by decide, '-', "0.0".toList, by decide, by decide⟩
      · exact ⟨by decide, '0', ".0".toList, by decide, by decide⟩
    have hN := (h N (le_refl N)).1
    cases x with
    | nan =>
      injection hN with hN
      rw [← hN]; exact lit _ (by simp)
    | num neg d =>
      cases d with
      | inf =>
        injection hN with hN
        rw [← hN]; cases neg <;> exact lit _ (by simp)
      | fin m k =>
        by_cases hm : m = 0
        · subst hm
          unfold FloText.printDouble at hN
          simp only [if_true] at hN
          injection hN with hN
          rw [← hN]; cases neg <;> exact lit _ (by simp)
        · obtain ⟨txt', f, d, e', h1, h2, _⟩ := FloText.C63_text hlo hhi neg false (m := m) (k := k) hx (by omega) (he neg m k rfl (by omega))
          have hb := (h (max N 17) (le_max_left _ _)).1
          rw [h1 (max N 17) (le_max_right _ _)] at hb
          injection hb with hb
          rw [← hb]
          exact dec_shape (h2 true)
  obtain ⟨hch, c, r, rfl, hc⟩ := shape
  exact ⟨N, fun fuel hf => ⟨c, r, (h fuel hf).1, (h fuel hf).2, hch, hc⟩⟩

end Gauche.Sexp

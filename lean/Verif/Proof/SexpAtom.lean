import Verif.Proof.SexpLex
/-
Strings, symbols in bars and characters: what is written is read back.
-/
namespace Gauche.Sexp

/-! ### digits -/

theorem digChar_val : ∀ d : Fin 16, hexVal (digChar d) = some d.val ∧ foldCase true (digChar d) = digChar d ∧ (digChar d).toNat < 128 := by decide +kernel

theorem digChar_dec : ∀ d : Fin 10, asciiDigit (digChar d) = true ∧ (digChar d).toNat - 48 = d.val := by decide +kernel

theorem radixText_hex (k : Nat) : ∀ n, n < k → (∀ c ∈ radixText 16 k n, (hexVal c).isSome = true ∧ foldCase true c = c ∧ c.toNat < 128) ∧
    hexNum (radixText 16 k n) = n ∧ radixText 16 k n ≠ [] := by
  induction k with
  | zero => intro n h; omega
  | succ k ih =>
    intro n hn
    unfold radixText
    by_cases h : n < 16
    · rw [if_pos h]
      obtain ⟨h1, h2, h3⟩ := digChar_val ⟨n, h⟩
      simp only [] at h1 h2 h3
      refine ⟨?_, ?_, by simp⟩
      · intro c hc
        rw [List.mem_singleton] at hc
        subst hc
        exact ⟨by rw [h1]; rfl, h2, h3⟩
      · simp [hexNum, h1]
    · rw [if_neg h]
      obtain ⟨i1, i2, i3⟩ := ih (n / 16) (by omega)
      obtain ⟨h1, h2, h3⟩ := digChar_val ⟨n % 16, by omega⟩
      simp only [] at h1 h2 h3
      refine ⟨?_, ?_, by simp⟩
      · intro c hc
        rw [List.mem_append, List.mem_singleton] at hc
        rcases hc with hc | hc
        · exact i1 c hc
        · subst hc; exact ⟨by rw [h1]; rfl, h2, h3⟩
      · unfold hexNum at i2 ⊢
        rw [List.foldl_append, i2]
        simp [h1]
        omega

theorem hexNum_zeros (m : Nat) (t : List Char) : hexNum (List.replicate m '0' ++ t) = hexNum t := by
  induction m with
  | zero => simp
  | succ m ih =>
    rw [List.replicate_succ, List.cons_append]
    unfold hexNum at ih ⊢
    rw [List.foldl_cons, show 0 * 16 + (hexVal '0').getD 0 = 0 by decide]
    exact ih

theorem hexText_spec (w n : Nat) : (∀ c ∈ hexText w n, (hexVal c).isSome = true ∧ foldCase true c = c ∧ c.toNat < 128) ∧
    hexNum (hexText w n) = n ∧ hexText w n ≠ [] := by
  obtain ⟨h1, h2, h3⟩ := radixText_hex (n + 1) n (by omega)
  unfold hexText
  simp only []
  refine ⟨?_, by rw [hexNum_zeros]; exact h2, by simp [h3]⟩
  intro c hc
  rw [List.mem_append] at hc
  rcases hc with hc | hc
  · rw [List.mem_replicate] at hc
    rw [hc.2]; decide
  · exact h1 c hc

/-- The characters of `%d`. -/
theorem radixText_dec (k : Nat) : ∀ n, n < k → (∀ c ∈ radixText 10 k n, asciiDigit c = true) ∧ radixText 10 k n ≠ [] ∧
    (∀ (v : Nat) (s : List Char), v * 10 ^ (radixText 10 k n).length + n < 9223372036854775810 →
      digitsAsLong v (radixText 10 k n ++ s) = digitsAsLong (v * 10 ^ (radixText 10 k n).length + n) s) := by
  induction k with
  | zero => intro n h; omega
  | succ k ih =>
    intro n hn
    unfold radixText
    by_cases h : n < 10
    · rw [if_pos h]
      obtain ⟨h1, h2⟩ := digChar_dec ⟨n, h⟩
      simp only [] at h1 h2
      refine ⟨by simp [h1], by simp, ?_⟩
      intro v s hv
      simp only [List.length_singleton, pow_one, List.singleton_append] at hv ⊢
      rw [digitsAsLong, if_pos h1, if_neg (by omega), h2]
    · rw [if_neg h]
      obtain ⟨i1, i2, i3⟩ := ih (n / 10) (by omega)
      obtain ⟨h1, h2⟩ := digChar_dec ⟨n % 10, by omega⟩
      simp only [] at h1 h2
      refine ⟨?_, by simp, ?_⟩
      · intro c hc
        rw [List.mem_append, List.mem_singleton] at hc
        rcases hc with hc | hc
        · exact i1 c hc
        · subst hc; exact h1
      · intro v s hv
        rw [List.length_append, List.length_singleton, pow_succ] at hv ⊢
        rw [List.append_assoc]
        generalize hL : (radixText 10 k (n / 10)).length = L at hv i3 ⊢
        have e1 : v * (10 ^ L * 10) = v * 10 ^ L * 10 := by ring
        rw [e1] at hv ⊢
        have h3 := i3 v ([digChar (n % 10)] ++ s)
        generalize hV : v * 10 ^ L = V at hv h3 ⊢
        rw [h3 (by omega)]
        rw [List.singleton_append, digitsAsLong, if_pos h1, if_neg (by omega), h2]
        congr 1
        omega

/-- A run of decimal digits followed by something else. -/
theorem decText_spec (n : Nat) : (∀ c ∈ decText n, asciiDigit c = true) ∧
    ∃ c r, decText n = c :: r ∧ ∀ (d : Char) (s : List Char), n < 9223372036854775810 → asciiDigit d = false →
      digitsAsLong (c.toNat - 48) (r ++ d :: s) = (some n, d :: s) := by
  obtain ⟨h1, h2, h3⟩ := radixText_dec (n + 1) n (by omega)
  unfold decText
  refine ⟨h1, ?_⟩
  cases hh : radixText 10 (n + 1) n with
  | nil => exact absurd hh h2
  | cons c r =>
    refine ⟨c, r, rfl, ?_⟩
    intro d s hn hd
    have := h3 0 (d :: s) (by omega)
    rw [hh] at h1 this
    rw [List.cons_append, digitsAsLong, if_pos (h1 c (by simp)), if_neg (by omega)] at this
    simp only [zero_mul, zero_add] at this
    rw [this, digitsAsLong, if_neg (by simp [hd])]

/-! ### strings -/

theorem ucs_self (c : Char) : ucs c.toNat = .ok c := by
  have hv : c.toNat.isValidChar := c.valid
  unfold ucs
  rw [if_neg, if_pos hv, toNat_ofNat_self]
  unfold Nat.isValidChar at hv
  omega

theorem hex_ne_semi {c : Char} (h : (hexVal c).isSome = true) : c ≠ ';' := by rintro rfl; exact absurd h (by decide)

theorem readString_hex {t : List Char} (ht : ∀ c ∈ t, (hexVal c).isSome = true) (ds acc s : List Char) :
    readString (.hex ds) acc (t ++ ';' :: s) = readString (.hex (ds ++ t)) acc (';' :: s) := by
  induction t generalizing ds with
  | nil => simp
  | cons c t ih =>
    have hc := ht c (by simp)
    rw [List.cons_append, readString, if_neg (hex_ne_semi hc), if_pos hc, ih (fun d hd => ht d (List.mem_cons_of_mem _ hd))]
    simp

theorem readEscaped_hex {t : List Char} (ht : ∀ c ∈ t, (hexVal c).isSome = true) (ds acc s : List Char) :
    readEscaped (.hex ds) acc (t ++ ';' :: s) = readEscaped (.hex (ds ++ t)) acc (';' :: s) := by
  induction t generalizing ds with
  | nil => simp
  | cons c t ih =>
    have hc := ht c (by simp)
    rw [List.cons_append, readEscaped, if_neg (hex_ne_semi hc), if_pos hc, ih (fun d hd => ht d (List.mem_cons_of_mem _ hd))]
    simp

theorem xdigits_text (w : Nat) (c : Char) : xdigits (hexText w c.toNat) true = .ok [c] := by
  obtain ⟨_, h2, h3⟩ := hexText_spec w c.toNat
  unfold xdigits
  rw [if_pos ⟨rfl, h3⟩, h2, ucs_self]

theorem readString_xesc (w : Nat) (c : Char) (acc s : List Char) :
    readString .text acc ('\\' :: 'x' :: hexText w c.toNat ++ [';'] ++ s) = readString .text (c :: acc) s := by
  have hh := hexText_spec w c.toNat
  have : '\\' :: 'x' :: hexText w c.toNat ++ [';'] ++ s = '\\' :: 'x' :: (hexText w c.toNat ++ ';' :: s) := by simp
  rw [this, readString, if_neg (by decide), if_pos rfl, readString]
  have hs : simpleEsc 'x' = none := by decide
  rw [hs]
  simp only [if_true]
  rw [readString_hex fun d hd => (hh.1 d hd).1, List.nil_append, readString, if_pos rfl, xdigits_text]
  rfl

theorem readEscaped_xesc (w : Nat) (c : Char) (acc s : List Char) :
    readEscaped .text acc ('\\' :: 'x' :: hexText w c.toNat ++ [';'] ++ s) = readEscaped .text (c :: acc) s := by
  have hh := hexText_spec w c.toNat
  have : '\\' :: 'x' :: hexText w c.toNat ++ [';'] ++ s = '\\' :: 'x' :: (hexText w c.toNat ++ ';' :: s) := by simp
  rw [this, readEscaped, if_neg (by decide), if_pos rfl, readEscaped, if_pos rfl]
  rw [readEscaped_hex fun d hd => (hh.1 d hd).1, List.nil_append, readEscaped, if_pos rfl, xdigits_text]
  rfl
  all_goals simp

theorem eq_of_toNat {c : Char} {n : Nat} (h : c.toNat = n) : c = Char.ofNat n := by rw [← h, toNat_ofNat_self]

theorem readString_char (cat : Char → Cat) (c : Char) (acc s : List Char) :
    readString .text acc (strEsc cat c ++ s) = readString .text (c :: acc) s := by
  have back : ∀ d, simpleEsc d = some c → readString .text acc ('\\' :: d :: s) = readString .text (c :: acc) s := by
    intro d hd
    rw [readString, if_neg (by decide), if_pos rfl, readString, hd]
  unfold strEsc
  by_cases h1 : c = '\\'
  · rw [if_pos h1]; exact back _ (by rw [h1]; decide)
  rw [if_neg h1]
  by_cases h2 : c = '"'
  · subst h2
    rw [if_pos rfl]
    simp only [List.cons_append, List.nil_append]
    rw [readString, if_neg (by decide), if_pos rfl, readString, show simpleEsc '"' = none by decide]
    simp [extraSpace]
  rw [if_neg h2]
  by_cases h3 : c = '\n'
  · rw [if_pos h3]; exact back _ (by rw [h3]; decide)
  rw [if_neg h3]
  by_cases h4 : c = '\t'
  · rw [if_pos h4]; exact back _ (by rw [h4]; decide)
  rw [if_neg h4]
  by_cases h5 : c = '\r'
  · rw [if_pos h5]; exact back _ (by rw [h5]; decide)
  rw [if_neg h5]
  by_cases h6 : c.toNat = 12
  · rw [if_pos h6]; exact back _ (by rw [eq_of_toNat h6]; decide)
  rw [if_neg h6]
  by_cases h7 : c.toNat = 0
  · rw [if_pos h7]; exact back _ (by rw [eq_of_toNat h7]; decide)
  rw [if_neg h7]
  have raw : readString .text acc ([c] ++ s) = readString .text (c :: acc) s := by
    rw [List.singleton_append, readString, if_neg h2, if_neg h1]
  by_cases h8 : c.toNat < 0x80
  · rw [if_pos h8]
    by_cases h9 : c.toNat < 0x20 ∨ c.toNat = 0x7f
    · rw [if_pos h9]; exact readString_xesc 2 c acc s
    · rw [if_neg h9]; exact raw
  · rw [if_neg h8]
    cases cat c <;> simp only [] <;> first | exact raw | (split <;> exact readString_xesc _ c acc s)

theorem readString_write (cat : Char → Cat) (t acc s : List Char) :
    readString .text acc (t.flatMap (strEsc cat) ++ '"' :: s) = .ok (acc.reverse ++ t, s) := by
  induction t generalizing acc with
  | nil => simp [readString]
  | cons c t ih =>
    rw [List.flatMap_cons, List.append_assoc, readString_char, ih]
    simp

theorem readEscaped_char (c : Char) (acc s : List Char) : readEscaped .text acc (symEsc c ++ s) = readEscaped .text (c :: acc) s := by
  unfold symEsc
  have raw : c ≠ '|' → c ≠ '\\' → readEscaped .text acc ([c] ++ s) = readEscaped .text (c :: acc) s := by
    intro h1 h2
    rw [List.singleton_append, readEscaped, if_neg h1, if_neg h2] <;> simp
  by_cases h1 : c.toNat < 128
  · rw [if_pos h1]
    by_cases h2 : c = '|' ∨ c = '\\'
    · rw [if_pos h2]
      simp only [List.cons_append, List.nil_append]
      rw [readEscaped, if_neg (by decide), if_pos rfl, readEscaped]
      · rcases h2 with rfl | rfl <;> simp
      all_goals simp
    · rw [if_neg h2]
      by_cases h3 : c.toNat < 0x20 ∨ c.toNat = 0x7f
      · rw [if_pos h3]; exact readEscaped_xesc 2 c acc s
      · rw [if_neg h3]; exact raw (fun h => h2 (Or.inl h)) (fun h => h2 (Or.inr h))
  · rw [if_neg h1]
    exact raw (by rintro rfl; exact h1 (by decide)) (by rintro rfl; exact h1 (by decide))

theorem readEscaped_write (t acc s : List Char) :
    readEscaped .text acc (t.flatMap symEsc ++ '|' :: s) = .ok (acc.reverse ++ t, s) := by
  induction t generalizing acc with
  | nil => simp [readEscaped]
  | cons c t ih =>
    rw [List.flatMap_cons, List.append_assoc, readEscaped_char, ih]
    simp

/-! ### characters -/

theorem word_ascii {cat : Char → Cat} {hash : Bool} {c : Char} (hc : c.toNat < 128) (h : (wordTable.getD c.toNat 0 == 1) = true) :
    wordChar cat hash c = true := by
  unfold wordChar; rw [if_pos hc, h]; rfl

theorem hex_word {cat : Char → Cat} {hash : Bool} {c : Char} (h : (hexVal c).isSome = true) (hc : c.toNat < 128) : wordChar cat hash c = true := by
  refine word_ascii hc ?_
  have := ascii_all (P := fun c => !(hexVal c).isSome || (wordTable.getD c.toNat 0 == 1)) (by decide +kernel) c hc
  simpa [h] using this

theorem readChar_name {cat : Char → Cat} {c : Char} {w rest : List Char} (hc : "()[]{}\" \\|;#".toList.contains c = false) (hw : w ≠ [])
    (hww : ∀ d ∈ w, wordChar cat false d = true) (hr : Stop cat rest) {d : Char} (hd : charOfName (foldCase true c :: w.map (foldCase true)) = .ok d) :
    readChar cat (c :: w ++ rest) = .ok (d, rest) := by
  rw [List.cons_append, readChar, hc]
  simp only [Bool.false_eq_true, if_false]
  rw [readWord_eq hww hr]
  simp only [List.map_eq_nil_iff, hw, if_false, hd]

theorem hex_special {c : Char} : "()[]{}\" \\|;#".toList.contains 'x' = false := by decide

theorem charNames_ok : ∀ n : Fin 33, ∃ c w, (charNames.getD n "").toList = c :: w ∧ w ≠ [] ∧ "()[]{}\" \\|;#".toList.contains c = false ∧
    (∀ d ∈ w, d.toNat < 128 ∧ (wordTable.getD d.toNat 0 == 1) = true) ∧ charOfName (foldCase true c :: w.map (foldCase true)) = .ok (Char.ofNat n) := by
  intro n
  have key : ∀ n : Fin 33, (match (charNames.getD n "").toList with
      | [] => false
      | c :: w => !w.isEmpty && !("()[]{}\" \\|;#".toList.contains c) && w.all (fun d => decide (d.toNat < 128) && (wordTable.getD d.toNat 0 == 1)) &&
        (match charOfName (foldCase true c :: w.map (foldCase true)) with
         | .ok d => d == Char.ofNat n
         | _ => false)) = true := by decide +kernel
  have := key n
  cases hh : (charNames.getD n "").toList with
  | nil => rw [hh] at this; cases this
  | cons c w =>
    rw [hh] at this
    simp only [Bool.and_eq_true] at this
    obtain ⟨⟨⟨h1, h2⟩, h3⟩, h4⟩ := this
    refine ⟨c, w, rfl, ?_, by simpa using h2, ?_, ?_⟩
    · rintro rfl; simp at h1
    · intro d hd
      have := List.all_eq_true.1 h3 d hd
      simpa using this
    · split at h4
      · rename_i d hd; rw [hd]; simp at h4; rw [h4]
      · cases h4

theorem readChar_write (cat : Char → Cat) (c : Char) {rest : List Char} (hr : Stop cat rest) :
    ∃ w, writeChar cat c = '#' :: '\\' :: w ∧ readChar cat (w ++ rest) = .ok (c, rest) := by
  unfold writeChar
  refine ⟨_, rfl, ?_⟩
  by_cases h1 : c.toNat ≤ 0x20
  · rw [if_pos h1]
    obtain ⟨d, w, e1, e2, e3, e4, e5⟩ := charNames_ok ⟨c.toNat, by omega⟩
    simp only [] at e1 e5
    rw [e1]
    refine readChar_name e3 e2 (fun x hx => word_ascii (e4 x hx).1 (e4 x hx).2) hr ?_
    rw [e5, toNat_ofNat_self]
  rw [if_neg h1]
  by_cases h2 : c.toNat = 0x7f
  · rw [if_pos h2, eq_of_toNat h2]
    have : "delete".toList = 'd' :: ['e', 'l', 'e', 't', 'e'] := by decide
    rw [this]
    refine readChar_name (by decide) (by simp) ?_ hr (by decide +kernel)
    intro x hx
    have : ∀ x ∈ ['e', 'l', 'e', 't', 'e'], x.toNat < 128 ∧ (wordTable.getD x.toNat 0 == 1) = true := by decide
    exact word_ascii (this x hx).1 (this x hx).2
  rw [if_neg h2]
  have hex : readChar cat ('x' :: hexText 4 c.toNat ++ rest) = .ok (c, rest) := by
    obtain ⟨a1, a2, a3⟩ := hexText_spec 4 c.toNat
    refine readChar_name (by decide) a3 (fun d hd => hex_word (a1 d hd).1 (a1 d hd).2.2) hr ?_
    have hm : (hexText 4 c.toNat).map (foldCase true) = hexText 4 c.toNat := by
      conv => rhs; rw [← List.map_id (hexText 4 c.toNat)]
      exact List.map_congr_left fun d hd => (a1 d hd).2.1
    rw [hm, show foldCase true 'x' = 'x' by decide]
    unfold charOfName
    have g1 : (('x' :: hexText 4 c.toNat).any fun d => decide (128 ≤ d.toNat)) = false := by
      rw [List.any_eq_false]
      intro d hd
      rw [List.mem_cons] at hd
      rcases hd with rfl | hd
      · decide
      · have := (a1 d hd).2.2; simp; omega
    rw [g1]
    simp only [Bool.false_eq_true, if_false]
    have g2 : (hexVal (('x' :: hexText 4 c.toNat).getD 1 'z')).isSome = true := by
      cases hh : hexText 4 c.toNat with
      | nil => exact absurd hh a3
      | cons d t => simp; rw [hh] at a1; exact (a1 d (by simp)).1
    rw [if_pos ⟨rfl, g2⟩]
    have g3 : (('x' :: hexText 4 c.toNat).tail.all fun d => (hexVal d).isSome) = true := by
      rw [List.all_eq_true]; intro d hd; exact (a1 d hd).1
    rw [if_pos g3, List.tail_cons, a2, ucs_self]
  have raw : readChar cat ([c] ++ rest) = .ok (c, rest) := by
    rw [List.singleton_append, readChar]
    cases hs : "()[]{}\" \\|;#".toList.contains c with
    | true => rfl
    | false =>
      simp only [Bool.false_eq_true, if_false]
      have := readWord_eq (cat := cat) (fold := true) (hash := false) (w := []) (by simp) hr
      rw [List.nil_append] at this
      rw [this]; simp
  cases cat c <;> simp only [] <;> first | exact raw | exact hex

end Gauche.Sexp

import Verif.Proof.QP
/-! C88: quoted-printable encoding. -/
namespace Gauche.QP

/-- C88: decoding what was encoded in binary mode gives the bytes back, for every line width; encoding does not fail.  `wc` gives the bytes
of a character, ASCII characters being written as they are. -/
theorem C88_binary (wc : Nat → List Nat) (hwc : ∀ c, c < 128 → wc c = [c]) (lineWidth : Option Nat) (l : List Nat) (hl : ∀ c ∈ l, c < 256) :
    ∃ t, encode lineWidth true l = some t ∧ decode wc t = some l := by
  have h := enc_isSome (limitOf lineWidth) true l.length l (Nat.le_refl _) 0
  obtain ⟨t, ht⟩ := Option.isSome_iff_exists.1 h
  exact ⟨t, ht, dec_enc hwc _ true l.length l (Nat.le_refl _) hl 0 t ht _ (Nat.le_refl _)⟩

/-- C88: in text mode, decoding gives the text with its line breaks written as CR LF; encoding fails exactly when the text ends with CR. -/
theorem C88_text (wc : Nat → List Nat) (hwc : ∀ c, c < 128 → wc c = [c]) (lineWidth : Option Nat) (l : List Nat) (hl : ∀ c ∈ l, c < 256) :
    (∀ t, encode lineWidth false l = some t → decode wc t = some (norm l)) ∧
    (encode lineWidth false l = none ↔ l.getLast? = some 13) := by
  refine ⟨fun t ht => dec_enc hwc _ false l.length l (Nat.le_refl _) hl 0 t ht _ (Nat.le_refl _), ?_⟩
  have h := enc_isSome (limitOf lineWidth) false l.length l (Nat.le_refl _) 0
  rw [Bool.false_or] at h
  unfold encode
  constructor
  · intro e; rw [e] at h
    by_cases hc : l.getLast? = some 13
    · exact hc
    · rw [decide_eq_true hc] at h; cases h
  · intro e
    rw [decide_eq_false (fun h => h e)] at h
    exact Option.isNone_iff_eq_none.1 (by rw [← Option.not_isSome, h]; rfl)

/-- C88: in text mode no line is longer than the line width, if that is at least 4. -/
theorem C88_width (w : Nat) (hw : 4 ≤ w) (l : List Nat) (hl : ∀ c ∈ l, c < 256) (t : List Nat) (h : encode (some w) false l = some t)
    (p s r : List Nat) (e : t = p ++ s ++ r) (hs : ∀ c ∈ s, c ≠ 13 ∧ c ≠ 10) : s.length ≤ w := by
  have hlim : limitOf (some w) = some (w - 3) := by simp [limitOf, hw]
  rw [encode, hlim] at h
  have := enc_width (w := w) (by omega) (by omega) l.length l (Nat.le_refl _) hl 0 t (by omega) h
  rw [e, List.append_assoc] at this
  obtain ⟨k', h'⟩ := okW_infix p _ _ this
  have := okW_prefix s _ _ h' hs
  omega

/-- C88: only printing characters of ASCII other than the space, CR and LF are written. -/
theorem C88_chars (lineWidth : Option Nat) (binary : Bool) (l : List Nat) (hl : ∀ c ∈ l, c < 256) (t : List Nat)
    (h : encode lineWidth binary l = some t) : ∀ c ∈ t, (33 ≤ c ∧ c ≤ 126) ∨ c = 13 ∨ c = 10 :=
  enc_chars _ binary l.length l (Nat.le_refl _) hl 0 t h

/-- What C88 does not give: in binary mode, an encoded CR or LF is counted as one character instead of three, and lines may be nearly three
times as long as the line width. -/
theorem C88_bug_binary_width : ∃ l t p s r, encode (some 76) true l = some t ∧ t = p ++ s ++ r ∧ (∀ c ∈ s, c ≠ 13 ∧ c ≠ 10) ∧
    s.length = 220 := by
  obtain ⟨t, ht⟩ : ∃ t, encode (some 76) true (List.replicate 80 10) = some t := Option.isSome_iff_exists.1 (by decide +kernel)
  refine ⟨List.replicate 80 10, t, [], t.take 220, t.drop 220, ht, by simp, ?_, ?_⟩
  · have : ∀ c ∈ ((encode (some 76) true (List.replicate 80 10)).getD []).take 220, c ≠ 13 ∧ c ≠ 10 := by decide +kernel
    rw [ht] at this; exact this
  · have : (((encode (some 76) true (List.replicate 80 10)).getD []).take 220).length = 220 := by decide +kernel
    rw [ht] at this; exact this

/-- What C88 does not give: a text that ends with CR cannot be encoded, and one that ends with `=` and CR cannot be decoded, both because the
end of file is compared with a byte or a character. -/
theorem C88_bug_cr (wc : Nat → List Nat) (lineWidth : Option Nat) : encode lineWidth false [97, 13] = none ∧ decode wc [61, 13] = none := by
  refine ⟨?_, by simp [decode, dec]⟩
  have h := enc_isSome (limitOf lineWidth) false 2 [97, 13] (by simp) 0
  have h2 : (encode lineWidth false [97, 13]).isSome = false := h
  exact Option.isNone_iff_eq_none.1 (by rw [← Option.not_isSome, h2]; rfl)

/-! Non-vacuity. -/
example : encode (some 8) false [97, 61, 32, 13, 98, 10, 255] = some [97, 61, 51, 68, 61, 50, 48, 61, 13, 10, 13, 10, 98, 13, 10, 61, 70, 70] := by
  decide +kernel
example : norm [97, 13, 98, 10, 13, 10, 99] = [97, 13, 10, 98, 13, 10, 13, 10, 99] := by decide +kernel
example : ∃ wc : Nat → List Nat, ∀ c, c < 128 → wc c = [c] := ⟨fun c => [c], fun _ _ => rfl⟩

end Gauche.QP

import Verif.Proof.Base32
/-
C23 base64; C57 base32 and base16.
-/
namespace Gauche.Base64
open Radix

/-- The result of a decoder in the terms of the specification. -/
def Res.toEnd : Res → Option End
  | .done => some .ok
  | .invalid c => some (.invalid c)
  | .premature => some .premature
  | .diverges => none

/-- The two last characters of an alphabet. -/
def Alphabet.c62 : Alphabet → Nat
  | .standard => 43
  | .urlSafe => 45
  | .digits g _ => g
/-- The last character of an alphabet. -/
def Alphabet.c63 : Alphabet → Nat
  | .standard => 47
  | .urlSafe => 95
  | .digits _ g => g
/-- The characters a decoder accepts besides its alphabet: with `digits` other than the standard and the url-safe
ones, `+` and `/` keep their standard values. -/
def Alphabet.extra : Alphabet → Nat → Option Nat
  | .digits g0 g1, c => if g0 = 45 ∧ g1 = 95 then none else if c = 43 then some 62 else if c = 47 then some 63 else none
  | _, _ => none

/-- An alphabet in which decoding makes sense: two different printable characters that are no letters, digits or
padding. -/
def Alphabet.Ok : Alphabet → Prop
  | .digits g0 g1 => 32 < g0 ∧ 32 < g1 ∧ validDigit g0 = true ∧ validDigit g1 = true ∧ g0 ≠ g1
  | _ => True

theorem std_enc : ∀ x < 64, standardEncode.getD x 0 = char64 43 47 x := by decide +kernel
theorem url_enc : ∀ x < 64, urlSafeEncode.getD x 0 = char64 45 95 x := by decide +kernel

theorem enc_table (al : Alphabet) (t : List Nat) (h : encodeTable al = some t) :
    (∀ x < 64, t.getD x 0 = char64 al.c62 al.c63 x) ∧ t.getD 64 0 = eqSign := by
  cases al with
  | standard => injection h with h; subst h; exact ⟨std_enc, by decide +kernel⟩
  | urlSafe => injection h with h; subst h; exact ⟨url_enc, by decide +kernel⟩
  | digits g0 g1 =>
    unfold encodeTable digitsEncode at h
    dsimp only at h
    split at h
    · split at h
      · rename_i h2; injection h with h; subst h; obtain ⟨rfl, rfl⟩ := h2; exact ⟨std_enc, by decide +kernel⟩
      · split at h
        · rename_i h2; injection h with h; subst h; obtain ⟨rfl, rfl⟩ := h2; exact ⟨url_enc, by decide +kernel⟩
        · injection h with h
          subst h
          have hl : standardEncode.length = 65 := by decide +kernel
          refine ⟨?_, ?_⟩
          · intro x hx
            rw [List.getD_eq_getElem?_getD, List.getElem?_set, List.getElem?_set, List.length_set, hl]
            unfold Alphabet.c62 Alphabet.c63
            dsimp only
            by_cases h63 : x = 63
            · subst h63; simp [char64]
            · rw [if_neg (by omega)]
              by_cases h62 : x = 62
              · subst h62; simp [char64]
              · rw [if_neg (by omega), ← List.getD_eq_getElem?_getD, std_enc x hx]
                unfold char64
                by_cases a1 : x < 26
                · rw [if_pos a1, if_pos a1]
                · by_cases a2 : x < 52
                  · rw [if_neg a1, if_pos a2, if_neg a1, if_pos a2]
                  · rw [if_neg a1, if_neg a2, if_pos (by omega), if_neg a1, if_neg a2, if_pos (by omega)]
          · rw [List.getD_eq_getElem?_getD, List.getElem?_set_ne (by decide), List.getElem?_set_ne (by decide)]
            decide +kernel
    · cases h

/-- **C23.** The encoder writes exactly the RFC 4648 text: the base 64 digits of the bytes in the alphabet, padding to a
multiple of four characters unless omitted, and a line break after every `line-width` characters. -/
theorem C23_encode (al : Alphabet) (lw : Option Int) (np : Bool) (bs : List Nat) (hb : ∀ b ∈ bs, b < 256)
    (hal : ∀ g0 g1, al = .digits g0 g1 → validDigit g0 = true ∧ validDigit g1 = true) :
    base64Encode al lw np bs = some (encodeText 6 4 (char64 al.c62 al.c63) lw np bs) := by
  obtain ⟨t, ht⟩ : ∃ t, encodeTable al = some t := by
    cases al with
    | standard => exact ⟨_, rfl⟩
    | urlSafe => exact ⟨_, rfl⟩
    | digits g0 g1 =>
      obtain ⟨h1, h2⟩ := hal g0 g1 rfl
      unfold encodeTable digitsEncode
      dsimp only
      rw [h1, h2, Bool.and_true, if_pos rfl]
      split
      · exact ⟨_, rfl⟩
      · split <;> exact ⟨_, rfl⟩
  obtain ⟨h1, h2⟩ := enc_table al t ht
  unfold base64Encode encodeText
  rw [ht, Option.map_some, encode64, emits_eq _ lw rfl _ 0 0 (by intro w _ _; simp), E64_eq np bs hb]
  dsimp only
  rw [List.map_append]
  congr 3
  · apply List.map_congr_left
    intro x hx
    exact h1 x (encDigits_lt 6 bs x hx)
  · cases np
    · simp only [Bool.false_eq_true, if_false, List.map_replicate, h2, length_encDigits]; rfl
    · rfl

theorem std_dec : ∀ c < 128, lookup standardDecode c = value64 43 47 (fun _ => none) c := by decide +kernel
theorem url_dec : ∀ c < 128, lookup urlSafeDecode c = value64 45 95 (fun _ => none) c := by decide +kernel

theorem lookup_ge (t : List (Option Nat)) (c : Nat) (h : 128 ≤ c) : lookup t c = none := by
  unfold lookup; rw [if_neg (by omega)]

theorem value64_ge (c62 c63 : Nat) (h62 : c62 < 128) (h63 : c63 < 128) (ex : Nat → Option Nat) (c : Nat) (h : 128 ≤ c)
    (hex : ex c = none) : value64 c62 c63 ex c = none := by
  unfold value64
  rw [if_neg (by omega), if_neg (by omega), if_neg (by omega), if_neg (by omega), if_neg (by omega), hex]

theorem validDigit_iff {c : Nat} (h : validDigit c = true) :
    c < 128 ∧ ¬ (65 ≤ c ∧ c ≤ 90) ∧ ¬ (97 ≤ c ∧ c ≤ 122) ∧ ¬ (48 ≤ c ∧ c ≤ 57) ∧ c ≠ 61 := by
  unfold validDigit at h
  simp only [Bool.and_eq_true, decide_eq_true_eq, Bool.not_eq_true', Bool.or_eq_false_iff, decide_eq_false_iff_not,
    beq_eq_false_iff_ne] at h
  obtain ⟨h1, ⟨⟨h2, h3⟩, h4⟩, h5⟩ := h
  exact ⟨h1, h2, h3, h4, h5⟩

theorem dec_table (al : Alphabet) (hok : al.Ok) :
    ∃ t, decodeTable al = some t ∧ ∀ c, lookup t c = value64 al.c62 al.c63 al.extra c := by
  have hstd : ∀ c, lookup standardDecode c = value64 43 47 (fun _ => none) c := by
    intro c
    by_cases h : c < 128
    · exact std_dec c h
    · rw [lookup_ge _ _ (by omega), value64_ge _ _ (by decide) (by decide) _ _ (by omega) rfl]
  have hurl : ∀ c, lookup urlSafeDecode c = value64 45 95 (fun _ => none) c := by
    intro c
    by_cases h : c < 128
    · exact url_dec c h
    · rw [lookup_ge _ _ (by omega), value64_ge _ _ (by decide) (by decide) _ _ (by omega) rfl]
  cases al with
  | standard => exact ⟨_, rfl, hstd⟩
  | urlSafe => exact ⟨_, rfl, hurl⟩
  | digits g0 g1 =>
    obtain ⟨a0, a1, v0, v1, hne⟩ := hok
    unfold decodeTable digitsDecode
    dsimp only
    rw [v0, v1, Bool.and_true, if_pos rfl]
    by_cases hs : g0 = 43 ∧ g1 = 47
    · rw [if_pos hs]
      obtain ⟨rfl, rfl⟩ := hs
      refine ⟨_, rfl, ?_⟩
      intro c
      rw [hstd]
      unfold value64 Alphabet.extra Alphabet.c62 Alphabet.c63
      dsimp only
      by_cases h43 : c = 43
      · subst h43; rfl
      · by_cases h47 : c = 47
        · subst h47; rfl
        · rw [if_neg (c := (43 : Nat) = 45 ∧ (47 : Nat) = 95) (by decide)]
          simp only [if_neg h47, if_neg h43]
    · rw [if_neg hs]
      by_cases hu : g0 = 45 ∧ g1 = 95
      · rw [if_pos hu]
        obtain ⟨rfl, rfl⟩ := hu
        exact ⟨_, rfl, hurl⟩
      · rw [if_neg hu, if_neg (by omega)]
        refine ⟨_, rfl, ?_⟩
        intro c
        obtain ⟨v0', w1, w2, w3, w4⟩ := validDigit_iff v0
        obtain ⟨v1', y1, y2, y3, y4⟩ := validDigit_iff v1
        have hx : (Alphabet.digits g0 g1).extra c = if c = 43 then some 62 else if c = 47 then some 63 else none := by
          unfold Alphabet.extra; dsimp only; rw [if_neg hu]
        have key : ∀ c, lookup ((standardDecode.set (g0 - 32) (some 62)).set (g1 - 32) (some 63)) c =
            if c = g1 then some 63 else if c = g0 then some 62 else lookup standardDecode c := by
          intro c
          have hl : standardDecode.length = 96 := by decide +kernel
          unfold lookup
          by_cases hc : 32 < c ∧ c < 128
          · rw [if_pos hc, if_pos hc, List.getD_eq_getElem?_getD, List.getElem?_set, List.getElem?_set, List.length_set, hl,
              List.getD_eq_getElem?_getD]
            by_cases e1 : c = g1
            · rw [if_pos (by omega), if_pos (by omega), if_pos e1]; rfl
            · rw [if_neg (by omega), if_neg e1]
              by_cases e0 : c = g0
              · rw [if_pos (by omega), if_pos (by omega), if_pos e0]; rfl
              · rw [if_neg (by omega), if_neg e0]
          · rw [if_neg hc, if_neg hc, if_neg (by omega), if_neg (by omega)]
        rw [key, hstd]
        unfold value64 Alphabet.c62 Alphabet.c63
        dsimp only
        rw [hx]
        by_cases e1 : c = g1
        · rw [if_pos e1, if_neg (by omega), if_neg (by omega), if_neg (by omega), if_pos e1]
        · rw [if_neg e1]
          by_cases e0 : c = g0
          · rw [if_pos e0, if_neg (by omega), if_neg (by omega), if_neg (by omega), if_neg e1, if_pos e0]
          · rw [if_neg e0]
            by_cases q1 : 65 ≤ c ∧ c ≤ 90
            · rw [if_pos q1, if_pos q1]
            · rw [if_neg q1, if_neg q1]
              by_cases q2 : 97 ≤ c ∧ c ≤ 122
              · rw [if_pos q2, if_pos q2]
              · rw [if_neg q2, if_neg q2]
                by_cases q3 : 48 ≤ c ∧ c ≤ 57
                · rw [if_pos q3, if_pos q3]
                · rw [if_neg q3, if_neg q3, if_neg e1, if_neg e0]
                  by_cases r1 : c = 43
                  · subst r1; rfl
                  · by_cases r2 : c = 47
                    · subst r2; rfl
                    · rw [if_neg r2, if_neg r1, if_neg r1, if_neg r2]

theorem value64_lt {c62 c63 : Nat} {al : Alphabet} {c x : Nat} (h : value64 c62 c63 al.extra c = some x) : x < 64 := by
  unfold value64 at h
  split at h
  · injection h with h; omega
  · split at h
    · injection h with h; omega
    · split at h
      · injection h with h; omega
      · split at h
        · injection h with h; omega
        · split at h
          · injection h with h; omega
          · unfold Alphabet.extra at h
            split at h
            · split at h
              · cases h
              · split at h
                · injection h with h; omega
                · split at h
                  · injection h with h; omega
                  · cases h
            · cases h

theorem digits_lt (d : Dec) (B : Nat) (hB : ∀ c x, lookup d.table c = some x → x < B) (stop : Nat → Bool) (s : List Nat) :
    ∀ x ∈ digitsOf (lookup d.table) stop s, x < B := by
  intro x hx
  obtain ⟨c, _, hc⟩ := List.mem_filterMap.1 hx
  exact hB c x hc

theorem stop_eq (d : Dec) : d.stop = (fun c => (c == 61) || ((lookup d.table c).isNone && d.strict && !d.ws c)) := by
  funext c
  unfold Dec.stop Dec.rejects eqSign
  rw [Bool.and_assoc]

theorem final_toEnd (d : Dec) (per n : Nat) (o : Option Nat) : (d.final per n o).toEnd = some (match o with
    | some c => if (c == 61) = true then End.ok else .invalid c
    | none => if (d.strict && n % per != 0) = true then .premature else .ok) := by
  unfold Dec.final
  cases o with
  | none =>
    dsimp only
    by_cases h : (d.strict && n % per != 0) = true
    · rw [if_pos h, if_pos h]; rfl
    · rw [if_neg h, if_neg h]; rfl
  | some c =>
    dsimp only
    by_cases h : c = eqSign
    · rw [if_pos h, if_pos (by rw [h]; rfl)]; rfl
    · rw [if_neg h, if_neg (by simpa [eqSign] using h)]; rfl

/-- **C23.** What the decoder does with any text, valid or not: it writes the complete bytes formed by the digits up to the
first padding character (or, in strict mode, the first invalid character), and reports invalid and missing
characters in strict mode only. -/
theorem C23_decode (ws : Nat → Bool) (al : Alphabet) (hok : al.Ok) (strict : Bool) (s : List Nat) :
    ∃ r, base64Decode ws al strict s = some r ∧
      (r.1, r.2.toEnd) = ((decodeText 6 4 (value64 al.c62 al.c63 al.extra) (fun c => c == 61) ws strict s).1,
        some (decodeText 6 4 (value64 al.c62 al.c63 al.extra) (fun c => c == 61) ws strict s).2) := by
  obtain ⟨t, h1, h2⟩ := dec_table al hok
  unfold base64Decode
  rw [h1, Option.map_some]
  refine ⟨_, rfl, ?_⟩
  have hfun : lookup t = value64 al.c62 al.c63 al.extra := funext h2
  have hl := digits_lt ⟨t, strict, ws⟩ 64 (fun c x h => by rw [h2] at h; exact value64_lt h) (Dec.stop ⟨t, strict, ws⟩) s
  rw [(decode64 ⟨t, strict, ws⟩ s).1, final_toEnd]
  unfold decodeText
  dsimp only
  unfold Dec.digits
  rw [D64_eq _ hl, stop_eq]
  dsimp only
  rw [hfun]
  cases List.find? (fun c => c == 61 || (value64 al.c62 al.c63 al.extra c).isNone && strict && !ws c) s <;> rfl

theorem encoded_decodes (d : Dec) (k per B : Nat) (hk : 0 < k) (hB : B = 2 ^ k) (char : Nat → Nat) (hinv : ∀ x < B, lookup d.table (char x) = some x)
    (hne : ∀ x < B, char x ≠ eqSign) (hws : d.ws 10 = true) (hnl : lookup d.table 10 = none) (lw : Option Int)
    (np : Bool) (bs : List Nat) :
    d.digits (encodeText k per char lw np bs) = encDigits k bs ∧
    (encodeText k per char lw np bs).find? d.stop
      = if np ∨ padLen per (encLen k bs.length) = 0 then none else some eqSign := by
  unfold encodeText
  have hs10 : d.stop 10 = false := by unfold Dec.stop Dec.rejects; simp [hws, eqSign]
  rw [digits_foldLines d lw hws hnl, find_foldLines _ _ hs10]
  -- an encode table for `char`
  have hmap : ∀ n, (encDigits k bs).map char ++ List.replicate n 61
      = ((encDigits k bs) ++ List.replicate n B).map (fun x => ((List.range B).map char ++ [61]).getD x 0) := by
    intro n
    rw [List.map_append, List.map_replicate]
    congr 1
    · apply List.map_congr_left
      intro x hx
      have hx' : x < B := hB ▸ encDigits_lt k bs x hx
      rw [List.getD_eq_getElem?_getD, List.getElem?_append_left (by simp [hx']), List.getElem?_map,
        List.getElem?_range hx']
      rfl
    · congr 1
      rw [List.getD_eq_getElem?_getD, List.getElem?_append_right (by simp)]
      simp
  have key := fun n => digits_encoded d ((List.range B).map char ++ [61]) B
    (by
      intro x hx
      rw [List.getD_eq_getElem?_getD, List.getElem?_append_left (by simp [hx]), List.getElem?_map,
        List.getElem?_range hx]
      exact hinv x hx)
    (by
      intro x hx
      rw [List.getD_eq_getElem?_getD, List.getElem?_append_left (by simp [hx]), List.getElem?_map,
        List.getElem?_range hx]
      exact hne x hx)
    (by rw [List.getD_eq_getElem?_getD, List.getElem?_append_right (by simp)]; simp [eqSign])
    (encDigits k bs) n (fun x hx => hB ▸ encDigits_lt k bs x hx)
  cases np with
  | true =>
    have h1 := key 0
    rw [← hmap 0] at h1
    simpa using h1
  | false =>
    have h1 := key (padLen per (encLen k bs.length))
    rw [← hmap] at h1
    simpa using h1

theorem char64_ne (c62 c63 : Nat) (h2 : c62 ≠ 61) (h3 : c63 ≠ 61) (x : Nat) : char64 c62 c63 x ≠ eqSign := by
  unfold char64 eqSign
  split
  · omega
  · split
    · omega
    · split
      · omega
      · split <;> assumption

theorem value_char64 (al : Alphabet) (hok : al.Ok) (x : Nat) (hx : x < 64) :
    value64 al.c62 al.c63 al.extra (char64 al.c62 al.c63 x) = some x := by
  have hc : ∀ c62 c63 : Nat, ∀ ex, (¬ (65 ≤ c62 ∧ c62 ≤ 90) ∧ ¬ (97 ≤ c62 ∧ c62 ≤ 122) ∧ ¬ (48 ≤ c62 ∧ c62 ≤ 57)) →
      (¬ (65 ≤ c63 ∧ c63 ≤ 90) ∧ ¬ (97 ≤ c63 ∧ c63 ≤ 122) ∧ ¬ (48 ≤ c63 ∧ c63 ≤ 57)) → c62 ≠ c63 →
      value64 c62 c63 ex (char64 c62 c63 x) = some x := by
    intro c62 c63 ex ⟨a1, a2, a3⟩ ⟨b1, b2, b3⟩ hne
    unfold char64
    by_cases h1 : x < 26
    · rw [if_pos h1]; unfold value64; rw [if_pos (by omega)]; congr 1; omega
    · rw [if_neg h1]
      by_cases h2 : x < 52
      · rw [if_pos h2]; unfold value64; rw [if_neg (by omega), if_pos (by omega)]; congr 1; omega
      · rw [if_neg h2]
        by_cases h3 : x < 62
        · rw [if_pos h3]; unfold value64; rw [if_neg (by omega), if_neg (by omega), if_pos (by omega)]; congr 1; omega
        · rw [if_neg h3]
          by_cases h4 : x = 62
          · rw [if_pos h4]; unfold value64; rw [if_neg a1, if_neg a2, if_neg a3, if_neg hne, if_pos rfl, h4]
          · rw [if_neg h4]; unfold value64; rw [if_neg b1, if_neg b2, if_neg b3, if_pos rfl]; congr 1; omega
  cases al with
  | standard => exact hc 43 47 _ (by decide) (by decide) (by decide)
  | urlSafe => exact hc 45 95 _ (by decide) (by decide) (by decide)
  | digits g0 g1 =>
    obtain ⟨_, _, v0, v1, hne⟩ := hok
    obtain ⟨_, w1, w2, w3, _⟩ := validDigit_iff v0
    obtain ⟨_, y1, y2, y3, _⟩ := validDigit_iff v1
    exact hc g0 g1 _ ⟨w1, w2, w3⟩ ⟨y1, y2, y3⟩ hne

/-- **C23.** Decoding what was encoded gives back the bytes, for every alphabet, line width, padding mode and byte
sequence; in strict mode the padding must be present if it is needed. -/
theorem C23_round_trip (ws : Nat → Bool) (hws : ws 10 = true) (al : Alphabet) (hok : al.Ok) (lw : Option Int)
    (np strict : Bool) (bs : List Nat) (hb : ∀ b ∈ bs, b < 256)
    (hs : strict = false ∨ np = false ∨ bs.length % 3 = 0) :
    ∃ text, base64Encode al lw np bs = some text ∧ base64Decode ws al strict text = some (bs, .done) := by
  refine ⟨_, C23_encode al lw np bs hb (by
    intro g0 g1 h
    subst h
    exact ⟨hok.2.2.1, hok.2.2.2.1⟩), ?_⟩
  obtain ⟨t, h1, h2⟩ := dec_table al hok
  unfold base64Decode
  rw [h1, Option.map_some, (decode64 ⟨t, strict, ws⟩ _).1]
  have hno : al.c62 ≠ 61 ∧ al.c63 ≠ 61 ∧ al.c62 ≠ 10 ∧ al.c63 ≠ 10 := by
    cases al with
    | standard => decide
    | urlSafe => decide
    | digits g0 g1 =>
      obtain ⟨g1, g2, v0, v1, _⟩ := hok
      exact ⟨(validDigit_iff v0).2.2.2.2, (validDigit_iff v1).2.2.2.2, by unfold Alphabet.c62; dsimp only; omega,
        by unfold Alphabet.c63; dsimp only; omega⟩
  have hnl : lookup t 10 = none := by unfold lookup; rfl
  obtain ⟨k1, k2⟩ := encoded_decodes ⟨t, strict, ws⟩ 6 4 64 (by decide) rfl (char64 al.c62 al.c63)
    (fun x hx => by rw [h2]; exact value_char64 al hok x hx)
    (fun x _ => char64_ne _ _ hno.1 hno.2.1 x) hws hnl lw np bs
  rw [k1, k2, D64_eq _ (encDigits_lt 6 bs), dec_enc (by decide) (by decide) hb, length_encDigits]
  congr 2
  by_cases hp : np ∨ padLen 4 (encLen 6 bs.length) = 0
  · rw [if_pos hp]
    unfold Dec.final
    dsimp only
    rw [if_neg]
    simp only [Bool.and_eq_true, bne_iff_ne, ne_eq, not_and, Decidable.not_not]
    intro hst
    subst hst
    have hlen : bs.length % 3 = 0 ∨ padLen 4 (encLen 6 bs.length) = 0 := by
      rcases hs with h | h | h
      · cases h
      · subst h; rcases hp with h | h
        · cases h
        · exact Or.inr h
      · exact Or.inl h
    unfold encLen padLen at *
    omega
  · rw [if_neg hp, final_eqSign]

/-- **C23.** The text consists of alphabet characters, padding and line breaks. -/
theorem C23_output_characters (al : Alphabet) (lw : Option Int) (np : Bool) (bs : List Nat) (hb : ∀ b ∈ bs, b < 256)
    (hal : ∀ g0 g1, al = .digits g0 g1 → validDigit g0 = true ∧ validDigit g1 = true) (text : List Nat)
    (h : base64Encode al lw np bs = some text) :
    ∀ c ∈ text, c = 61 ∨ c = 10 ∨ ∃ x < 64, c = char64 al.c62 al.c63 x := by
  rw [C23_encode al lw np bs hb hal] at h
  injection h with h
  subst h
  have hfold : ∀ (s : List Nat) (i : Nat), ∀ c ∈ foldLines lw i s, c = 10 ∨ c ∈ s := by
    intro s
    induction s with
    | nil => intro i c h; cases h
    | cons a s ih =>
      intro i c h
      rw [foldLines] at h
      split at h
      · rcases List.mem_cons.1 h with rfl | h
        · simp
        · rcases List.mem_cons.1 h with rfl | h
          · simp
          · rcases ih _ _ h with h | h <;> simp [h]
      · rcases List.mem_cons.1 h with rfl | h
        · simp
        · rcases ih _ _ h with h | h <;> simp [h]
  intro c hc
  rcases hfold _ _ _ hc with h | h
  · exact Or.inr (Or.inl h)
  · rcases List.mem_append.1 h with h | h
    · obtain ⟨x, hx, rfl⟩ := List.mem_map.1 h
      exact Or.inr (Or.inr ⟨x, encDigits_lt 6 bs x hx, rfl⟩)
    · split at h
      · cases h
      · exact Or.inl (List.eq_of_mem_replicate h)

/-- White space of the examples: space, tab, newline, return. -/
def exWs (c : Nat) : Bool := c == 32 || c == 9 || c == 10 || c == 13

example : base64Encode .standard (some 5) false [0, 255, 128, 7] =
    some [65, 80, 43, 65, 66, 10, 119, 61, 61] := by decide +kernel
example : base64Decode exWs .standard true [65, 80, 43, 65, 66, 10, 119, 61, 61] = some ([0, 255, 128, 7], .done) := by
  decide +kernel
example : (Alphabet.digits 33 46).Ok := by unfold Alphabet.Ok; decide
example : ∃ text, base64Encode (.digits 33 46) (some 3) false [251, 255, 190] = some text ∧
    base64Decode exWs (.digits 33 46) true text = some ([251, 255, 190], .done) :=
  C23_round_trip exWs rfl _ (by unfold Alphabet.Ok; decide) _ _ _ _ (by decide) (by decide)
example : base64Decode exWs .standard true [65, 80, 42, 65] = some ([0], .invalid 42) := by decide +kernel
example : base64Decode exWs .standard true [65, 80, 43] = some ([0, 255], .premature) := by decide +kernel

/-- The side conditions of `Alphabet.Ok` are needed: the library accepts these digits, but the text does not decode to the
bytes (a space as a digit; twice the same digit). -/
theorem C23_digits_accepted_without_round_trip :
    (base64Encode (.digits 32 47) none false [248] = some [32, 65, 61, 61] ∧
     base64Decode exWs (.digits 32 47) false [32, 65, 61, 61] = some ([], .done)) ∧
    (base64Encode (.digits 33 33) none false [248, 15] = some [33, 65, 56, 61] ∧
     base64Decode exWs (.digits 33 33) false [33, 65, 56, 61] = some ([252, 15], .done)) ∧
    (base64Encode (.digits 7 47) none false [248] = some [7, 65, 61, 61] ∧ base64Decode exWs (.digits 7 47) false [7, 65, 61, 61] = none) := by
  decide +kernel

/-! ### C57: base32, base32hex and base16 -/

/-- The alphabet of the base32 variants. -/
def Alphabet32.char : Alphabet32 → Nat → Nat
  | .plain => char32
  | .hex => char32hex
/-- The digit values of the base32 variants. -/
def Alphabet32.value : Alphabet32 → Nat → Option Nat
  | .plain => value32
  | .hex => value32hex
/-- The decode table. -/
def Alphabet32.dec : Alphabet32 → List (Option Nat)
  | .plain => base32Decode
  | .hex => base32hexDecode
/-- The encode table. -/
def Alphabet32.enc : Alphabet32 → List Nat
  | .plain => base32Encode
  | .hex => base32hexEncode

theorem enc32_table (al : Alphabet32) : (∀ x < 32, al.enc.getD x 0 = al.char x) ∧ al.enc.getD 32 0 = eqSign := by
  cases al
  · exact ⟨by unfold Alphabet32.enc Alphabet32.char; decide +kernel, by decide +kernel⟩
  · exact ⟨by unfold Alphabet32.enc Alphabet32.char; decide +kernel, by decide +kernel⟩

theorem dec32_table (al : Alphabet32) (c : Nat) : lookup al.dec c = al.value c := by
  by_cases h : c < 128
  · have h1 : ∀ c < 128, lookup base32Decode c = value32 c := by decide +kernel
    have h2 : ∀ c < 128, lookup base32hexDecode c = value32hex c := by decide +kernel
    cases al
    · exact h1 c h
    · exact h2 c h
  · rw [lookup_ge _ _ (by omega)]
    cases al
    · unfold Alphabet32.value value32; dsimp only; rw [if_neg (by omega), if_neg (by omega)]
    · unfold Alphabet32.value value32hex; dsimp only; rw [if_neg (by omega), if_neg (by omega)]

theorem value32_lt (al : Alphabet32) {c x : Nat} (h : al.value c = some x) : x < 32 := by
  cases al
  · unfold Alphabet32.value value32 at h
    dsimp only at h
    split at h
    · injection h with h; omega
    · split at h
      · injection h with h; omega
      · cases h
  · unfold Alphabet32.value value32hex at h
    dsimp only at h
    split at h
    · injection h with h; omega
    · split at h
      · injection h with h; omega
      · cases h

/-- **C57.** The base32 encoders write exactly the RFC 4648 text. -/
theorem C57_encode32 (al : Alphabet32) (lw : Option Int) (np : Bool) (bs : List Nat) (hb : ∀ b ∈ bs, b < 256) :
    base32EncodeWith al lw np bs = encodeText 5 8 al.char lw np bs := by
  obtain ⟨h1, h2⟩ := enc32_table al
  have he : base32EncodeWith al lw np bs = g0 ⟨al.enc, np, maxcolOf lw⟩ 0 bs := by cases al <;> rfl
  unfold encodeText
  rw [he, encode32, emits_eq _ lw rfl _ 0 0 (by intro w _ _; simp), E32_eq np bs hb]
  dsimp only
  rw [List.map_append]
  congr 2
  · apply List.map_congr_left
    intro x hx
    exact h1 x (encDigits_lt 5 bs x hx)
  · cases np
    · simp only [Bool.false_eq_true, if_false, List.map_replicate, h2, length_encDigits]; rfl
    · rfl

/-- A character to be ignored comes when seven digits of a group have been read: `pre` is the text before it, without
padding or (in strict mode) invalid characters. -/
def IgnoredAtLast (digit : Nat → Option Nat) (ws : Nat → Bool) (strict : Bool) (s : List Nat) : Prop :=
  ∃ pre c post, s = pre ++ c :: post ∧
    (∀ x ∈ pre ++ [c], x ≠ 61 ∧ (digit x = none → strict = true → ws x = true)) ∧
    digit c = none ∧ (pre.filterMap digit).length % 8 = 7

theorem stuck_iff (d : Dec) : ∀ (s : List Nat) (n : Nat), stuck d n s = true ↔
    ∃ pre c post, s = pre ++ c :: post ∧
    (∀ x ∈ pre ++ [c], x ≠ 61 ∧ (lookup d.table x = none → d.strict = true → d.ws x = true)) ∧
    lookup d.table c = none ∧ (n + (pre.filterMap (lookup d.table)).length) % 8 = 7 := by
  have hstop : ∀ c, d.stop c = false ↔ c ≠ 61 ∧ (lookup d.table c = none → d.strict = true → d.ws c = true) := by
    intro c
    unfold Dec.stop Dec.rejects eqSign
    cases lookup d.table c <;> cases d.strict <;> cases d.ws c <;> simp
  intro s
  induction s with
  | nil => intro n; simp [stuck]
  | cons a s ih =>
    intro n
    rw [stuck]
    by_cases hs : d.stop a = true
    · rw [if_pos hs]
      constructor
      · intro h; cases h
      · rintro ⟨pre, c, post, h1, h2, h3, h4⟩
        have : a ∈ pre ++ [c] := by cases pre <;> (injection h1 with h1 _; simp [h1])
        have := (hstop a).2 (h2 a this)
        rw [hs] at this; cases this
    · rw [if_neg hs]
      have hs' : d.stop a = false := by simpa using hs
      have ha := (hstop a).1 hs'
      cases hl : lookup d.table a with
      | some x =>
        dsimp only
        rw [ih]
        constructor
        · rintro ⟨pre, c, post, h1, h2, h3, h4⟩
          refine ⟨a :: pre, c, post, by rw [h1]; rfl, ?_, h3, ?_⟩
          · intro y hy
            rcases List.mem_cons.1 hy with rfl | hy
            · exact ha
            · exact h2 y hy
          · rw [List.filterMap_cons_some hl, List.length_cons]; omega
        · rintro ⟨pre, c, post, h1, h2, h3, h4⟩
          cases pre with
          | nil => injection h1 with h1 _; subst h1; rw [hl] at h3; cases h3
          | cons b pre =>
            injection h1 with h1 h1'
            subst h1
            rw [List.filterMap_cons_some hl, List.length_cons] at h4
            exact ⟨pre, c, post, h1', fun y hy => h2 y (List.mem_cons_of_mem _ hy), h3, by omega⟩
      | none =>
        dsimp only
        rw [Bool.or_eq_true, ih, beq_iff_eq]
        constructor
        · rintro (h | ⟨pre, c, post, h1, h2, h3, h4⟩)
          · exact ⟨[], a, s, rfl, by intro y hy; rw [List.mem_singleton.1 hy]; exact ha, hl, h⟩
          · refine ⟨a :: pre, c, post, by rw [h1]; rfl, ?_, h3, ?_⟩
            · intro y hy
              rcases List.mem_cons.1 hy with rfl | hy
              · exact ha
              · exact h2 y hy
            · rw [List.filterMap_cons_none hl]; exact h4
        · rintro ⟨pre, c, post, h1, h2, h3, h4⟩
          cases pre with
          | nil => left; exact h4
          | cons b pre =>
            right
            injection h1 with h1 h1'
            subst h1
            rw [List.filterMap_cons_none hl] at h4
            exact ⟨pre, c, post, h1', fun y hy => h2 y (List.mem_cons_of_mem _ hy), h3, h4⟩

theorem base32_dec (ws : Nat → Bool) (al : Alphabet32) (strict : Bool) (s : List Nat) :
    base32DecodeWith ws al strict s = f0 ⟨al.dec, strict, ws⟩ s := by cases al <;> rfl

/-- **C57.** What the base32 decoders do with any text in which no character is to be ignored before the last digit of a
group of eight. -/
theorem C57_decode32_partial (ws : Nat → Bool) (al : Alphabet32) (strict : Bool) (s : List Nat)
    (hs : ¬ IgnoredAtLast al.value ws strict s) :
    ((base32DecodeWith ws al strict s).1, (base32DecodeWith ws al strict s).2.toEnd) =
      ((decodeText 5 8 al.value (fun c => c == 61) ws strict s).1,
       some (decodeText 5 8 al.value (fun c => c == 61) ws strict s).2) := by
  have hfun : lookup al.dec = al.value := funext (dec32_table al)
  have hst : stuck ⟨al.dec, strict, ws⟩ 0 s = false := by
    cases h : stuck ⟨al.dec, strict, ws⟩ 0 s with
    | false => rfl
    | true =>
      exfalso
      apply hs
      obtain ⟨pre, c, post, h1, h2, h3, h4⟩ := (stuck_iff _ s 0).1 h
      dsimp only at h2 h3 h4
      rw [hfun] at h2 h3 h4
      exact ⟨pre, c, post, h1, h2, h3, by omega⟩
  have hl := digits_lt ⟨al.dec, strict, ws⟩ 32 (fun c x h => by rw [dec32_table] at h; exact value32_lt al h)
    (Dec.stop ⟨al.dec, strict, ws⟩) s
  rw [base32_dec, (decode32 ⟨al.dec, strict, ws⟩ s).1.1 hst, final_toEnd]
  unfold decodeText
  dsimp only
  unfold Dec.digits
  rw [List.nil_append, D32_eq _ hl, stop_eq, Nat.add_zero]
  dsimp only
  rw [hfun]
  cases List.find? (fun c => c == 61 || (al.value c).isNone && strict && !ws c) s <;> rfl

/-- **C57 fails otherwise.** On every text in which a character is to be ignored before the last digit of a group (e.g. a
line break there) the base32 decoders loop for ever. -/
theorem C57_bug_base32_decoder_loops (ws : Nat → Bool) (al : Alphabet32) (strict : Bool) (s : List Nat)
    (hs : IgnoredAtLast al.value ws strict s) : (base32DecodeWith ws al strict s).2 = .diverges := by
  have hfun : lookup al.dec = al.value := funext (dec32_table al)
  rw [base32_dec]
  apply (decode32 ⟨al.dec, strict, ws⟩ s).1.2
  apply (stuck_iff _ s 0).2
  dsimp only
  rw [hfun]
  obtain ⟨pre, c, post, h1, h2, h3, h4⟩ := hs
  exact ⟨pre, c, post, h1, h2, h3, by omega⟩

theorem not_stuck_encoded (d : Dec) (char : Nat → Nat) (hinv : ∀ x < 32, lookup d.table (char x) = some x)
    (lw : Option Int) (hlw : ∀ w, lw = some w → 0 < w → w % 2 = 0) (n : Nat) : ∀ (ds : List Nat) (i : Nat), (∀ x ∈ ds, x < 32) →
    stuck d i (foldLines lw i (ds.map char ++ List.replicate n 61)) = false := by
  intro ds
  induction ds with
  | nil =>
    intro i _
    cases n with
    | zero => rfl
    | succ n =>
      rw [List.map_nil, List.nil_append, List.replicate_succ, foldLines]
      have hs : d.stop 61 = true := by unfold Dec.stop; simp [eqSign]
      split <;> rw [stuck, if_pos hs]
  | cons x ds ih =>
    intro i h
    have hx := hinv x (h x (by simp))
    have ih' := ih (i + 1) (fun y hy => h y (by simp [hy]))
    rw [List.map_cons, List.cons_append, foldLines]
    have hstep : ∀ t, stuck d (i + 1) t = false → stuck d i (char x :: t) = false := by
      intro t ht
      rw [stuck, hx]
      split
      · rfl
      · exact ht
    split
    · rename_i hbr
      apply hstep
      rw [stuck]
      split
      · rfl
      · have hnl : lookup d.table 10 = none := rfl
        cases hq : lookup d.table 10 with
        | some y => rw [hnl] at hq; cases hq
        | none =>
          dsimp only
          rw [ih', Bool.or_false, beq_eq_false_iff_ne]
          unfold breakAfter at hbr
          cases lw with
          | none => cases hbr
          | some w =>
            simp only [decide_eq_true_eq] at hbr
            have := hlw w rfl hbr.1
            have h2 : ((i : Int) + 1) % 2 = 0 := by
              obtain ⟨q, hq⟩ := Int.dvd_of_emod_eq_zero hbr.2
              obtain ⟨p, hp⟩ := Int.dvd_of_emod_eq_zero this
              rw [hq, hp, mul_assoc]; exact Int.mul_emod_right _ _
            omega
    · exact hstep _ ih'

/-- **C57.** Base32 round trip for every byte sequence, when there are no line breaks or the line width is even (the default
is 76). -/
theorem C57_round_trip32_partial (ws : Nat → Bool) (hws : ws 10 = true) (al : Alphabet32) (lw : Option Int)
    (hlw : ∀ w, lw = some w → 0 < w → w % 2 = 0) (np strict : Bool) (bs : List Nat) (hb : ∀ b ∈ bs, b < 256)
    (hs : strict = false ∨ np = false ∨ bs.length % 5 = 0) :
    base32DecodeWith ws al strict (base32EncodeWith al lw np bs) = (bs, .done) := by
  have hinv : ∀ x < 32, lookup al.dec (al.char x) = some x := by
    cases al
    · unfold Alphabet32.dec Alphabet32.char; decide +kernel
    · unfold Alphabet32.dec Alphabet32.char; decide +kernel
  have hne : ∀ x < 32, al.char x ≠ eqSign := by
    cases al
    · unfold Alphabet32.char; decide +kernel
    · unfold Alphabet32.char; decide +kernel
  have hnl : lookup al.dec 10 = none := by unfold lookup; rfl
  have hst : stuck ⟨al.dec, strict, ws⟩ 0 (encodeText 5 8 al.char lw np bs) = false := by
    unfold encodeText
    have key := not_stuck_encoded ⟨al.dec, strict, ws⟩ al.char hinv lw hlw
    cases np with
    | true => exact key 0 (encDigits 5 bs) 0 (encDigits_lt 5 bs)
    | false => exact key _ (encDigits 5 bs) 0 (encDigits_lt 5 bs)
  obtain ⟨k1, k2⟩ := encoded_decodes ⟨al.dec, strict, ws⟩ 5 8 32 (by decide) rfl al.char hinv hne hws hnl lw np bs
  rw [C57_encode32 al lw np bs hb, base32_dec, (decode32 ⟨al.dec, strict, ws⟩ _).1.1 hst, k1, k2, List.nil_append,
    D32_eq _ (encDigits_lt 5 bs), dec_enc (by decide) (by decide) hb, length_encDigits, Nat.add_zero]
  congr 1
  by_cases hp : np ∨ padLen 8 (encLen 5 bs.length) = 0
  · rw [if_pos hp]
    unfold Dec.final
    dsimp only
    rw [if_neg]
    simp only [Bool.and_eq_true, bne_iff_ne, ne_eq, not_and, Decidable.not_not]
    intro hst
    subst hst
    have hlen : bs.length % 5 = 0 ∨ padLen 8 (encLen 5 bs.length) = 0 := by
      rcases hs with h | h | h
      · cases h
      · subst h; rcases hp with h | h
        · cases h
        · exact Or.inr h
      · exact Or.inl h
    unfold encLen padLen at *
    omega
  · rw [if_neg hp, final_eqSign]

/-- **C57 fails for odd line widths**: with `:line-width 7` the decoder never returns on the encoder's output. -/
theorem C57_bug_round_trip_line_width_7 (ws : Nat → Bool) (hws : ws 10 = true) (strict : Bool) :
    (base32DecodeWith ws .plain strict (base32EncodeWith .plain (some 7) false [1, 2, 3, 4, 5])).2 = .diverges := by
  have h : base32EncodeWith .plain (some 7) false [1, 2, 3, 4, 5] = [65, 69, 66, 65, 71, 66, 65, 10, 70] := by decide +kernel
  rw [h]
  apply C57_bug_base32_decoder_loops
  refine ⟨[65, 69, 66, 65, 71, 66, 65], 10, [70], rfl, ?_, by decide +kernel, by decide +kernel⟩
  intro x hx
  have : x ∈ [65, 69, 66, 65, 71, 66, 65, 10] := hx
  by_cases h10 : x = 10
  · subst h10; exact ⟨by decide, fun _ _ => hws⟩
  · have hv : x ∈ [65, 69, 66, 65, 71, 66, 65, 10] → x ≠ 10 → x ≠ 61 ∧ value32 x ≠ none := by
      intro h h'
      simp only [List.mem_cons, List.not_mem_nil, or_false] at h
      rcases h with rfl | rfl | rfl | rfl | rfl | rfl | rfl | rfl <;> first | decide | exact absurd rfl h'
    exact ⟨(hv this h10).1, fun h => absurd h (hv this h10).2⟩

theorem enc16_table (lower : Bool) : ∀ x < 16, (if lower then base16lcEncode else base16Encode).getD x 0 = char16 lower x := by
  cases lower <;> decide +kernel

theorem dec16_table (strict : Bool) (c : Nat) :
    lookup (if strict then base16Decode else base16laxDecode) c = value16 (!strict) c := by
  by_cases h : c < 128
  · have h1 : ∀ c < 128, lookup base16Decode c = value16 false c := by decide +kernel
    have h2 : ∀ c < 128, lookup base16laxDecode c = value16 true c := by decide +kernel
    cases strict
    · exact h2 c h
    · exact h1 c h
  · rw [lookup_ge _ _ (by omega)]
    unfold value16
    rw [if_neg (by omega), if_neg (by omega), if_neg (by omega)]

theorem value16_lt {lax : Bool} {c x : Nat} (h : value16 lax c = some x) : x < 16 := by
  unfold value16 at h
  split at h
  · injection h with h; omega
  · split at h
    · injection h with h; omega
    · split at h
      · injection h with h; omega
      · cases h

/-- **C57.** The base16 encoder writes two hexadecimal digits for each byte. -/
theorem C57_encode16 (lower : Bool) (bs : List Nat) (hb : ∀ b ∈ bs, b < 256) :
    base16EncodeWith lower bs = encodeText 4 2 (char16 lower) none true bs := by
  unfold base16EncodeWith encodeText
  have hfold : ∀ (s : List Nat) i, foldLines none i s = s := by
    intro s
    induction s with
    | nil => intro i; rfl
    | cons a s ih => intro i; rw [foldLines, ih]; rfl
  rw [if_pos rfl, List.append_nil, hfold, ← E16_eq bs hb, List.map_flatMap]
  have : ∀ b ∈ bs, (fun b => [(if lower then base16lcEncode else base16Encode).getD (b >>> 4) 0,
      (if lower then base16lcEncode else base16Encode).getD (b &&& 0x0f) 0]) b
      = (fun b => [b >>> 4, b &&& 0x0f].map (char16 lower)) b := by
    intro b h
    have hb' := hb b h
    dsimp only
    rw [enc16_table, enc16_table]
    · rfl
    · rw [and15]; omega
    · rw [Nat.shiftRight_eq_div_pow]; omega
  rw [List.flatMap_def, List.flatMap_def, List.map_congr_left this]

/-- **C57.** What the base16 decoder does with any text. -/
theorem C57_decode16 (ws : Nat → Bool) (strict : Bool) (s : List Nat) :
    ((base16DecodeWith ws strict s).1, (base16DecodeWith ws strict s).2.toEnd) =
      ((decodeText 4 2 (value16 (!strict)) (fun _ => false) ws strict s).1,
       some (decodeText 4 2 (value16 (!strict)) (fun _ => false) ws strict s).2) := by
  have hfun : lookup (if strict then base16Decode else base16laxDecode) = value16 (!strict) := funext (dec16_table strict)
  unfold base16DecodeWith
  rw [(decode16 _ s).1]
  have hl := digits_lt ⟨if strict then base16Decode else base16laxDecode, strict, ws⟩ 16
    (fun c x h => by rw [dec16_table] at h; exact value16_lt h)
    (Dec.stop16 ⟨if strict then base16Decode else base16laxDecode, strict, ws⟩) s
  rw [D16_eq _ hl]
  have hstop : Dec.stop16 ⟨if strict then base16Decode else base16laxDecode, strict, ws⟩
      = fun c => false || ((value16 (!strict) c).isNone && strict && !ws c) := by
    funext c
    unfold Dec.stop16 Dec.rejects
    dsimp only
    rw [hfun, Bool.false_or, Bool.and_assoc]
  rw [hstop]
  dsimp only
  rw [hfun]
  unfold decodeText Dec.final16
  dsimp only
  cases List.find? (fun c => false || ((value16 (!strict) c).isNone && strict && !ws c)) s with
  | some c => rfl
  | none =>
    dsimp only
    by_cases hq : (strict && (digitsOf (value16 !strict) (fun c => false || ((value16 (!strict) c).isNone && strict && !ws c)) s).length % 2 != 0) = true
    · rw [if_pos hq, if_pos hq]; rfl
    · rw [if_neg hq, if_neg hq]; rfl

/-- **C57.** Base16 round trip (a strict decoder does not accept lower case). -/
theorem C57_round_trip16 (ws : Nat → Bool) (lower strict : Bool) (bs : List Nat) (hb : ∀ b ∈ bs, b < 256)
    (hs : strict = false ∨ lower = false) :
    base16DecodeWith ws strict (base16EncodeWith lower bs) = (bs, .done) := by
  have hlen := length_encDigits 4 bs
  unfold base16DecodeWith
  rw [(decode16 _ _).1, C57_encode16 lower bs hb]
  unfold encodeText
  have hfold : ∀ (s : List Nat) i, foldLines none i s = s := by
    intro s
    induction s with
    | nil => intro i; rfl
    | cons a s ih => intro i; rw [foldLines, ih]; rfl
  rw [if_pos rfl, List.append_nil, hfold]
  have hinv : ∀ x < 16, value16 (!strict) (char16 lower x) = some x := by
    rcases hs with h | h <;> subst h
    · cases lower <;> decide +kernel
    · cases strict <;> decide +kernel
  have key : ∀ ds : List Nat, (∀ x ∈ ds, x < 16) →
      digitsOf (lookup (if strict then base16Decode else base16laxDecode))
        (Dec.stop16 ⟨if strict then base16Decode else base16laxDecode, strict, ws⟩) (ds.map (char16 lower)) = ds ∧
      (ds.map (char16 lower)).find? (Dec.stop16 ⟨if strict then base16Decode else base16laxDecode, strict, ws⟩) = none := by
    intro ds
    induction ds with
    | nil => intro _; exact ⟨rfl, rfl⟩
    | cons x ds ih =>
      intro h
      obtain ⟨i1, i2⟩ := ih (fun y hy => h y (by simp [hy]))
      have hx : lookup (if strict then base16Decode else base16laxDecode) (char16 lower x) = some x := by
        rw [dec16_table]; exact hinv x (h x (by simp))
      have hst : Dec.stop16 ⟨if strict then base16Decode else base16laxDecode, strict, ws⟩ (char16 lower x) = false := by
        unfold Dec.stop16; dsimp only; rw [hx]; rfl
      rw [List.map_cons]
      refine ⟨(digits_some hst hx).trans (congrArg (List.cons x) i1), ?_⟩
      rw [List.find?_cons, hst]
      exact i2
  obtain ⟨k1, k2⟩ := key (encDigits 4 bs) (encDigits_lt 4 bs)
  rw [k1, k2, D16_eq _ (encDigits_lt 4 bs), dec_enc (by decide) (by decide) hb, hlen]
  congr 1
  unfold Dec.final16
  dsimp only
  rw [if_neg]
  simp only [Bool.and_eq_true, bne_iff_ne, ne_eq, not_and, Decidable.not_not]
  intro _
  unfold encLen
  omega

example : base32EncodeWith .plain (some 76) false [102, 111, 111, 98] = [77, 90, 88, 87, 54, 89, 81, 61] := by decide +kernel
example : base32DecodeWith exWs .plain true [77, 90, 88, 87, 10, 54, 89, 81, 61] = ([102, 111, 111, 98], .done) := by
  decide +kernel
example : base16DecodeWith exWs true [54, 65] = ([106], .done) := by decide +kernel
/-- A text that satisfies the condition of `C57_decode32_partial` although characters are ignored in it. -/
example : ¬ IgnoredAtLast value32 exWs true [77, 90, 32, 88, 87, 10, 54, 89, 81, 61] := by
  intro h
  have := C57_bug_base32_decoder_loops exWs .plain true _ h
  revert this
  decide +kernel

end Gauche.Base64

import Verif.Proof.Utf8
/-!
# C11 : UTF-8 encode/decode round trip

`encode` (`Verif.Spec.Utf8`) is the arithmetic definition of UTF-8, with the original range up to 2^31
(Gauche's primitives accept it; the Unicode range `≤ 0x10FFFF` is a part of it, see
`C11_agrees_with_unicode`).
-/
namespace Gauche.Utf8
open Gauche.Spec.Utf8

/-- What is written for a character is its UTF-8 encoding, bytes all below 256. -/
theorem C11_put_is_utf8 (c : Nat) (h : IsCode c) : charPut c = encode c ∧ ∀ b ∈ charPut c, b < 256 :=
  ⟨charPut_eq c h, by rw [charPut_eq c h]; exact encode_byte c h⟩

/-- Reading back what was written yields the character; whatever follows in memory. -/
theorem C11_roundtrip (c : Nat) (h : IsCode c) (m : Mem) (hm : Holds m (charPut c)) : charGet m = some c :=
  charGet_encode c m h (by rwa [charPut_eq c h] at hm)

/-- The decoder accepts nothing but UTF-8 encodings: it answers a character exactly when the memory starts with
that character's (shortest) encoding. -/
theorem C11_get_iff (c : Nat) (m : Mem) : charGet m = some c ↔ IsCode c ∧ Holds m (encode c) := charGet_iff c m

/-- The byte count computed from the code, the byte count found in the lead byte table and the number of bytes
written agree. -/
theorem C11_lengths (c : Nat) (h : IsCode c) (m : Mem) (hm : Holds m (charPut c)) :
    (charPut c).length = nbytes c ∧ nfollows (m 0) + 1 = nbytes c := by
  rw [charPut_eq c h] at *
  exact ⟨encode_length c, lead_len c h m hm⟩

/-- The decoder reads no byte beyond the length the lead byte declares: the answer is the same whatever is
stored there.  This holds for every memory, also for malformed input. -/
theorem C11_reads_only_declared (p q : Mem) (hb : p 0 < 256) (h : ∀ i ≤ nfollows (p 0), p i = q i) :
    charGet p = charGet q := charGet_local p q hb h

/-- No encoding is a prefix of another one (hence distinct characters have distinct encodings). -/
theorem C11_prefix_free (c d : Nat) (hc : IsCode c) (hd : IsCode d) (h : charPut c <+: charPut d) : c = d := by
  obtain ⟨t, ht⟩ := h
  rw [charPut_eq c hc, charPut_eq d hd] at ht
  exact encode_prefix (s := t) (t := []) hc hd (by simpa using ht)

/-- Sequences of characters are determined by their bytes. -/
theorem C11_sequences_injective (cs ds : List Nat) (hc : ∀ c ∈ cs, IsCode c) (hd : ∀ c ∈ ds, IsCode c)
    (h : cs.flatMap charPut = ds.flatMap charPut) : cs = ds := by
  have e (l : List Nat) (hl : ∀ c ∈ l, IsCode c) : l.flatMap charPut = encodeAll l := by
    induction l with
    | nil => rfl
    | cons a l ih =>
      rw [List.flatMap_cons, ih (fun c hc => hl c (by simp [hc])), encodeAll_cons, charPut_eq a (hl a (by simp))]
  rw [e cs hc, e ds hd] at h
  exact encodeAll_inj hc hd h

/-- Stepping backward from the end of a non-empty sequence of characters finds the start of the last one. -/
theorem C11_backward (cs : List Nat) (c : Nat) (hcs : ∀ c ∈ cs, IsCode c) (hc : IsCode c) (m : Mem)
    (h : Holds m (encodeAll (cs ++ [c]))) :
    backward m (encodeAll (cs ++ [c])).length = some (encodeAll cs).length := backward_encodeAll cs c hcs hc m h

/-- Comparing encodings byte by byte compares the codes. -/
theorem C11_order (c d : Nat) (hc : IsCode c) (hd : IsCode d) : charPut c < charPut d ↔ c < d := by
  rw [charPut_eq c hc, charPut_eq d hd]
  have key {l m : List Nat} (h : SLt l m) : l < m := by
    induction l generalizing m with
    | nil => simp [SLt] at h
    | cons a l ih =>
      cases m with
      | nil => simp [SLt] at h
      | cons b m =>
        rw [List.cons_lt_cons_iff]
        rcases h with h | ⟨h, g⟩
        · exact Or.inl h
        · exact Or.inr ⟨h, ih g⟩
  constructor
  · intro h
    rcases Nat.lt_trichotomy c d with g | g | g
    · exact g
    · subst g; exact absurd h (List.lt_irrefl _)
    · exact absurd (List.lt_trans h (key (encode_slt hc g))) (List.lt_irrefl _)
  · exact fun h => key (encode_slt hd h)

/-- The specification used here is Unicode's: for every Unicode scalar value the bytes written are the ones of
Lean's own UTF-8 encoder. -/
theorem C11_agrees_with_unicode (ch : Char) :
    charPut ch.val.toNat = (String.utf8EncodeChar ch).map UInt8.toNat := by
  have hv : ch.val.toNat < 0x110000 := by
    have := ch.valid
    rcases this with h | ⟨_, h⟩ <;> simp only [UInt32.toNat] at * <;> omega
  rw [charPut_eq _ (by unfold IsCode; omega)]
  unfold encode String.utf8EncodeChar
  simp only [Char.toNat_val]
  have hv' : ch.toNat < 0x110000 := hv
  split_ifs <;> simp <;> omega

/-! The hypotheses are met. -/
example : (0x3042 : Nat) < 2 ^ 31 ∧ charPut 0x3042 = [0xe3, 0x81, 0x82] ∧
    charGet (fun i => [0xe3, 0x81, 0x82].getD i 0) = some 0x3042 := by decide +kernel
/-- Overlong, truncated, stray and surrogate-free-of-meaning inputs: the first three are rejected. -/
example : charGet (fun i => [0xc0, 0x80].getD i 0) = none ∧ charGet (fun i => [0xe3, 0x81].getD i 0) = none ∧
    charGet (fun i => [0x80].getD i 0) = none := by decide +kernel

/-- What the code does NOT guarantee: the table gives 0 (not -1) for continuation bytes, so stepping backward
over a byte that is not the end of a character never fails, it answers a position inside the garbage. -/
theorem C11_backward_accepts_garbage : backward (fun _ => 0x80) 1 = some 0 ∧ charGet (fun _ => 0x80) = none := by
  decide +kernel

end Gauche.Utf8

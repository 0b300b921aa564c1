import Verif.Model.Utf8
import Verif.Spec.Utf8
import Mathlib.Tactic.SplitIfs

namespace Gauche.Utf8
open Gauche.Spec.Utf8

theorem or_add (i a b : Nat) (h : b < 2 ^ i) : b ||| 2 ^ i * a = 2 ^ i * a + b := by
  rw [Nat.two_pow_add_eq_or_of_lt h, Nat.or_comm]

theorem and3f (x : Nat) : x &&& 0x3f = x % 64 := Nat.and_two_pow_sub_one_eq_mod x 6
theorem and1f (x : Nat) : x &&& 0x1f = x % 32 := Nat.and_two_pow_sub_one_eq_mod x 5
theorem and0f (x : Nat) : x &&& 0x0f = x % 16 := Nat.and_two_pow_sub_one_eq_mod x 4
theorem and07 (x : Nat) : x &&& 0x07 = x % 8 := Nat.and_two_pow_sub_one_eq_mod x 3
theorem and03 (x : Nat) : x &&& 0x03 = x % 4 := Nat.and_two_pow_sub_one_eq_mod x 2
theorem and01 (x : Nat) : x &&& 0x01 = x % 2 := Nat.and_two_pow_sub_one_eq_mod x 1

theorem or80 (x : Nat) : (x % 64) ||| 0x80 = 0x80 + x % 64 :=
  or_add 6 2 _ (Nat.mod_lt _ (by decide))
theorem orc0 (x : Nat) : (x % 32) ||| 0xc0 = 0xc0 + x % 32 :=
  or_add 5 6 _ (Nat.mod_lt _ (by decide))
theorem ore0 (x : Nat) : (x % 16) ||| 0xe0 = 0xe0 + x % 16 :=
  or_add 4 14 _ (Nat.mod_lt _ (by decide))
theorem orf0 (x : Nat) : (x % 8) ||| 0xf0 = 0xf0 + x % 8 :=
  or_add 3 30 _ (Nat.mod_lt _ (by decide))
theorem orf8 (x : Nat) : (x % 4) ||| 0xf8 = 0xf8 + x % 4 :=
  or_add 2 62 _ (Nat.mod_lt _ (by decide))
theorem orfc (x : Nat) : (x % 2) ||| 0xfc = 0xfc + x % 2 :=
  or_add 1 126 _ (Nat.mod_lt _ (by decide))

theorem shl6 (c b : Nat) : (c <<< 6) ||| (b % 64) = 64 * c + b % 64 := by
  rw [Nat.shiftLeft_eq, Nat.or_comm, Nat.mul_comm]
  exact or_add 6 c _ (Nat.mod_lt _ (by decide))

theorem cont_eq (c b : Nat) : cont c b = if b < 0x80 ∨ b ≥ 0xc0 then none else some (64 * c + b % 64) := by
  simp only [cont, and3f, shl6]

theorem charPut_eq (c : Nat) (h : IsCode c) : charPut c = encode c := by
  unfold IsCode at h
  simp only [charPut, utf8Putc, encode, and3f, and1f, and0f, and07, and03, and01, or80, orc0, ore0, orf0, orf8,
    orfc, Nat.shiftRight_eq_div_pow]
  simp only [Nat.reducePow] at *
  split_ifs <;> simp <;> omega

theorem nfollows_eq (b : Nat) (h : b < 256) :
    nfollows b = if b < 0xc0 then 0 else if b < 0xe0 then 1 else if b < 0xf0 then 2
      else if b < 0xf8 then 3 else if b < 0xfc then 4 else if b < 0xfe then 5 else 0 := by
  have : ∀ b < 256, nfollows b = if b < 0xc0 then 0 else if b < 0xe0 then 1 else if b < 0xf0 then 2
      else if b < 0xf8 then 3 else if b < 0xfc then 4 else if b < 0xfe then 5 else 0 := by decide +kernel
  exact this b h


theorem cont_of (ch r : Nat) (h : r < 64) : cont ch (0x80 + r) = some (64 * ch + r) := by
  rw [cont_eq, if_neg (by omega)]
  have : (128 + r) % 64 = r := by omega
  rw [this]

theorem atLeast_of {lo ch : Nat} (h : lo ≤ ch) : atLeast lo ch = some ch := by
  rw [atLeast, if_neg (by omega)]

theorem cont_some {ch b d : Nat} (h : cont ch b = some d) : 0x80 ≤ b ∧ b < 0xc0 ∧ d = 64 * ch + (b - 0x80) := by
  rw [cont_eq] at h
  split at h
  · cases h
  · cases h; omega

theorem atLeast_some {lo ch d : Nat} (h : atLeast lo ch = some d) : lo ≤ ch ∧ d = ch := by
  rw [atLeast] at h
  split at h
  · cases h
  · cases h; omega

theorem holds_cons {m : Mem} {a : Nat} {l : List Nat} :
    Holds m (a :: l) ↔ m 0 = a ∧ Holds (fun i => m (i + 1)) l := by
  constructor
  · intro h
    exact ⟨h 0 (by simp), fun i hi => h (i + 1) (by simpa using hi)⟩
  · rintro ⟨h0, h1⟩ i hi
    cases i with
    | zero => exact h0
    | succ i => exact h1 i (by simpa using hi)

@[simp] theorem holds_nil {m : Mem} : Holds m [] := fun i h => absurd h (by simp)

theorem charGet_encode (c : Nat) (m : Mem) (hc : IsCode c) (h : Holds m (encode c)) : charGet m = some c := by
  unfold IsCode at hc
  unfold encode at h
  simp only [Nat.reducePow] at *
  split_ifs at h <;> simp only [holds_cons, holds_nil, and_true, Nat.zero_add, Nat.reduceAdd] at h
  · simp [charGet, h]; omega
  · obtain ⟨h0, h1⟩ := h
    rw [charGet, if_pos (by omega), utf8Getc]
    simp only [and1f, and0f, and07, and03, and01]
    rw [if_neg (by omega), if_neg (by omega), if_pos (by omega), h1, cont_of _ _ (by omega),
      Option.bind_some, atLeast_of (by omega)]
    congr 1; omega
  · obtain ⟨h0, h1, h2⟩ := h
    rw [charGet, if_pos (by omega), utf8Getc]
    simp only [and1f, and0f, and07, and03, and01]
    rw [if_neg (by omega), if_neg (by omega), if_neg (by omega), if_pos (by omega), h1,
      cont_of _ _ (by omega), Option.bind_some, h2, cont_of _ _ (by omega), Option.bind_some,
      atLeast_of (by omega)]
    congr 1; omega
  · obtain ⟨h0, h1, h2, h3⟩ := h
    rw [charGet, if_pos (by omega), utf8Getc]
    simp only [and1f, and0f, and07, and03, and01]
    rw [if_neg (by omega), if_neg (by omega), if_neg (by omega), if_neg (by omega), if_pos (by omega), h1,
      cont_of _ _ (by omega), Option.bind_some, h2, cont_of _ _ (by omega), Option.bind_some,
      h3, cont_of _ _ (by omega), Option.bind_some, atLeast_of (by omega)]
    congr 1; omega
  · obtain ⟨h0, h1, h2, h3, h4⟩ := h
    rw [charGet, if_pos (by omega), utf8Getc]
    simp only [and1f, and0f, and07, and03, and01]
    rw [if_neg (by omega), if_neg (by omega), if_neg (by omega), if_neg (by omega), if_neg (by omega),
      if_pos (by omega), h1,
      cont_of _ _ (by omega), Option.bind_some, h2, cont_of _ _ (by omega), Option.bind_some,
      h3, cont_of _ _ (by omega), Option.bind_some, h4, cont_of _ _ (by omega), Option.bind_some,
      atLeast_of (by omega)]
    congr 1; omega
  · obtain ⟨h0, h1, h2, h3, h4, h5⟩ := h
    rw [charGet, if_pos (by omega), utf8Getc]
    simp only [and1f, and0f, and07, and03, and01]
    rw [if_neg (by omega), if_neg (by omega), if_neg (by omega), if_neg (by omega), if_neg (by omega),
      if_neg (by omega), if_pos (by omega), h1,
      cont_of _ _ (by omega), Option.bind_some, h2, cont_of _ _ (by omega), Option.bind_some,
      h3, cont_of _ _ (by omega), Option.bind_some, h4, cont_of _ _ (by omega), Option.bind_some,
      h5, cont_of _ _ (by omega), Option.bind_some, atLeast_of (by omega)]
    congr 1; omega

theorem encode_of_charGet (c : Nat) (m : Mem) (h : charGet m = some c) :
    IsCode c ∧ Holds m (encode c) := by
  unfold IsCode
  simp only [Nat.reducePow]
  rw [charGet] at h
  split at h
  · rw [utf8Getc] at h
    simp only [and1f, and0f, and07, and03, and01] at h
    split_ifs at h with g1 g2 g3 g4 g5 g6 g7
    · omega
    · simp only [Option.bind_eq_some_iff] at h
      obtain ⟨c1, h1, h⟩ := h
      have := cont_some h1
      have := atLeast_some h
      refine ⟨by omega, ?_⟩
      rw [encode, if_neg (by omega), if_pos (by omega)]
      simp only [holds_cons, holds_nil, and_true, Nat.zero_add, Nat.reduceAdd]
      omega
    · simp only [Option.bind_eq_some_iff] at h
      obtain ⟨c1, h1, c2, h2, h⟩ := h
      have := cont_some h1
      have := cont_some h2
      have := atLeast_some h
      refine ⟨by omega, ?_⟩
      rw [encode, if_neg (by omega), if_neg (by omega), if_pos (by omega)]
      simp only [holds_cons, holds_nil, and_true, Nat.zero_add, Nat.reduceAdd]
      omega
    · simp only [Option.bind_eq_some_iff] at h
      obtain ⟨c1, h1, c2, h2, c3, h3, h⟩ := h
      have := cont_some h1
      have := cont_some h2
      have := cont_some h3
      have := atLeast_some h
      refine ⟨by omega, ?_⟩
      rw [encode, if_neg (by omega), if_neg (by omega), if_neg (by omega), if_pos (by omega)]
      simp only [holds_cons, holds_nil, and_true, Nat.zero_add, Nat.reduceAdd]
      omega
    · simp only [Option.bind_eq_some_iff] at h
      obtain ⟨c1, h1, c2, h2, c3, h3, c4, h4, h⟩ := h
      have := cont_some h1
      have := cont_some h2
      have := cont_some h3
      have := cont_some h4
      have := atLeast_some h
      refine ⟨by omega, ?_⟩
      rw [encode, if_neg (by omega), if_neg (by omega), if_neg (by omega), if_neg (by omega), if_pos (by omega)]
      simp only [holds_cons, holds_nil, and_true, Nat.zero_add, Nat.reduceAdd]
      omega
    · simp only [Option.bind_eq_some_iff] at h
      obtain ⟨c1, h1, c2, h2, c3, h3, c4, h4, c5, h5, h⟩ := h
      have := cont_some h1
      have := cont_some h2
      have := cont_some h3
      have := cont_some h4
      have := cont_some h5
      have := atLeast_some h
      refine ⟨by omega, ?_⟩
      rw [encode, if_neg (by omega), if_neg (by omega), if_neg (by omega), if_neg (by omega), if_neg (by omega)]
      simp only [holds_cons, holds_nil, and_true, Nat.zero_add, Nat.reduceAdd]
      omega
  · cases h
    refine ⟨by omega, ?_⟩
    rw [encode, if_pos (by omega)]
    simp [holds_cons]

/-- `charGet` accepts exactly the (shortest) encodings. -/
theorem charGet_iff (c : Nat) (m : Mem) : charGet m = some c ↔ IsCode c ∧ Holds m (encode c) :=
  ⟨encode_of_charGet c m, fun h => charGet_encode c m h.1 h.2⟩

theorem encode_length (c : Nat) : (encode c).length = nbytes c := by
  unfold encode nbytes
  split_ifs <;> rfl

theorem encode_byte (c : Nat) (h : IsCode c) : ∀ b ∈ encode c, b < 256 := by
  unfold IsCode at h
  simp only [Nat.reducePow] at h
  unfold encode
  split_ifs <;> simp <;> omega

theorem encode_ne_nil (c : Nat) : encode c ≠ [] := by
  unfold encode
  split_ifs <;> simp

/-- The lead byte and the tail of an encoding: the tail is continuation bytes. -/
theorem encode_cons (c : Nat) (h : IsCode c) :
    ∃ b t, encode c = b :: t ∧ nfollows b = t.length ∧ (b < 0x80 ∨ 0xc0 ≤ b) ∧ b < 0xfe ∧
      ∀ x ∈ t, 0x80 ≤ x ∧ x < 0xc0 := by
  have hb := encode_byte c h
  unfold IsCode at h
  simp only [Nat.reducePow] at h
  unfold encode at *
  split_ifs at * <;> refine ⟨_, _, rfl, ?_, ?_, ?_, ?_⟩
  all_goals first
    | (rw [nfollows_eq _ (by first | omega | exact hb _ (by simp))]; simp only [List.length_cons, List.length_nil]; split_ifs <;> omega)
    | omega
    | (simp; done)
    | (simp; omega)


/-- Strictly smaller at the first differing byte (neither list a prefix of the other). -/
def SLt : List Nat → List Nat → Prop
  | a :: l, b :: m => a < b ∨ (a = b ∧ SLt l m)
  | _, _ => False

theorem SLt.append {l m : List Nat} (h : SLt l m) (s t : List Nat) : SLt (l ++ s) (m ++ t) := by
  induction l generalizing m with
  | nil => simp [SLt] at h
  | cons a l ih =>
    cases m with
    | nil => simp [SLt] at h
    | cons b m =>
      rcases h with h | ⟨h, h'⟩
      · exact Or.inl h
      · exact Or.inr ⟨h, ih h'⟩

theorem SLt.app_left {l m : List Nat} (h : SLt l m) (p : List Nat) : SLt (p ++ l) (p ++ m) := by
  induction p <;> simp_all [SLt]

theorem SLt.irrefl {l : List Nat} : ¬ SLt l l := by
  induction l <;> simp_all [SLt]

/-- A lead byte marker and `k` base-64 digits. -/
def digits (lead : Nat) : Nat → Nat → List Nat
  | 0, c => [lead + c]
  | k + 1, c => digits lead k (c / 64) ++ [0x80 + c % 64]

theorem digits_length (lead k c : Nat) : (digits lead k c).length = k + 1 := by
  induction k generalizing c <;> simp_all [digits]

theorem SLt.snoc {l m : List Nat} {a b : Nat} (h : a < b) (e : l = m) : SLt (l ++ [a]) (m ++ [b]) := by
  subst e
  exact SLt.app_left (by simp [SLt, h]) l

theorem digits_slt (lead k c d : Nat) (h : c < d) : SLt (digits lead k c) (digits lead k d) := by
  induction k generalizing c d with
  | zero => simp [digits, SLt, h]
  | succ k ih =>
    rw [digits, digits]
    by_cases g : c / 64 < d / 64
    · exact (ih _ _ g).append _ _
    · have e : c / 64 = d / 64 := by omega
      exact SLt.snoc (by omega) (by rw [e])

theorem slt_head {a b : Nat} {l m : List Nat} (h : a < b) : SLt (a :: l) (b :: m) := Or.inl h

theorem encode_slt {c d : Nat} (hd : IsCode d) (h : c < d) : SLt (encode c) (encode d) := by
  unfold IsCode at hd
  simp only [Nat.reducePow] at hd
  unfold encode
  have e1 : ∀ c, [0xc0 + c / 64, 0x80 + c % 64] = digits 0xc0 1 c := by simp [digits]
  have e2 : ∀ c, [0xe0 + c / 4096, 0x80 + c / 64 % 64, 0x80 + c % 64] = digits 0xe0 2 c := by
    simp [digits, Nat.div_div_eq_div_mul]
  have e3 : ∀ c, [0xf0 + c / 262144, 0x80 + c / 4096 % 64, 0x80 + c / 64 % 64, 0x80 + c % 64] =
      digits 0xf0 3 c := by
    simp [digits, Nat.div_div_eq_div_mul]
  have e4 : ∀ c, [0xf8 + c / 16777216, 0x80 + c / 262144 % 64, 0x80 + c / 4096 % 64, 0x80 + c / 64 % 64,
      0x80 + c % 64] = digits 0xf8 4 c := by
    simp [digits, Nat.div_div_eq_div_mul]
  have e5 : ∀ c, [0xfc + c / 1073741824, 0x80 + c / 16777216 % 64, 0x80 + c / 262144 % 64, 0x80 + c / 4096 % 64,
      0x80 + c / 64 % 64, 0x80 + c % 64] = digits 0xfc 5 c := by
    simp [digits, Nat.div_div_eq_div_mul]
  split_ifs <;> first
    | (exfalso; omega)
    | (apply slt_head; omega)
    | (rw [e1, e1]; exact digits_slt _ _ _ _ h)
    | (rw [e2, e2]; exact digits_slt _ _ _ _ h)
    | (rw [e3, e3]; exact digits_slt _ _ _ _ h)
    | (rw [e4, e4]; exact digits_slt _ _ _ _ h)
    | (rw [e5, e5]; exact digits_slt _ _ _ _ h)

theorem encode_prefix {c d : Nat} {s t : List Nat} (hc : IsCode c) (hd : IsCode d)
    (h : encode c ++ s = encode d ++ t) : c = d := by
  rcases Nat.lt_trichotomy c d with g | g | g
  · exact absurd (h ▸ (encode_slt hd g).append s t) SLt.irrefl
  · exact g
  · exact absurd (h ▸ (encode_slt hc g).append t s) SLt.irrefl


theorem encodeAll_cons (c : Nat) (cs : List Nat) : encodeAll (c :: cs) = encode c ++ encodeAll cs := by
  simp [encodeAll]

theorem encodeAll_append (cs ds : List Nat) : encodeAll (cs ++ ds) = encodeAll cs ++ encodeAll ds := by
  simp [encodeAll]

@[simp] theorem encodeAll_nil : encodeAll [] = [] := rfl

theorem encodeAll_inj {cs ds : List Nat} (hc : ∀ c ∈ cs, IsCode c) (hd : ∀ c ∈ ds, IsCode c)
    (h : encodeAll cs = encodeAll ds) : cs = ds := by
  induction cs generalizing ds with
  | nil =>
    cases ds with
    | nil => rfl
    | cons d ds =>
      rw [encodeAll_cons] at h
      have := encode_ne_nil d
      simp_all
  | cons c cs ih =>
    cases ds with
    | nil =>
      rw [encodeAll_cons] at h
      have := encode_ne_nil c
      simp_all
    | cons d ds =>
      rw [encodeAll_cons, encodeAll_cons] at h
      have e : c = d := encode_prefix (hc _ (by simp)) (hd _ (by simp)) h
      subst e
      rw [ih (fun x hx => hc x (by simp [hx])) (fun x hx => hd x (by simp [hx])) (List.append_cancel_left h)]

theorem holds_append {m : Mem} {l k : List Nat} :
    Holds m (l ++ k) ↔ Holds m l ∧ Holds (fun i => m (l.length + i)) k := by
  constructor
  · intro h
    refine ⟨fun i hi => ?_, fun i hi => ?_⟩
    · rw [h i (by simp; omega), List.getElem_append_left hi]
    · show m (l.length + i) = _
      rw [h (l.length + i) (by simp; omega), List.getElem_append_right (by omega)]
      congr 1; omega
  · rintro ⟨h1, h2⟩ i hi
    by_cases g : i < l.length
    · rw [h1 i g, List.getElem_append_left g]
    · have := h2 (i - l.length) (by simp at hi; omega)
      rw [List.getElem_append_right (by omega)]
      rw [← this]
      congr 1; omega

/-- The encoding of a sequence has no lead byte whose character ends at the end of a proper suffix other
than the last character's own. -/
theorem tail_byte {t : List Nat} {m : Mem} (ht : ∀ x ∈ t, 0x80 ≤ x ∧ x < 0xc0) (h : Holds m t) (i : Nat)
    (hi : i < t.length) : nfollows (m i) = 0 := by
  have := ht _ (List.getElem_mem hi)
  rw [h i hi, nfollows_eq _ (by omega), if_pos (by omega)]

/-- In an encoded sequence a lead byte at offset `i` announces no more bytes than there are. -/
theorem lead_fits (cs : List Nat) (hc : ∀ c ∈ cs, IsCode c) (m : Mem) (h : Holds m (encodeAll cs)) (i : Nat)
    (hi : i < (encodeAll cs).length) : i + nfollows (m i) + 1 ≤ (encodeAll cs).length := by
  induction cs generalizing m i with
  | nil => simp at hi
  | cons c cs ih =>
    rw [encodeAll_cons] at h hi ⊢
    rw [holds_append] at h
    simp only [List.length_append] at hi ⊢
    by_cases g : i < (encode c).length
    · obtain ⟨b, t, e, hn, _, _, ht⟩ := encode_cons c (hc c (by simp))
      rw [e, holds_cons] at h
      rw [e, List.length_cons] at g ⊢
      cases i with
      | zero => rw [h.1.1, hn]; omega
      | succ i =>
        have := tail_byte ht h.1.2 i (by omega)
        rw [this]; omega
    · have := ih (fun x hx => hc x (by simp [hx])) _ h.2 (i - (encode c).length) (by omega)
      rw [show (encode c).length + (i - (encode c).length) = i from by omega] at this
      omega

theorem lead_len (c : Nat) (hc : IsCode c) (m : Mem) (h : Holds m (encode c)) : nfollows (m 0) + 1 = nbytes c := by
  obtain ⟨b, t, e, hn, _⟩ := encode_cons c hc
  rw [← encode_length, e, List.length_cons]
  rw [e, holds_cons] at h
  rw [h.1, hn]

theorem nbytes_pos (c : Nat) : 1 ≤ nbytes c ∧ nbytes c ≤ 6 := by
  unfold nbytes; split_ifs <;> simp

theorem backward_of (p : Mem) (cp n : Nat) (h1 : 1 ≤ n) (h6 : n ≤ 6) (hn : n ≤ cp)
    (hl : nfollows (p (cp - n)) + 1 = n)
    (hf : ∀ k, n < k → k ≤ 6 → k ≤ cp → nfollows (p (cp - k)) + 1 ≠ k) : backward p cp = some (cp - n) := by
  unfold backward
  have f (k : Nat) (hk : n < k) (hk6 : k ≤ 6) : ¬ (cp ≥ k ∧ nfollows (p (cp - k)) = k - 1) := by
    rintro ⟨ha, hb⟩
    exact hf k hk hk6 ha (by omega)
  have e : cp ≥ n ∧ nfollows (p (cp - n)) = n - 1 := ⟨hn, by omega⟩
  obtain rfl | rfl | rfl | rfl | rfl | rfl : n = 1 ∨ n = 2 ∨ n = 3 ∨ n = 4 ∨ n = 5 ∨ n = 6 := by omega
  · rw [if_neg (f 6 (by omega) (by omega)), if_neg (f 5 (by omega) (by omega)), if_neg (f 4 (by omega) (by omega)),
      if_neg (f 3 (by omega) (by omega)), if_neg (f 2 (by omega) (by omega)), if_pos e]
  · rw [if_neg (f 6 (by omega) (by omega)), if_neg (f 5 (by omega) (by omega)), if_neg (f 4 (by omega) (by omega)),
      if_neg (f 3 (by omega) (by omega)), if_pos e]
  · rw [if_neg (f 6 (by omega) (by omega)), if_neg (f 5 (by omega) (by omega)), if_neg (f 4 (by omega) (by omega)),
      if_pos e]
  · rw [if_neg (f 6 (by omega) (by omega)), if_neg (f 5 (by omega) (by omega)), if_pos e]
  · rw [if_neg (f 6 (by omega) (by omega)), if_pos e]
  · rw [if_pos e]

theorem backward_encodeAll (cs : List Nat) (c : Nat) (hcs : ∀ c ∈ cs, IsCode c) (hc : IsCode c) (m : Mem)
    (h : Holds m (encodeAll (cs ++ [c]))) :
    backward m (encodeAll (cs ++ [c])).length = some (encodeAll cs).length := by
  have hall := h
  rw [encodeAll_append, holds_append] at h
  have e1 : encodeAll [c] = encode c := by simp [encodeAll]
  rw [e1] at h
  have hlen : (encodeAll (cs ++ [c])).length = (encodeAll cs).length + nbytes c := by
    rw [encodeAll_append, List.length_append, e1, encode_length]
  have hb := nbytes_pos c
  rw [hlen]
  have hl := lead_len c hc _ h.2
  rw [backward_of m _ (nbytes c) hb.1 hb.2 (by omega)]
  · congr 1; omega
  · rw [show (encodeAll cs).length + nbytes c - nbytes c = (encodeAll cs).length from by omega]
    exact hl
  · intro k hk hk6 hkc e
    -- a lead byte before the last character would announce bytes past its own character
    have := lead_fits cs hcs m h.1 ((encodeAll cs).length + nbytes c - k) (by omega)
    omega

/-- `charGet` looks at the announced bytes only. -/
theorem charGet_local (p q : Mem) (hb : p 0 < 256) (h : ∀ i ≤ nfollows (p 0), p i = q i) :
    charGet p = charGet q := by
  have h0 := h 0 (by omega)
  unfold charGet utf8Getc
  rw [← h0]
  split
  · dsimp only
    have hn := nfollows_eq _ hb
    by_cases g1 : p 0 < 0x80
    · simp [g1]
    by_cases g2 : p 0 < 0xc0
    · simp [g1, g2]
    by_cases g3 : p 0 < 0xe0
    · simp only [g2, g3, if_true, if_false] at hn
      simp only [g1, g2, g3, if_true, if_false]
      rw [h 1 (by omega)]
    by_cases g4 : p 0 < 0xf0
    · simp only [g2, g3, g4, if_true, if_false] at hn
      simp only [g1, g2, g3, g4, if_true, if_false]
      rw [h 1 (by omega), h 2 (by omega)]
    by_cases g5 : p 0 < 0xf8
    · simp only [g2, g3, g4, g5, if_true, if_false] at hn
      simp only [g1, g2, g3, g4, g5, if_true, if_false]
      rw [h 1 (by omega), h 2 (by omega), h 3 (by omega)]
    by_cases g6 : p 0 < 0xfc
    · simp only [g2, g3, g4, g5, g6, if_true, if_false] at hn
      simp only [g1, g2, g3, g4, g5, g6, if_true, if_false]
      rw [h 1 (by omega), h 2 (by omega), h 3 (by omega), h 4 (by omega)]
    by_cases g7 : p 0 < 0xfe
    · simp only [g2, g3, g4, g5, g6, g7, if_true, if_false] at hn
      simp only [g1, g2, g3, g4, g5, g6, g7, if_true, if_false]
      rw [h 1 (by omega), h 2 (by omega), h 3 (by omega), h 4 (by omega), h 5 (by omega)]
    · simp [g1, g2, g3, g4, g5, g6, g7]
  · rfl

end Gauche.Utf8

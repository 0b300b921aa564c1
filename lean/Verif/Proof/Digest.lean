import Verif.Model.Digest
import Mathlib.Tactic.Ring
/-! Proofs about the buffering and padding of message digests. -/
namespace Gauche.Digest

/-! ### Buffers -/

theorem put_length (buf data : List Nat) (off : Nat) (h : off + data.length ≤ buf.length) :
    (put buf off data).length = buf.length := by
  simp only [put, List.length_append, List.length_take, List.length_drop]; omega

theorem put_full (buf data : List Nat) (off : Nat) (h : off + data.length = buf.length) :
    put buf off data = buf.take off ++ data := by
  unfold put; rw [h, List.drop_length, List.append_nil]

theorem put_take (buf data : List Nat) (off : Nat) (h : off + data.length ≤ buf.length) :
    (put buf off data).take (off + data.length) = buf.take off ++ data := by
  unfold put
  rw [List.take_append_of_le_length (by simp only [List.length_append, List.length_take]; omega)]
  apply List.take_of_length_le
  simp only [List.length_append, List.length_take]; omega

theorem put_zero_take (buf data : List Nat) (h : data.length ≤ buf.length) :
    (put buf 0 data).take data.length = data := by
  have := put_take buf data 0 (by omega)
  simpa using this

theorem put_zero_full (buf data : List Nat) (h : data.length = buf.length) : put buf 0 data = data := by
  have := put_full buf data 0 (by omega)
  simpa using this

theorem clear_length (buf : List Nat) (off n : Nat) (h : off + n ≤ buf.length) : (clear buf off n).length = buf.length :=
  put_length _ _ _ (by simpa using h)

/-! ### Counters -/

/-- The counter of an algorithm counts modulo a power of two. -/
structure CountOk {σ κ : Type} (a : Alg σ κ) (M : Nat) (val : κ → Nat) (ok : κ → Prop) : Prop where
  hB : 0 < a.B
  hL : a.L < a.B
  hLpos : 0 < a.L
  dvd : 8 * a.B ∣ M
  pos : 0 < M
  okz : ok a.zero
  zero : val a.zero = 0
  oki : ∀ k n, ok k → ok (a.inc k n)
  lt : ∀ k, ok k → val k < M
  inc : ∀ k n, ok k → n ≤ 8 * a.B → val (a.inc k n) = (val k + n) % M
  low : ∀ k, ok k → (a.low k >>> 3) % a.B = (val k / 8) % a.B
  len : ∀ k, (a.lenBytes k).length = a.B - a.L

theorem count_used {B M m : Nat} (hd : 8 * B ∣ M) : ((8 * m % M) / 8) % B = m % B := by
  obtain ⟨q, rfl⟩ := hd
  rw [show 8 * B * q = 8 * (B * q) by ring, Nat.mul_mod_mul_left, Nat.mul_div_cancel_left _ (by decide), Nat.mod_mul_right_mod]

/-- What a context of the SHA family holds after the message `m`. -/
structure Inv {σ κ : Type} (a : Alg σ κ) (M : Nat) (val : κ → Nat) (ok : κ → Prop) (m : List Nat) (c : Ctx σ κ) : Prop where
  ex : ∃ (bs : List (List Nat)) (tail : List Nat), m = bs.flatten ++ tail ∧ (∀ b ∈ bs, b.length = a.B) ∧ tail.length < a.B ∧
    c.state = bs.foldl a.T a.init ∧ c.buffer.take tail.length = tail
  buf : c.buffer.length = a.B
  ok : ok c.bitcount
  cnt : val c.bitcount = 8 * m.length % M

theorem flatten_length (B : Nat) (bs : List (List Nat)) (h : ∀ b ∈ bs, b.length = B) : bs.flatten.length = B * bs.length := by
  induction bs with
  | nil => simp
  | cons b bs ih =>
    rw [List.flatten_cons, List.length_append, h b (by simp), ih (fun b hb => h b (by simp [hb])), List.length_cons]
    ring

theorem used_eq {B : Nat} {bs : List (List Nat)} {tail : List Nat} (h : ∀ b ∈ bs, b.length = B) (ht : tail.length < B) :
    (bs.flatten ++ tail).length % B = tail.length := by
  rw [List.length_append, flatten_length B bs h, Nat.mul_add_mod, Nat.mod_eq_of_lt ht]

variable {σ κ : Type} {a : Alg σ κ} {M : Nat} {val : κ → Nat} {ok : κ → Prop}

theorem loop_spec (C : CountOk a M val ok) (n : Nat) : ∀ (data : List Nat), data.length ≤ n → ∀ s k, ok k →
    ∃ bs : List (List Nat), (∀ b ∈ bs, b.length = a.B) ∧ data = bs.flatten ++ (shaLoop a C.hB s k data).2.2 ∧
      (shaLoop a C.hB s k data).2.2.length < a.B ∧
      (shaLoop a C.hB s k data).1 = bs.foldl a.T s ∧
      ok (shaLoop a C.hB s k data).2.1 ∧
      (val (shaLoop a C.hB s k data).2.1) % M = (val k + 8 * (bs.flatten.length)) % M := by
  induction n with
  | zero =>
    intro data hd s k hk
    have : ¬ a.B ≤ data.length := by have := C.hB; omega
    rw [shaLoop, if_neg this]
    exact ⟨[], by simp, by simp, by simp only; omega, rfl, hk, by simp⟩
  | succ n ih =>
    intro data hd s k hk
    rw [shaLoop]
    by_cases h : a.B ≤ data.length
    · rw [if_pos h]
      obtain ⟨bs, h1, h2, h3, h4, h6, h5⟩ := ih (data.drop a.B)
        (by have := C.hB; simp only [List.length_drop]; omega) (a.T s (data.take a.B)) (a.inc k (8 * a.B)) (C.oki _ _ hk)
      refine ⟨data.take a.B :: bs, ?_, ?_, h3, ?_, h6, ?_⟩
      · intro b hb
        rcases List.mem_cons.1 hb with rfl | hb
        · simp [h]
        · exact h1 b hb
      · rw [List.flatten_cons, List.append_assoc, ← h2, List.take_append_drop]
      · rw [h4]; rfl
      · rw [h5, C.inc _ _ hk (Nat.le_refl _), List.flatten_cons, List.length_append, List.length_take, Nat.min_eq_left h]
        rw [Nat.mod_add_mod]; congr 1; ring
    · rw [if_neg h]
      exact ⟨[], by simp, by simp, by simp only; omega, rfl, hk, by simp⟩

theorem inv_init (C : CountOk a M val ok) : Inv a M val ok [] (shaInit a) := by
  refine ⟨⟨[], [], rfl, by simp, C.hB, rfl, rfl⟩, by simp [shaInit], C.okz, by simp [shaInit, C.zero]⟩

theorem inv_rest (C : CountOk a M val ok) {m : List Nat} {c : Ctx σ κ} {bs : List (List Nat)}
    (hm : m = bs.flatten) (hb : ∀ b ∈ bs, b.length = a.B) (hs : c.state = bs.foldl a.T a.init)
    (hbuf : c.buffer.length = a.B) (hok : ok c.bitcount) (hc : val c.bitcount = 8 * m.length % M) (data : List Nat) :
    Inv a M val ok (m ++ data) (shaRest a C.hB c data) := by
  obtain ⟨cs, h1, h2, h3, h4, h6, h5⟩ := loop_spec C data.length data (Nat.le_refl _) c.state c.bitcount hok
  rw [Nat.mod_eq_of_lt (C.lt _ h6)] at h5
  unfold shaRest
  generalize shaLoop a C.hB c.state c.bitcount data = r at h2 h3 h4 h5 h6
  obtain ⟨s, k, tail⟩ := r
  simp only at h2 h3 h4 h5 h6 ⊢
  have hall : ∀ b ∈ bs ++ cs, b.length = a.B := by
    intro b hb'
    rcases List.mem_append.1 hb' with h | h
    · exact hb b h
    · exact h1 b h
  have hmm : m ++ data = (bs ++ cs).flatten ++ tail := by
    rw [List.flatten_append, hm, List.append_assoc, ← h2]
  have hst : s = (bs ++ cs).foldl a.T a.init := by rw [List.foldl_append, ← hs, h4]
  by_cases ht : 0 < tail.length
  · rw [if_pos ht]
    refine ⟨⟨bs ++ cs, tail, hmm, hall, h3, hst, put_zero_take _ _ (by omega)⟩, ?_, C.oki _ _ h6, ?_⟩
    · rw [← hbuf]; exact put_length _ _ _ (by omega)
    · simp only
      rw [C.inc _ _ h6 (by omega), h5, hc, Nat.mod_add_mod, h2, List.length_append, List.length_append, Nat.add_assoc, Nat.mod_add_mod]
      congr 1; ring
  · rw [if_neg ht]
    have ht0 : tail = [] := List.length_eq_zero_iff.1 (by omega)
    refine ⟨⟨bs ++ cs, tail, hmm, hall, h3, hst, by rw [ht0]; rfl⟩, hbuf, h6, ?_⟩
    simp only
    rw [h5, hc, h2, ht0, List.append_nil, List.length_append, Nat.mod_add_mod]
    congr 1; ring

theorem inv_update (C : CountOk a M val ok) {m : List Nat} {c : Ctx σ κ} (H : Inv a M val ok m c)
    (data : List Nat) : Inv a M val ok (m ++ data) (shaUpdate a C.hB c data) := by
  obtain ⟨⟨bs, tail, hm, hb, htl, hs, htk⟩, hbuf, hok, hc⟩ := H
  unfold shaUpdate
  by_cases h0 : data.length = 0
  · rw [if_pos h0]
    have : data = [] := List.length_eq_zero_iff.1 h0
    rw [this, List.append_nil]
    exact ⟨⟨bs, tail, hm, hb, htl, hs, htk⟩, hbuf, hok, hc⟩
  · rw [if_neg h0]
    have hused : (a.low c.bitcount >>> 3) % a.B = tail.length := by
      rw [C.low _ hok, hc, count_used C.dvd, hm, used_eq hb htl]
    simp only [hused]
    by_cases h1 : 0 < tail.length
    · rw [if_pos h1]
      by_cases h2 : a.B - tail.length ≤ data.length
      · rw [if_pos h2]
        have hlen : (data.take (a.B - tail.length)).length = a.B - tail.length := by simp [h2]
        have hput : put c.buffer tail.length (data.take (a.B - tail.length)) = tail ++ data.take (a.B - tail.length) := by
          rw [put_full _ _ _ (by omega), htk]
        have hdat : m ++ data = (m ++ data.take (a.B - tail.length)) ++ data.drop (a.B - tail.length) := by
          rw [List.append_assoc, List.take_append_drop]
        rw [hdat, hput]
        apply inv_rest C (bs := bs ++ [tail ++ data.take (a.B - tail.length)])
        · rw [hm]; simp
        · intro b hb'
          rcases List.mem_append.1 hb' with h | h
          · exact hb b h
          · rw [List.mem_singleton.1 h, List.length_append, hlen]; omega
        · simp only [hs, List.foldl_append, List.foldl_cons, List.foldl_nil]
        · simp only [List.length_append, hlen]; omega
        · exact C.oki _ _ hok
        · simp only
          rw [C.inc _ _ hok (by omega), hc, Nat.mod_add_mod, List.length_append, hlen]
          congr 1; ring
      · rw [if_neg h2]
        refine ⟨⟨bs, tail ++ data, by rw [hm, List.append_assoc], hb, by rw [List.length_append]; omega, hs, ?_⟩, ?_, C.oki _ _ hok, ?_⟩
        · simp only
          rw [List.length_append, put_take _ _ _ (by omega), htk]
        · simp only; rw [← hbuf]; exact put_length _ _ _ (by omega)
        · simp only
          rw [C.inc _ _ hok (by omega), hc, Nat.mod_add_mod, List.length_append]
          congr 1; ring
    · rw [if_neg h1]
      have ht0 : tail = [] := List.length_eq_zero_iff.1 (by omega)
      rw [ht0, List.append_nil] at hm
      exact inv_rest C hm hb hs hbuf hok hc data

theorem inv_updates (C : CountOk a M val ok) (chunks : List (List Nat)) :
    ∀ m c, Inv a M val ok m c → Inv a M val ok (m ++ chunks.flatten) (chunks.foldl (shaUpdate a C.hB) c) := by
  induction chunks with
  | nil => intro m c h; simpa using h
  | cons d ds ih =>
    intro m c h
    have := ih _ _ (inv_update C h d)
    simpa using this

/-! ### The end -/

/-- The last one or two blocks. -/
theorem last_blocks {B L : Nat} (hL : L < B) (hLpos : 0 < L) {buf tail field : List Nat} (hbuf : buf.length = B) (htl : tail.length < B)
    (htk : buf.take tail.length = tail) (hf : field.length = B - L) :
    (tail.length + 1 ≤ L →
      put (clear (put buf tail.length [128]) (tail.length + 1) (L - (tail.length + 1))) L field
        = tail ++ [128] ++ List.replicate (L - (tail.length + 1)) 0 ++ field) ∧
    (clear (put buf tail.length [128]) (tail.length + 1) (B - (tail.length + 1))
        = tail ++ [128] ++ List.replicate (B - (tail.length + 1)) 0) ∧
    (∀ b : List Nat, b.length = B → put (clear b 0 L) L field = List.replicate L 0 ++ field) := by
  have h1 : (put buf tail.length [128]).length = B := by rw [← hbuf]; exact put_length _ _ _ (by simp; omega)
  have h2 : (put buf tail.length [128]).take (tail.length + 1) = tail ++ [128] := by
    have := put_take buf [128] tail.length (by simp; omega)
    rw [htk] at this; exact this
  have h3 : ∀ b : List Nat, b.length = B → ∀ off n, off + n ≤ B →
      (clear b off n).take (off + n) = b.take off ++ List.replicate n 0 := by
    intro b hb off n hn
    have := put_take b (List.replicate n 0) off (by simp; omega)
    simpa [clear] using this
  refine ⟨?_, ?_, ?_⟩
  · intro h
    have hl : (clear (put buf tail.length [128]) (tail.length + 1) (L - (tail.length + 1))).length = B := by
      rw [← h1]; exact clear_length _ _ _ (by omega)
    rw [put_full _ _ _ (by omega)]
    have := h3 _ h1 (tail.length + 1) (L - (tail.length + 1)) (by omega)
    rw [show tail.length + 1 + (L - (tail.length + 1)) = L by omega] at this
    rw [this, h2]
  · have hl : (clear (put buf tail.length [128]) (tail.length + 1) (B - (tail.length + 1))).length = B := by
      rw [← h1]; exact clear_length _ _ _ (by omega)
    have := h3 _ h1 (tail.length + 1) (B - (tail.length + 1)) (by omega)
    rw [show tail.length + 1 + (B - (tail.length + 1)) = B by omega] at this
    rw [← h2, ← this, List.take_of_length_le (by omega)]
  · intro b hb
    have hl : (clear b 0 L).length = B := by rw [← hb]; exact clear_length _ _ _ (by omega)
    rw [put_full _ _ _ (by omega)]
    have := h3 b hb 0 L (by omega)
    simp only [Nat.zero_add, List.take_zero, List.nil_append] at this
    rw [this]

theorem foldl_snoc (T : σ → List Nat → σ) (bs : List (List Nat)) (b : List Nat) (s : σ) :
    (bs ++ [b]).foldl T s = T (bs.foldl T s) b := by simp

theorem final_spec (C : CountOk a M val ok) {m : List Nat} {c : Ctx σ κ} (H : Inv a M val ok m c) :
    ∃ blocks, PaddedBlocks a.B m (a.lenBytes c.bitcount) blocks ∧ shaFinal a c = blocks.foldl a.T a.init := by
  obtain ⟨⟨bs, tail, hm, hb, htl, hs, htk⟩, hbuf, hok, hc⟩ := H
  have hused : (a.low c.bitcount >>> 3) % a.B = tail.length := by
    rw [C.low _ hok, hc, count_used C.dvd, hm, used_eq hb htl]
  have hLB := C.hL
  have hLp := C.hLpos
  have hlen := C.len c.bitcount
  obtain ⟨p1, p2, p3⟩ := last_blocks hLB hLp hbuf htl htk hlen
  unfold shaFinal
  simp only [hused]
  generalize hfd : a.lenBytes c.bitcount = field at *
  have one : tail.length + 1 ≤ a.L → PaddedBlocks a.B m field
      (bs ++ [tail ++ [128] ++ List.replicate (a.L - (tail.length + 1)) 0 ++ field]) := by
    intro h
    refine ⟨?_, a.L - (tail.length + 1), by omega, ?_⟩
    · intro b hb'
      rcases List.mem_append.1 hb' with h' | h'
      · exact hb b h'
      · rw [List.mem_singleton.1 h']
        simp only [List.length_append, List.length_replicate, List.length_cons, List.length_nil]; omega
    · rw [hm]; simp [List.flatten_append]
  by_cases h0 : 0 < tail.length
  · rw [if_pos h0]
    by_cases h1 : tail.length + 1 ≤ a.L
    · rw [if_pos h1]
      refine ⟨_, one h1, ?_⟩
      simp only
      rw [foldl_snoc, p1 h1, hs]
    · rw [if_neg h1]
      refine ⟨bs ++ [tail ++ [128] ++ List.replicate (a.B - (tail.length + 1)) 0] ++ [List.replicate a.L 0 ++ field], ⟨?_,
        a.B - (tail.length + 1) + a.L, by omega, ?_⟩, ?_⟩
      · intro b hb'
        rcases List.mem_append.1 hb' with h' | h'
        · rcases List.mem_append.1 h' with h' | h'
          · exact hb b h'
          · rw [List.mem_singleton.1 h']
            simp only [List.length_append, List.length_replicate, List.length_cons, List.length_nil]; omega
        · rw [List.mem_singleton.1 h']
          simp only [List.length_append, List.length_replicate]; omega
      · rw [hm, ← List.replicate_append_replicate]
        simp only [List.flatten_append, List.flatten_cons, List.flatten_nil, List.append_assoc, List.append_nil]
      · have hb1 : (if tail.length + 1 < a.B then
            clear (put c.buffer tail.length [128]) (tail.length + 1) (a.B - (tail.length + 1))
            else put c.buffer tail.length [128]) = tail ++ [128] ++ List.replicate (a.B - (tail.length + 1)) 0 := by
          by_cases h2 : tail.length + 1 < a.B
          · rw [if_pos h2, p2]
          · rw [if_neg h2, put_full _ _ _ (by simp; omega), htk, show a.B - (tail.length + 1) = 0 by omega]; simp
        simp only
        rw [hb1, foldl_snoc, foldl_snoc, p3 _ (by simp; omega), hs]
  · rw [if_neg h0]
    have ht0 : tail = [] := List.length_eq_zero_iff.1 (by omega)
    refine ⟨_, one (by omega), ?_⟩
    simp only
    rw [foldl_snoc, ← hs]
    congr 1
    subst ht0
    simp only [List.length_nil, List.nil_append, Nat.zero_add]
    have hl : (clear c.buffer 0 a.L).length = a.B := by rw [← hbuf]; exact clear_length _ _ _ (by omega)
    have hl2 : (put (clear c.buffer 0 a.L) 0 [128]).length = a.B := by
      rw [put_length _ _ _ (by simp; omega), hl]
    rw [put_full _ _ _ (by omega)]
    congr 1
    have e1 : put (clear c.buffer 0 a.L) 0 [128] = 128 :: (clear c.buffer 0 a.L).drop 1 := by
      simp [put]
    have e2 : (clear c.buffer 0 a.L) = List.replicate a.L 0 ++ c.buffer.drop a.L := by
      simp [clear, put]
    rw [e1, e2]
    obtain ⟨l, hl'⟩ : ∃ l, a.L = l + 1 := ⟨a.L - 1, by omega⟩
    rw [hl', List.replicate_succ]
    simp

/-! ### The algorithms -/

theorem sha256_ok (T : σ → List Nat → σ) (init : σ) : CountOk (sha256 T init) (2 ^ 64) (fun k => k) (fun k => k < 2 ^ 64) where
  hB := by show 0 < 64; decide
  hL := by show 56 < 64; decide
  hLpos := by show 0 < 56; decide
  dvd := by show 8 * 64 ∣ 2 ^ 64; decide
  pos := by decide
  okz := by show 0 < 2 ^ 64; decide
  zero := rfl
  oki := fun k n _ => Nat.mod_lt _ (by decide)
  lt := fun k h => h
  inc := fun k n _ _ => rfl
  low := by intro k _; show (k >>> 3) % 64 = (k / 8) % 64; rw [Nat.shiftRight_eq_div_pow]
  len := fun k => rfl

/-- The value of the counter of SHA-512. -/
def val128 (w : Nat × Nat) : Nat := w.2 * 2 ^ 64 + w.1

theorem sha512_ok (T : σ → List Nat → σ) (init : σ) :
    CountOk (sha512 T init) (2 ^ 128) val128 (fun w => w.1 < 2 ^ 64 ∧ w.2 < 2 ^ 64) where
  hB := by show 0 < 128; decide
  hL := by show 112 < 128; decide
  hLpos := by show 0 < 112; decide
  dvd := by show 8 * 128 ∣ 2 ^ 128; decide
  pos := by decide
  okz := by show 0 < 2 ^ 64 ∧ 0 < 2 ^ 64; decide
  zero := by show 0 * 2 ^ 64 + 0 = 0; rw [Nat.zero_mul]
  oki := by
    intro k n h
    show (addinc128 k n).1 < _ ∧ (addinc128 k n).2 < _
    unfold addinc128
    simp only
    by_cases hc : (k.1 + n) % 2 ^ 64 < n
    · rw [if_pos hc]; exact ⟨Nat.mod_lt _ (by decide), Nat.mod_lt _ (by decide)⟩
    · rw [if_neg hc]; exact ⟨Nat.mod_lt _ (by decide), h.2⟩
  lt := by
    rintro ⟨w0, w1⟩ ⟨h1, h2⟩
    show w1 * 2 ^ 64 + w0 < 2 ^ 128
    simp only at h1 h2
    omega
  inc := by
    rintro ⟨w0, w1⟩ n ⟨h1, h2⟩ hn
    have hn : n ≤ 8 * 128 := hn
    show val128 (addinc128 (w0, w1) n) = (val128 (w0, w1) + n) % 2 ^ 128
    unfold addinc128 val128
    simp only at h1 h2 ⊢
    by_cases hc : (w0 + n) % 2 ^ 64 < n
    · rw [if_pos hc]; simp only; omega
    · rw [if_neg hc]; simp only; omega
  low := by
    rintro ⟨w0, w1⟩ _
    show (w0 >>> 3) % 128 = ((w1 * 2 ^ 64 + w0) / 8) % 128
    rw [Nat.shiftRight_eq_div_pow]; omega
  len := fun k => rfl

theorem bytes64_spec (k : Nat) (h : k < 2 ^ 64) :
    (bytes64 k).length = 8 ∧ (∀ b ∈ bytes64 k, b < 256) ∧ beValue (bytes64 k) = k := by
  refine ⟨rfl, ?_, ?_⟩
  · intro b hb
    simp only [bytes64, List.mem_cons, List.not_mem_nil, or_false] at hb
    omega
  · simp only [bytes64, beValue, Nat.shiftRight_eq_div_pow, List.length_cons, List.length_nil]
    omega

theorem beValue_append (x y : List Nat) : beValue (x ++ y) = beValue x * 256 ^ y.length + beValue y := by
  induction x with
  | nil => simp [beValue]
  | cons b x ih =>
    rw [List.cons_append, beValue, beValue, ih, List.length_append, Nat.pow_add]; ring

/-! ### MD5 -/

/-- What an MD5 context holds after the message `m`. -/
structure Inv5 (T : σ → List Nat → σ) (init : σ) (m : List Nat) (c : Md5 σ) : Prop where
  ex : ∃ (bs : List (List Nat)) (tail : List Nat), m = bs.flatten ++ tail ∧ (∀ b ∈ bs, b.length = 64) ∧ tail.length < 64 ∧
    c.buf = bs.foldl T init ∧ c.inb.take tail.length = tail
  inb : c.inb.length = 64
  b0 : c.bits0 < 2 ^ 32
  b1 : c.bits1 < 2 ^ 32
  cnt : c.bits1 * 2 ^ 32 + c.bits0 = 8 * m.length % 2 ^ 64

theorem md5Loop_spec (T : σ → List Nat → σ) (n : Nat) : ∀ (data : List Nat), data.length ≤ n → ∀ s (inb : List Nat),
    inb.length = 64 →
    ∃ (bs : List (List Nat)) (tail : List Nat), (∀ b ∈ bs, b.length = 64) ∧ data = bs.flatten ++ tail ∧ tail.length < 64 ∧
      (md5Loop T s inb data).1 = bs.foldl T s ∧ (md5Loop T s inb data).2.take tail.length = tail ∧
      (md5Loop T s inb data).2.length = 64 := by
  induction n with
  | zero =>
    intro data hd s inb hi
    rw [md5Loop, if_neg (by omega)]
    exact ⟨[], data, by simp, by simp, by omega, rfl, put_zero_take _ _ (by omega), by
      simp only; rw [put_length _ _ _ (by omega), hi]⟩
  | succ n ih =>
    intro data hd s inb hi
    rw [md5Loop]
    by_cases h : 64 ≤ data.length
    · rw [if_pos h]
      have hp : put inb 0 (data.take 64) = data.take 64 := put_zero_full _ _ (by simp; omega)
      rw [hp]
      obtain ⟨bs, tail, h1, h2, h3, h4, h5, h6⟩ := ih (data.drop 64) (by simp only [List.length_drop]; omega)
        (T s (data.take 64)) (data.take 64) (by simp; omega)
      refine ⟨data.take 64 :: bs, tail, ?_, ?_, h3, ?_, h5, h6⟩
      · intro b hb
        rcases List.mem_cons.1 hb with rfl | hb
        · simp [h]
        · exact h1 b hb
      · rw [List.flatten_cons, List.append_assoc, ← h2, List.take_append_drop]
      · rw [h4]; rfl
    · rw [if_neg h]
      exact ⟨[], data, by simp, by simp, by omega, rfl, put_zero_take _ _ (by omega), by
        simp only; rw [put_length _ _ _ (by omega), hi]⟩

theorem join_mod (A x P : Nat) (h : x < P) : (A % P) * P + x = (A * P + x) % (P * P) := by
  have hP : 0 < P := by omega
  rw [Nat.mod_mul, Nat.mul_add_mod_self_right, Nat.mod_eq_of_lt h, Nat.mul_comm A P, Nat.mul_add_div hP, Nat.div_eq_of_lt h,
    Nat.add_zero, Nat.add_comm, Nat.mul_comm P]

theorem carry_count (P b0 b1 len q r y : Nat) (h0 : b0 < P) (hr : r < P) (hq : 8 * len = P * q + r) (hy : b1 * P + b0 = y) :
    ((if (b0 + r) % P < b0 then (b1 + 1) % P else b1) + q) % P * P + (b0 + r) % P = (y + 8 * len) % (P * P) := by
  have hP : 0 < P := by omega
  have e : b1 * P + b0 + (P * q + r) = (b1 + q) * P + (b0 + r) := by ring
  rw [← hy, hq, e]
  by_cases hlt : b0 + r < P
  · rw [Nat.mod_eq_of_lt hlt, if_neg (by omega), join_mod _ _ _ hlt]
  · have hx : (b0 + r) % P = b0 + r - P := by
      rw [Nat.mod_eq_sub_mod (by omega), Nat.mod_eq_of_lt (by omega)]
    rw [hx, if_pos (by omega), Nat.mod_add_mod, join_mod _ _ _ (by omega)]
    have e2 : (b1 + 1 + q) * P = (b1 + q) * P + P := by ring
    rw [e2]
    congr 1; omega

theorem md5_count {b0 b1 len total : Nat} (h0 : b0 < 2 ^ 32)
    (hc : b1 * 2 ^ 32 + b0 = 8 * total % 2 ^ 64) :
    ((if (b0 + (len <<< 3) % 2 ^ 32) % 2 ^ 32 < b0 then (b1 + 1) % 2 ^ 32 else b1) + len >>> 29) % 2 ^ 32 * 2 ^ 32
      + (b0 + (len <<< 3) % 2 ^ 32) % 2 ^ 32 = 8 * (total + len) % 2 ^ 64 := by
  rw [Nat.shiftLeft_eq, Nat.shiftRight_eq_div_pow]
  have hq : 8 * len = 2 ^ 32 * (len / 2 ^ 29) + len * 2 ^ 3 % 2 ^ 32 := by omega
  have := carry_count (2 ^ 32) b0 b1 len (len / 2 ^ 29) (len * 2 ^ 3 % 2 ^ 32) _ h0 (Nat.mod_lt _ (Nat.two_pow_pos 32)) hq hc
  rw [this, ← Nat.pow_add, Nat.mod_add_mod, Nat.mul_add]

theorem inv5_init (T : σ → List Nat → σ) (init : σ) (inb : List Nat) (h : inb.length = 64) :
    Inv5 T init [] (md5Init init inb) :=
  ⟨⟨[], [], rfl, by simp, by decide, rfl, rfl⟩, h, Nat.two_pow_pos 32, Nat.two_pow_pos 32, by simp [md5Init]⟩

theorem inv5_update (T : σ → List Nat → σ) (init : σ) {m : List Nat} {c : Md5 σ} (H : Inv5 T init m c) (d : List Nat)
    (hd : d.length < 2 ^ 32) : Inv5 T init (m ++ d) (md5Update T c d) := by
  obtain ⟨⟨bs, tail, hm, hb, htl, hs, htk⟩, hbuf, h0, h1, hc⟩ := H
  have hl : d.length % 2 ^ 32 = d.length := Nat.mod_eq_of_lt hd
  have hcnt := md5_count (len := d.length) h0 hc
  have hused : (c.bits0 >>> 3) % 64 = tail.length := by
    have e1 : (c.bits0 >>> 3) % 64 = ((c.bits1 * 2 ^ 32 + c.bits0) / 8) % 64 := by
      rw [Nat.shiftRight_eq_div_pow]; omega
    rw [e1, hc, count_used (by decide), hm, used_eq hb htl]
  unfold md5Update
  simp only [hl, hused, List.take_length]
  generalize hb1 : ((if (c.bits0 + (d.length <<< 3) % 2 ^ 32) % 2 ^ 32 < c.bits0 then (c.bits1 + 1) % 2 ^ 32 else c.bits1)
      + d.length >>> 29) % 2 ^ 32 = b1 at hcnt ⊢
  generalize hb0 : (c.bits0 + (d.length <<< 3) % 2 ^ 32) % 2 ^ 32 = b0 at hcnt ⊢
  have l0 : b0 < 2 ^ 32 := by rw [← hb0]; exact Nat.mod_lt _ (by decide)
  have l1 : b1 < 2 ^ 32 := by rw [← hb1]; exact Nat.mod_lt _ (by decide)
  have hcnt' : b1 * 2 ^ 32 + b0 = 8 * (m ++ d).length % 2 ^ 64 := by rw [hcnt, List.length_append]
  by_cases ht : tail.length ≠ 0
  · rw [if_pos ht]
    by_cases hlt : d.length < 64 - tail.length
    · rw [if_pos hlt]
      refine ⟨⟨bs, tail ++ d, by rw [hm, List.append_assoc], hb, by rw [List.length_append]; omega, hs, ?_⟩, ?_, l0, l1, hcnt'⟩
      · simp only
        rw [List.length_append, put_take _ _ _ (by omega), htk]
      · simp only; rw [← hbuf]; exact put_length _ _ _ (by omega)
    · rw [if_neg hlt]
      have hlen : (d.take (64 - tail.length)).length = 64 - tail.length := by simp; omega
      have hput : put c.inb tail.length (d.take (64 - tail.length)) = tail ++ d.take (64 - tail.length) := by
        rw [put_full _ _ _ (by omega), htk]
      rw [hput]
      obtain ⟨cs, tl, q1, q2, q3, q4, q5, q6⟩ := md5Loop_spec T _ (d.drop (64 - tail.length)) (Nat.le_refl _)
        (T c.buf (tail ++ d.take (64 - tail.length))) (tail ++ d.take (64 - tail.length))
        (by rw [List.length_append, hlen]; omega)
      refine ⟨⟨bs ++ [tail ++ d.take (64 - tail.length)] ++ cs, tl, ?_, ?_, q3, ?_, q5⟩, q6, l0, l1, hcnt'⟩
      · have : d = d.take (64 - tail.length) ++ (cs.flatten ++ tl) := by rw [← q2, List.take_append_drop]
        conv_lhs => rw [this]
        rw [hm]; simp
      · intro b hb'
        rcases List.mem_append.1 hb' with h' | h'
        · rcases List.mem_append.1 h' with h' | h'
          · exact hb b h'
          · rw [List.mem_singleton.1 h', List.length_append, hlen]; omega
        · exact q1 b h'
      · simp only
        rw [q4, List.foldl_append, foldl_snoc, hs]
  · rw [if_neg ht]
    have ht0 : tail = [] := List.length_eq_zero_iff.1 (by omega)
    obtain ⟨cs, tl, q1, q2, q3, q4, q5, q6⟩ := md5Loop_spec T _ d (Nat.le_refl _) c.buf c.inb hbuf
    refine ⟨⟨bs ++ cs, tl, ?_, ?_, q3, ?_, q5⟩, q6, l0, l1, hcnt'⟩
    · conv_lhs => rw [q2]
      rw [hm, ht0]; simp
    · intro b hb'
      rcases List.mem_append.1 hb' with h' | h'
      · exact hb b h'
      · exact q1 b h'
    · simp only
      rw [q4, List.foldl_append, hs]

theorem inv5_updates (T : σ → List Nat → σ) (init : σ) (chunks : List (List Nat)) : (∀ d ∈ chunks, d.length < 2 ^ 32) →
    ∀ m c, Inv5 T init m c → Inv5 T init (m ++ chunks.flatten) (chunks.foldl (md5Update T) c) := by
  induction chunks with
  | nil => intro _ m c h; simpa using h
  | cons d ds ih =>
    intro hd m c h
    have := ih (fun x hx => hd x (by simp [hx])) _ _ (inv5_update T init h d (hd d (by simp)))
    simpa using this

theorem le32_spec (k : Nat) (h : k < 2 ^ 32) :
    (le32 k).length = 4 ∧ (∀ b ∈ le32 k, b < 256) ∧ leValue (le32 k) = k := by
  refine ⟨rfl, ?_, ?_⟩
  · intro b hb
    simp only [le32, List.mem_cons, List.not_mem_nil, or_false] at hb
    omega
  · simp only [le32, leValue, Nat.shiftRight_eq_div_pow]
    omega

theorem leValue_append (x y : List Nat) : leValue (x ++ y) = leValue x + 256 ^ x.length * leValue y := by
  induction x with
  | nil => simp [leValue]
  | cons b x ih =>
    rw [List.cons_append, leValue, leValue, ih, List.length_cons, Nat.pow_succ]; ring

theorem put_put (buf x y : List Nat) (n : Nat) (h : n + x.length + y.length ≤ buf.length) :
    put (put buf n x) (n + x.length) y = put buf n (x ++ y) := by
  unfold put
  have h1 : (buf.take n ++ x).length = n + x.length := by
    rw [List.length_append, List.length_take]; omega
  rw [List.take_left' h1]
  have h2 : (buf.take n ++ x ++ buf.drop (n + x.length)).drop (n + x.length + y.length) = buf.drop (n + (x ++ y).length) := by
    rw [← List.drop_drop, List.drop_left' h1, List.drop_drop, List.length_append, Nat.add_assoc]
  rw [h2]; simp

theorem final5_spec (T : σ → List Nat → σ) (init : σ) {m : List Nat} {c : Md5 σ} (H : Inv5 T init m c) :
    ∃ blocks field, LeLength 8 m field ∧ PaddedBlocks 64 m field blocks ∧ md5Final T c = blocks.foldl T init := by
  obtain ⟨⟨bs, tail, hm, hb, htl, hs, htk⟩, hbuf, h0, h1, hc⟩ := H
  have hused : (c.bits0 >>> 3) % 64 = tail.length := by
    have e1 : (c.bits0 >>> 3) % 64 = ((c.bits1 * 2 ^ 32 + c.bits0) / 8) % 64 := by
      rw [Nat.shiftRight_eq_div_pow]; omega
    rw [e1, hc, count_used (by decide), hm, used_eq hb htl]
  have hfield : LeLength 8 m (le32 c.bits0 ++ le32 c.bits1) := by
    obtain ⟨a1, a2, a3⟩ := le32_spec c.bits0 h0
    obtain ⟨b1, b2, b3⟩ := le32_spec c.bits1 h1
    refine ⟨rfl, ?_, ?_⟩
    · intro b hb'
      rcases List.mem_append.1 hb' with h | h
      · exact a2 b h
      · exact b2 b h
    · rw [leValue_append, a1, a3, b3]
      rw [show (256 : Nat) ^ 8 = 2 ^ 64 by decide, ← hc]; ring
  have hlen : (le32 c.bits0 ++ le32 c.bits1).length = 64 - 56 := rfl
  obtain ⟨p1, p2, p3⟩ := last_blocks (B := 64) (L := 56) (by decide) (by decide) hbuf htl htk hlen
  have hpp : ∀ b : List Nat, b.length = 64 →
      put (put b 56 (le32 c.bits0)) 60 (le32 c.bits1) = put b 56 (le32 c.bits0 ++ le32 c.bits1) := by
    intro b hb'
    exact put_put b (le32 c.bits0) (le32 c.bits1) 56 (by rw [hb']; show 56 + 4 + 4 ≤ 64; decide)
  have l1 : (put c.inb tail.length [128]).length = 64 := by rw [← hbuf]; exact put_length _ _ _ (by simp; omega)
  unfold md5Final
  simp only [hused]
  generalize hfd : le32 c.bits0 ++ le32 c.bits1 = field at *
  by_cases hp : 64 - 1 - tail.length < 8
  · rw [if_pos hp]
    have e : 64 - 1 - tail.length = 64 - (tail.length + 1) := by omega
    simp only [e]
    rw [p2]
    refine ⟨bs ++ [tail ++ [128] ++ List.replicate (64 - (tail.length + 1)) 0] ++ [List.replicate 56 0 ++ field], field, hfield, ⟨?_,
      64 - (tail.length + 1) + 56, by omega, ?_⟩, ?_⟩
    · intro b hb'
      rcases List.mem_append.1 hb' with h' | h'
      · rcases List.mem_append.1 h' with h' | h'
        · exact hb b h'
        · rw [List.mem_singleton.1 h']
          simp only [List.length_append, List.length_replicate, List.length_cons, List.length_nil]; omega
      · rw [List.mem_singleton.1 h']
        simp only [List.length_append, List.length_replicate]; omega
    · rw [hm, ← List.replicate_append_replicate]
      simp only [List.flatten_append, List.flatten_cons, List.flatten_nil, List.append_assoc, List.append_nil]
    · have hl2 : (tail ++ [128] ++ List.replicate (64 - (tail.length + 1)) 0).length = 64 := by
        simp only [List.length_append, List.length_replicate, List.length_cons, List.length_nil]; omega
      rw [hpp _ (by rw [clear_length _ _ _ (by omega), hl2]), p3 _ hl2, foldl_snoc, foldl_snoc, hs]
  · rw [if_neg hp]
    have e : 64 - 1 - tail.length - 8 = 56 - (tail.length + 1) := by omega
    simp only [e]
    rw [hpp _ (by rw [clear_length _ _ _ (by omega), l1]), p1 (by omega)]
    refine ⟨bs ++ [tail ++ [128] ++ List.replicate (56 - (tail.length + 1)) 0 ++ field], field, hfield, ⟨?_,
      56 - (tail.length + 1), by omega, ?_⟩, ?_⟩
    · intro b hb'
      rcases List.mem_append.1 hb' with h' | h'
      · exact hb b h'
      · rw [List.mem_singleton.1 h']
        simp only [List.length_append, List.length_replicate, List.length_cons, List.length_nil]; omega
    · rw [hm]; simp [List.flatten_append]
    · rw [foldl_snoc, hs]

/-! ### The specification determines the blocks -/

theorem flatten_inj (B : Nat) (hB : 0 < B) : ∀ xs ys : List (List Nat), (∀ b ∈ xs, b.length = B) → (∀ b ∈ ys, b.length = B) →
    xs.flatten = ys.flatten → xs = ys := by
  intro xs
  induction xs with
  | nil =>
    intro ys _ hy h
    cases ys with
    | nil => rfl
    | cons y ys =>
      have := congrArg List.length h
      simp only [List.flatten_cons, List.length_append, hy y (by simp), List.flatten_nil, List.length_nil] at this
      omega
  | cons x xs ih =>
    intro ys hx hy h
    cases ys with
    | nil =>
      have := congrArg List.length h
      simp only [List.flatten_cons, List.length_append, hx x (by simp), List.flatten_nil, List.length_nil] at this
      omega
    | cons y ys =>
      have hl : x.length = y.length := by rw [hx x (by simp), hy y (by simp)]
      obtain ⟨h1, h2⟩ := List.append_inj (by simpa using h) hl
      rw [h1, ih ys (fun b hb => hx b (by simp [hb])) (fun b hb => hy b (by simp [hb])) h2]

theorem padded_unique (B : Nat) (m field : List Nat) (xs ys : List (List Nat)) (hx : PaddedBlocks B m field xs)
    (hy : PaddedBlocks B m field ys) : xs = ys := by
  obtain ⟨x1, k, hk, x2⟩ := hx
  obtain ⟨y1, l, hl, y2⟩ := hy
  apply flatten_inj B (by omega) xs ys x1 y1
  have ex := congrArg List.length x2
  have ey := congrArg List.length y2
  rw [flatten_length B xs x1] at ex
  rw [flatten_length B ys y1] at ey
  simp only [List.length_append, List.length_replicate, List.length_cons, List.length_nil] at ex ey
  have hkl : k = l := by
    rcases Nat.lt_trichotomy xs.length ys.length with h | h | h
    · have : B * (xs.length + 1) ≤ B * ys.length := Nat.mul_le_mul_left _ h
      rw [Nat.mul_add, Nat.mul_one] at this
      omega
    · rw [h] at ex; omega
    · have : B * (ys.length + 1) ≤ B * xs.length := Nat.mul_le_mul_left _ h
      rw [Nat.mul_add, Nat.mul_one] at this
      omega
  rw [x2, y2, hkl]

end Gauche.Digest

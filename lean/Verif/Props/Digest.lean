import Verif.Proof.Digest
/-! C84: message digests do not depend on how the data are cut into pieces. -/
namespace Gauche.Digest

theorem be_unique : ∀ x y : List Nat, x.length = y.length → (∀ b ∈ x, b < 256) → (∀ b ∈ y, b < 256) → beValue x = beValue y → x = y := by
  intro x
  induction x with
  | nil => intro y h _ _ _; exact (List.length_eq_zero_iff.1 h.symm).symm
  | cons a x ih =>
    intro y h hx hy hv
    cases y with
    | nil => cases h
    | cons b y =>
      have hl : x.length = y.length := by simpa using h
      have bound : ∀ l : List Nat, (∀ b ∈ l, b < 256) → beValue l < 256 ^ l.length := by
        intro l
        induction l with
        | nil => intro _; simp [beValue]
        | cons c l ih =>
          intro h
          have h1 := ih (fun b hb => h b (by simp [hb]))
          have h2 := h c (by simp)
          have h3 : (c + 1) * 256 ^ l.length ≤ 256 * 256 ^ l.length := Nat.mul_le_mul_right _ h2
          rw [beValue, List.length_cons, Nat.pow_succ, Nat.mul_comm _ 256]
          rw [Nat.add_mul, Nat.one_mul] at h3
          omega
      have b1 := bound x (fun c hc => hx c (by simp [hc]))
      have b2 := bound y (fun c hc => hy c (by simp [hc]))
      rw [beValue, beValue, hl] at hv
      rw [hl] at b1
      have hp : 0 < 256 ^ y.length := Nat.pow_pos (by decide)
      have d1 : (a * 256 ^ y.length + beValue x) / 256 ^ y.length = a := by
        rw [Nat.mul_comm, Nat.mul_add_div hp, Nat.div_eq_of_lt b1, Nat.add_zero]
      have d2 : (b * 256 ^ y.length + beValue y) / 256 ^ y.length = b := by
        rw [Nat.mul_comm, Nat.mul_add_div hp, Nat.div_eq_of_lt b2, Nat.add_zero]
      have hab : a = b := by rw [← d1, hv, d2]
      subst hab
      rw [ih y hl (fun c hc => hx c (by simp [hc])) (fun c hc => hy c (by simp [hc])) (by omega)]

theorem le_unique : ∀ x y : List Nat, x.length = y.length → (∀ b ∈ x, b < 256) → (∀ b ∈ y, b < 256) → leValue x = leValue y → x = y := by
  intro x
  induction x with
  | nil => intro y h _ _ _; exact (List.length_eq_zero_iff.1 h.symm).symm
  | cons a x ih =>
    intro y h hx hy hv
    cases y with
    | nil => cases h
    | cons b y =>
      have h1 := hx a (by simp)
      have h2 := hy b (by simp)
      rw [leValue, leValue] at hv
      have hab : a = b := by omega
      subst hab
      rw [ih y (by simpa using h) (fun c hc => hx c (by simp [hc])) (fun c hc => hy c (by simp [hc])) (by omega)]

/-- The specification determines the padded blocks, so that the theorems below say what the digest is. -/
theorem C84_spec_unique (B n : Nat) (m f g : List Nat) (xs ys : List (List Nat))
    (hx : PaddedBlocks B m f xs) (hy : PaddedBlocks B m g ys)
    (h : (BeLength n m f ∧ BeLength n m g) ∨ (LeLength n m f ∧ LeLength n m g)) : f = g ∧ xs = ys := by
  have hfg : f = g := by
    rcases h with ⟨⟨a1, a2, a3⟩, b1, b2, b3⟩ | ⟨⟨a1, a2, a3⟩, b1, b2, b3⟩
    · exact be_unique f g (by rw [a1, b1]) a2 b2 (by rw [a3, b3])
    · exact le_unique f g (by rw [a1, b1]) a2 b2 (by rw [a3, b3])
  subst hfg
  exact ⟨rfl, padded_unique B m f xs ys hx hy⟩

/-- C84, SHA-1, SHA-224 and SHA-256: for every compression function, the state after data given in any pieces (empty ones too) is the
compression of the blocks of the concatenation padded with its length in bits, modulo 2^64, most significant byte first. -/
theorem C84_sha256 {σ : Type} (T : σ → List Nat → σ) (init : σ) (chunks : List (List Nat)) :
    ∃ blocks field, BeLength 8 chunks.flatten field ∧ PaddedBlocks 64 chunks.flatten field blocks ∧
      shaDigest (sha256 T init) (sha256_ok T init).hB chunks = blocks.foldl T init := by
  have C := sha256_ok T init
  have I := inv_updates C chunks [] _ (inv_init C)
  rw [List.nil_append] at I
  obtain ⟨blocks, h1, h2⟩ := final_spec C I
  refine ⟨blocks, _, ?_, h1, h2⟩
  obtain ⟨b1, b2, b3⟩ := bytes64_spec _ I.ok
  refine ⟨b1, b2, ?_⟩
  have : beValue (bytes64 _) = _ := b3
  rw [show (256 : Nat) ^ 8 = 2 ^ 64 by decide]
  exact this.trans I.cnt

/-- C84, SHA-384 and SHA-512: the same with blocks of 128 bytes and a length modulo 2^128. -/
theorem C84_sha512 {σ : Type} (T : σ → List Nat → σ) (init : σ) (chunks : List (List Nat)) :
    ∃ blocks field, BeLength 16 chunks.flatten field ∧ PaddedBlocks 128 chunks.flatten field blocks ∧
      shaDigest (sha512 T init) (sha512_ok T init).hB chunks = blocks.foldl T init := by
  have C := sha512_ok T init
  have I := inv_updates C chunks [] _ (inv_init C)
  rw [List.nil_append] at I
  obtain ⟨blocks, h1, h2⟩ := final_spec C I
  refine ⟨blocks, _, ?_, h1, h2⟩
  have hc := I.cnt
  have hok := I.ok
  generalize (chunks.foldl (shaUpdate (sha512 T init) C.hB) (shaInit (sha512 T init))).bitcount = w at hc hok
  obtain ⟨a1, a2, a3⟩ := bytes64_spec _ hok.2
  obtain ⟨b1, b2, b3⟩ := bytes64_spec _ hok.1
  refine ⟨rfl, ?_, ?_⟩
  · intro b hb
    rcases List.mem_append.1 (show b ∈ bytes64 w.2 ++ bytes64 w.1 from hb) with h | h
    · exact a2 b h
    · exact b2 b h
  · show beValue (bytes64 w.2 ++ bytes64 w.1) = _
    rw [beValue_append, a3, b3, b1, show (256 : Nat) ^ 8 = 2 ^ 64 by decide, show (256 : Nat) ^ 16 = 2 ^ 128 by decide, ← hc]
    rfl

/-- C84, MD5: the same, the length modulo 2^64 with the least significant byte first, whatever was in the buffer at the start, when every
piece is shorter than 2^32 bytes. -/
theorem C84_md5 {σ : Type} (T : σ → List Nat → σ) (init : σ) (inb : List Nat) (hi : inb.length = 64) (chunks : List (List Nat))
    (hc : ∀ d ∈ chunks, d.length < 2 ^ 32) :
    ∃ blocks field, LeLength 8 chunks.flatten field ∧ PaddedBlocks 64 chunks.flatten field blocks ∧
      md5Digest T init inb chunks = blocks.foldl T init := by
  have I := inv5_updates T init chunks hc [] _ (inv5_init T init inb hi)
  rw [List.nil_append] at I
  exact final5_spec T init I

/-- C84: two ways to cut the same data give the same digest. -/
theorem C84_chunks {σ : Type} (T : σ → List Nat → σ) (init : σ) (inb inb' : List Nat) (hi : inb.length = 64) (hi' : inb'.length = 64)
    (xs ys : List (List Nat)) (h : xs.flatten = ys.flatten) :
    shaDigest (sha256 T init) (sha256_ok T init).hB xs = shaDigest (sha256 T init) (sha256_ok T init).hB ys ∧
    shaDigest (sha512 T init) (sha512_ok T init).hB xs = shaDigest (sha512 T init) (sha512_ok T init).hB ys ∧
    ((∀ d ∈ xs, d.length < 2 ^ 32) → (∀ d ∈ ys, d.length < 2 ^ 32) → md5Digest T init inb xs = md5Digest T init inb' ys) := by
  refine ⟨?_, ?_, ?_⟩
  · obtain ⟨b, f, h1, h2, h3⟩ := C84_sha256 T init xs
    obtain ⟨b', f', h1', h2', h3'⟩ := C84_sha256 T init ys
    rw [h] at h1 h2
    rw [h3, h3', (C84_spec_unique 64 8 _ _ _ _ _ h2 h2' (Or.inl ⟨h1, h1'⟩)).2]
  · obtain ⟨b, f, h1, h2, h3⟩ := C84_sha512 T init xs
    obtain ⟨b', f', h1', h2', h3'⟩ := C84_sha512 T init ys
    rw [h] at h1 h2
    rw [h3, h3', (C84_spec_unique 128 16 _ _ _ _ _ h2 h2' (Or.inl ⟨h1, h1'⟩)).2]
  · intro hx hy
    obtain ⟨b, f, h1, h2, h3⟩ := C84_md5 T init inb hi xs hx
    obtain ⟨b', f', h1', h2', h3'⟩ := C84_md5 T init inb' hi' ys hy
    rw [h] at h1 h2
    rw [h3, h3', (C84_spec_unique 64 8 _ _ _ _ _ h2 h2' (Or.inr ⟨h1, h1'⟩)).2]

/-- What C84 does not give: `MD5_Update` takes its length as an `unsigned`, so a piece of 2^32 bytes, in one string or u8vector, counts as
no data at all. -/
theorem C84_bug_md5_4g {σ : Type} (T : σ → List Nat → σ) (init : σ) (inb : List Nat) (d : List Nat) (hd : d.length = 2 ^ 32) :
    md5Digest T init inb [d] = md5Digest T init inb [] := by
  have h1 : md5Update T (md5Init init inb) d = md5Init init inb := by
    unfold md5Update
    rw [hd, Nat.mod_self]
    simp only [List.take_zero]
    have hl : md5Loop T init inb [] = (init, inb) := by
      rw [md5Loop, if_neg (by simp)]
      simp [put]
    simp [md5Init, hl]
  unfold md5Digest
  rw [List.foldl_cons, h1]

/-! Non-vacuity: with the state as the list of the blocks seen, three bytes in two pieces. -/
example : shaDigest (sha256 (fun s b => s ++ [b]) []) (sha256_ok _ _).hB [[97], [98, 99]]
    = [[97, 98, 99, 128] ++ List.replicate 59 0 ++ [24]] := by decide +kernel
example : (shaDigest (sha512 (fun s b => s ++ [b]) []) (sha512_ok _ _).hB [List.replicate 100 1, List.replicate 30 2]).length = 2 := by
  decide +kernel
example : md5Digest (fun s b => s ++ [b]) [] (List.replicate 64 9) [[97], [], [98, 99]]
    = [[97, 98, 99, 128] ++ List.replicate 52 0 ++ [24] ++ List.replicate 7 0] := by decide +kernel
example : PaddedBlocks 64 [97] (List.replicate 7 0 ++ [8]) [[97, 128] ++ List.replicate 54 0 ++ List.replicate 7 0 ++ [8]] :=
  ⟨by decide, 54, by decide, by decide⟩

end Gauche.Digest

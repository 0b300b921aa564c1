import Verif.Spec.Digest
/-! Model of the buffering and padding of ext/digest/sha2.c (SHA-1, SHA-224, SHA-256, SHA-384, SHA-512) and ext/digest/md5c.c (MD5).

The compression functions (`SHA1_Internal_Transform`, `SHA256_Internal_Transform`, `SHA512_Internal_Transform`, `MD5_Transform`) are
parameters: any function of a state and a block.  A buffer is the list of its bytes.  The words of a block are made of its bytes by the
compression function, so the byte order of the machine does not show. -/
namespace Gauche.Digest

/-- `memcpy(buf + off, data, data.length)`. -/
def put (buf : List Nat) (off : Nat) (data : List Nat) : List Nat :=
  buf.take off ++ data ++ buf.drop (off + data.length)

/-- `memset(buf + off, 0, n)`. -/
def clear (buf : List Nat) (off n : Nat) : List Nat := put buf off (List.replicate n 0)

/-- What distinguishes the members of the SHA family: the block size, the offset of the length field, the compression function, the initial
state and the counter of bits. -/
structure Alg (σ κ : Type) where
  B : Nat
  L : Nat
  T : σ → List Nat → σ
  init : σ
  zero : κ
  inc : κ → Nat → κ
  low : κ → Nat
  lenBytes : κ → List Nat

/-- The bytes of a 64-bit number, as in ext/digest/sha2.c:1064-1072: `buf56[i] = (bitcount >> (56 - 8 * i)) & 0xff`. -/
def bytes64 (k : Nat) : List Nat :=
  [(k >>> 56) % 256, (k >>> 48) % 256, (k >>> 40) % 256, (k >>> 32) % 256,
   (k >>> 24) % 256, (k >>> 16) % 256, (k >>> 8) % 256, k % 256]

/-- SHA-1, SHA-224 and SHA-256 (ext/digest/sha2.c:642-745, 988-1080): blocks of 64 bytes, a 64-bit counter. -/
def sha256 {σ : Type} (T : σ → List Nat → σ) (init : σ) : Alg σ Nat where
  B := 64
  L := 56
  T := T
  init := init
  zero := 0
  inc := fun k n => (k + n) % 2 ^ 64
  low := fun k => k
  lenBytes := bytes64

/-- `ADDINC128` (ext/digest/sha2.c:146-151). -/
def addinc128 (w : Nat × Nat) (n : Nat) : Nat × Nat :=
  let w0 := (w.1 + n) % 2 ^ 64
  if w0 < n then (w0, (w.2 + 1) % 2 ^ 64) else (w0, w.2)

/-- SHA-384 and SHA-512 (ext/digest/sha2.c:1400-1501): blocks of 128 bytes, a counter of two 64-bit words, the low one first. -/
def sha512 {σ : Type} (T : σ → List Nat → σ) (init : σ) : Alg σ (Nat × Nat) where
  B := 128
  L := 112
  T := T
  init := init
  zero := (0, 0)
  inc := addinc128
  low := fun w => w.1
  lenBytes := fun w => bytes64 w.2 ++ bytes64 w.1

/-- `SHA_CTX` (ext/digest/sha2.h). -/
structure Ctx (σ κ : Type) where
  state : σ
  bitcount : κ
  buffer : List Nat

/-- `SHA1_Init` and the like: the buffer is cleared. -/
def shaInit {σ κ : Type} (a : Alg σ κ) : Ctx σ κ := ⟨a.init, a.zero, List.replicate a.B 0⟩

/-- The `while (len >= 64)` loop (ext/digest/sha2.c:1020-1026, 674-680, 1432-1438): the state, the counter and the data left. -/
def shaLoop {σ κ : Type} (a : Alg σ κ) (hB : 0 < a.B) (s : σ) (k : κ) (data : List Nat) : σ × κ × List Nat :=
  if a.B ≤ data.length then
    shaLoop a hB (a.T s (data.take a.B)) (a.inc k (8 * a.B)) (data.drop a.B)
  else (s, k, data)
termination_by data.length
decreasing_by simp only [List.length_drop]; omega

/-- From the loop to the end of `SHA256_Update`. -/
def shaRest {σ κ : Type} (a : Alg σ κ) (hB : 0 < a.B) (c : Ctx σ κ) (data : List Nat) : Ctx σ κ :=
  let r := shaLoop a hB c.state c.bitcount data
  if 0 < r.2.2.length then ⟨r.1, a.inc r.2.1 (8 * r.2.2.length), put c.buffer 0 r.2.2⟩
  else ⟨r.1, r.2.1, c.buffer⟩

/-- `SHA256_Update` (ext/digest/sha2.c:988-1034), `SHA1_Update` (642-688), `SHA512_Update` (1400-1446). -/
def shaUpdate {σ κ : Type} (a : Alg σ κ) (hB : 0 < a.B) (c : Ctx σ κ) (data : List Nat) : Ctx σ κ :=
  if data.length = 0 then c
  else
    let usedspace := (a.low c.bitcount >>> 3) % a.B
    if 0 < usedspace then
      let freespace := a.B - usedspace
      if freespace ≤ data.length then
        let buf := put c.buffer usedspace (data.take freespace)
        shaRest a hB ⟨a.T c.state buf, a.inc c.bitcount (8 * freespace), buf⟩ (data.drop freespace)
      else ⟨c.state, a.inc c.bitcount (8 * data.length), put c.buffer usedspace data⟩
    else shaRest a hB c data

/-- `SHA256_Internal_Last` (ext/digest/sha2.c:1036-1080), the same code in `SHA1_Final` (706-745) and `SHA512_Internal_Last` (1448-1501); the
result is the state, from which the digest is copied. -/
def shaFinal {σ κ : Type} (a : Alg σ κ) (c : Ctx σ κ) : σ :=
  let usedspace := (a.low c.bitcount >>> 3) % a.B
  let r : σ × List Nat :=
    if 0 < usedspace then
      let buf := put c.buffer usedspace [128]
      let used := usedspace + 1
      if used ≤ a.L then (c.state, clear buf used (a.L - used))
      else
        let buf := if used < a.B then clear buf used (a.B - used) else buf
        (a.T c.state buf, clear buf 0 a.L)
    else (c.state, put (clear c.buffer 0 a.L) 0 [128])
  a.T r.1 (put r.2 a.L (a.lenBytes c.bitcount))

/-- A digest of data given in pieces: `digest-update!` for each, then `digest-final!`. -/
def shaDigest {σ κ : Type} (a : Alg σ κ) (hB : 0 < a.B) (chunks : List (List Nat)) : σ :=
  shaFinal a (chunks.foldl (shaUpdate a hB) (shaInit a))

/-- `MD5_CTX` (ext/digest/md5.h); `in` is called `inb`. -/
structure Md5 (σ : Type) where
  buf : σ
  bits0 : Nat
  bits1 : Nat
  inb : List Nat

/-- `MD5_Init` (ext/digest/md5c.c:41-50).  The contents of `in` are arbitrary. -/
def md5Init {σ : Type} (init : σ) (inb : List Nat) : Md5 σ := ⟨init, 0, 0, inb⟩

/-- The loop of `MD5_Update` (ext/digest/md5c.c:87-93) and the `memcpy` after it (97). -/
def md5Loop {σ : Type} (T : σ → List Nat → σ) (s : σ) (inb : List Nat) (data : List Nat) : σ × List Nat :=
  if 64 ≤ data.length then
    md5Loop T (T s (put inb 0 (data.take 64))) (put inb 0 (data.take 64)) (data.drop 64)
  else (s, put inb 0 data)
termination_by data.length
decreasing_by simp only [List.length_drop]; omega

/-- `MD5_Update` (ext/digest/md5c.c:56-98).  The length is a parameter of type `unsigned`, of 32 bits. -/
def md5Update {σ : Type} (T : σ → List Nat → σ) (c : Md5 σ) (buf : List Nat) : Md5 σ :=
  let len := buf.length % 2 ^ 32
  let data := buf.take len
  let b0 := (c.bits0 + (len <<< 3) % 2 ^ 32) % 2 ^ 32
  let b1 := if b0 < c.bits0 then (c.bits1 + 1) % 2 ^ 32 else c.bits1
  let b1 := (b1 + len >>> 29) % 2 ^ 32
  let t := (c.bits0 >>> 3) % 64
  if t ≠ 0 then
    let free := 64 - t
    if len < free then ⟨c.buf, b0, b1, put c.inb t data⟩
    else
      let inb := put c.inb t (data.take free)
      let r := md5Loop T (T c.buf inb) inb (data.drop free)
      ⟨r.1, b0, b1, r.2⟩
  else
    let r := md5Loop T c.buf c.inb data
    ⟨r.1, b0, b1, r.2⟩

/-- The bytes of a 32-bit word in the order MD5 uses. -/
def le32 (k : Nat) : List Nat := [k % 256, (k >>> 8) % 256, (k >>> 16) % 256, (k >>> 24) % 256]

/-- `MD5_Final` (ext/digest/md5c.c:104-141); the result is the state, from which the digest is copied. -/
def md5Final {σ : Type} (T : σ → List Nat → σ) (c : Md5 σ) : σ :=
  let count := (c.bits0 >>> 3) % 64
  let inb := put c.inb count [128]
  let pad := 64 - 1 - count
  let r : σ × List Nat :=
    if pad < 8 then
      let inb := clear inb (count + 1) pad
      (T c.buf inb, clear inb 0 56)
    else (c.buf, clear inb (count + 1) (pad - 8))
  T r.1 (put (put r.2 56 (le32 c.bits0)) 60 (le32 c.bits1))

/-- An MD5 digest of data given in pieces. -/
def md5Digest {σ : Type} (T : σ → List Nat → σ) (init : σ) (inb : List Nat) (chunks : List (List Nat)) : σ :=
  md5Final T (chunks.foldl (md5Update T) (md5Init init inb))

end Gauche.Digest

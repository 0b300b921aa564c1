/-! Specification of the padding of message digests (RFC 1321 section 3, FIPS 180 section 5.1).  Bytes are natural numbers below 256. -/
namespace Gauche.Digest

/-- The number written in base 256 with the digits `bs`, the most significant first. -/
def beValue : List Nat → Nat
  | [] => 0
  | b :: bs => b * 256 ^ bs.length + beValue bs

/-- The number written in base 256 with the digits `bs`, the least significant first. -/
def leValue : List Nat → Nat
  | [] => 0
  | b :: bs => b + 256 * leValue bs

/-- `blocks` is the message `m`, a byte 128, zeros, and the length field, cut into blocks of `B` bytes, with less than `B` zeros. -/
def PaddedBlocks (B : Nat) (m field : List Nat) (blocks : List (List Nat)) : Prop :=
  (∀ b ∈ blocks, b.length = B) ∧
  ∃ k, k < B ∧ blocks.flatten = m ++ [128] ++ List.replicate k 0 ++ field

/-- A length field of `n` bytes, most significant byte first, that holds the number of bits of `m`. -/
def BeLength (n : Nat) (m field : List Nat) : Prop :=
  field.length = n ∧ (∀ b ∈ field, b < 256) ∧ beValue field = (8 * m.length) % 256 ^ n

/-- A length field of `n` bytes, least significant byte first, that holds the number of bits of `m`. -/
def LeLength (n : Nat) (m field : List Nat) : Prop :=
  field.length = n ∧ (∀ b ∈ field, b < 256) ∧ leValue field = (8 * m.length) % 256 ^ n

end Gauche.Digest

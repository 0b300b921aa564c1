/-!
# What UTF-8 is

The (original, RFC 2279) definition of UTF-8 in arithmetic form, independent of the code: a code below
0x80 is one byte, larger codes are a lead byte and one to five continuation bytes carrying six bits each.
-/

namespace Gauche.Spec.Utf8

/-- The codes UTF-8 can represent. -/
def IsCode (c : Nat) : Prop := c < 2 ^ 31

/-- The UTF-8 encoding of a code. -/
def encode (c : Nat) : List Nat :=
  if c < 0x80 then [c]
  else if c < 0x800 then [0xc0 + c / 64, 0x80 + c % 64]
  else if c < 0x10000 then [0xe0 + c / 4096, 0x80 + c / 64 % 64, 0x80 + c % 64]
  else if c < 0x200000 then
    [0xf0 + c / 262144, 0x80 + c / 4096 % 64, 0x80 + c / 64 % 64, 0x80 + c % 64]
  else if c < 0x4000000 then
    [0xf8 + c / 16777216, 0x80 + c / 262144 % 64, 0x80 + c / 4096 % 64, 0x80 + c / 64 % 64,
      0x80 + c % 64]
  else
    [0xfc + c / 1073741824, 0x80 + c / 16777216 % 64, 0x80 + c / 262144 % 64, 0x80 + c / 4096 % 64,
      0x80 + c / 64 % 64, 0x80 + c % 64]

/-- The encoding of a sequence of codes. -/
def encodeAll (cs : List Nat) : List Nat := cs.flatMap encode

/-- `m` (a memory: offset to byte) holds the bytes `l` from offset 0. -/
def Holds (m : Nat → Nat) (l : List Nat) : Prop := ∀ i (h : i < l.length), m i = l[i]

end Gauche.Spec.Utf8

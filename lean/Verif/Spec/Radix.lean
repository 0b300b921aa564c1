/-
What base 2^k encodings are (RFC 4648), without reference to the code: the bytes are one big-endian number, which
is written in base 2^k; and the text conventions (padding, line breaks, ignored characters).
-/
namespace Gauche.Radix

/-- The number a big-endian digit list denotes. -/
def ofBE (B : Nat) (ds : List Nat) : Nat := ds.foldl (fun a d => a * B + d) 0

/-- The `n` lowest base `B` digits of `x`, big-endian. -/
def toBE (B : Nat) : Nat → Nat → List Nat
  | 0, _ => []
  | n + 1, x => x / B ^ n % B :: toBE B n x

/-- Number of `k`-bit digits needed for `n` bytes. -/
def encLen (k n : Nat) : Nat := (8 * n + k - 1) / k

/-- The `k`-bit digits of a byte sequence: the number, shifted left to a multiple of `k` bits. -/
def encDigits (k : Nat) (bytes : List Nat) : List Nat :=
  toBE (2 ^ k) (encLen k bytes.length) (ofBE 256 bytes * 2 ^ (k * encLen k bytes.length - 8 * bytes.length))

/-- The complete bytes in a sequence of `k`-bit digits; incomplete trailing bits are dropped. -/
def decBytes (k : Nat) (ds : List Nat) : List Nat :=
  toBE 256 (k * ds.length / 8) (ofBE (2 ^ k) ds / 2 ^ (k * ds.length % 8))

/-- Number of padding characters after `n` digits, for groups of `per` digits. -/
def padLen (per n : Nat) : Nat := (per - n % per) % per

/-- Is there a line break after the character number `i` (from 0), for a given line width? -/
def breakAfter (lineWidth : Option Int) (i : Nat) : Bool :=
  match lineWidth with
  | some w => decide (0 < w ∧ ((i : Int) + 1) % w = 0)
  | none => false

/-- The text with line breaks, when `i` characters were written before. -/
def foldLines (lineWidth : Option Int) (i : Nat) : List Nat → List Nat
  | [] => []
  | c :: cs => if breakAfter lineWidth i then c :: 10 :: foldLines lineWidth (i + 1) cs
               else c :: foldLines lineWidth (i + 1) cs

/-- The digits in a text up to the first character that stops the decoder. -/
def digitsOf (digit : Nat → Option Nat) (stop : Nat → Bool) (s : List Nat) : List Nat :=
  (s.takeWhile (fun c => !stop c)).filterMap digit

/-- The alphabet of RFC 4648 base64, with the two last characters as parameters. -/
def char64 (c62 c63 : Nat) (x : Nat) : Nat :=
  if x < 26 then 65 + x else if x < 52 then 97 + (x - 26) else if x < 62 then 48 + (x - 52)
  else if x = 62 then c62 else c63

/-- The value of a base64 character; `extra` tells which further characters are accepted. -/
def value64 (c62 c63 : Nat) (extra : Nat → Option Nat) (c : Nat) : Option Nat :=
  if 65 ≤ c ∧ c ≤ 90 then some (c - 65) else if 97 ≤ c ∧ c ≤ 122 then some (c - 97 + 26)
  else if 48 ≤ c ∧ c ≤ 57 then some (c - 48 + 52)
  else if c = c63 then some 63 else if c = c62 then some 62 else extra c

/-- The base32 alphabet of RFC 4648. -/
def char32 (x : Nat) : Nat := if x < 26 then 65 + x else 50 + (x - 26)
/-- The value of a base32 character. -/
def value32 (c : Nat) : Option Nat :=
  if 65 ≤ c ∧ c ≤ 90 then some (c - 65) else if 50 ≤ c ∧ c ≤ 55 then some (c - 50 + 26) else none
/-- The base32hex alphabet of RFC 4648. -/
def char32hex (x : Nat) : Nat := if x < 10 then 48 + x else 65 + (x - 10)
/-- The value of a base32hex character. -/
def value32hex (c : Nat) : Option Nat :=
  if 48 ≤ c ∧ c ≤ 57 then some (c - 48) else if 65 ≤ c ∧ c ≤ 86 then some (c - 65 + 10) else none
/-- The base16 alphabet, in upper or lower case. -/
def char16 (lower : Bool) (x : Nat) : Nat := if x < 10 then 48 + x else (if lower then 97 else 65) + (x - 10)
/-- The value of a base16 character; `lax`: lower case letters are accepted. -/
def value16 (lax : Bool) (c : Nat) : Option Nat :=
  if 48 ≤ c ∧ c ≤ 57 then some (c - 48) else if 65 ≤ c ∧ c ≤ 70 then some (c - 65 + 10)
  else if lax ∧ 97 ≤ c ∧ c ≤ 102 then some (c - 97 + 10) else none

/-- How a decoder ends. -/
inductive End where
  | ok | invalid (c : Nat) | premature
deriving DecidableEq, Repr

/-- What a decoder should do with a text: `digit` gives the value of a character, `isPad` tells the padding character,
`ws` the characters a strict decoder ignores; a lax decoder ignores everything that is not a digit.  `per` is the
number of digits in a group. -/
def decodeText (k per : Nat) (digit : Nat → Option Nat) (isPad ws : Nat → Bool) (strict : Bool) (s : List Nat) :
    List Nat × End :=
  let stop := fun c => isPad c || ((digit c).isNone && strict && !ws c)
  let ds := digitsOf digit stop s
  (decBytes k ds,
   match s.find? stop with
   | some c => if isPad c then .ok else .invalid c
   | none => if strict && ds.length % per != 0 then .premature else .ok)

/-- What an encoder should write. -/
def encodeText (k per : Nat) (char : Nat → Nat) (lineWidth : Option Int) (omitPadding : Bool) (bytes : List Nat) :
    List Nat :=
  foldLines lineWidth 0 ((encDigits k bytes).map char ++
    if omitPadding then [] else List.replicate (padLen per (encLen k bytes.length)) 61)

end Gauche.Radix

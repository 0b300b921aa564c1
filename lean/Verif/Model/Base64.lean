/-
Model of lib/rfc/base64.scm: base64, base32, base32hex and base16 encoders and decoders.

Characters are code points, bytes are natural numbers below 256.  The input port is a list, the output is the
list of what is written.  `ash` and `logand` are shifts and masks of natural numbers.
-/
namespace Gauche.Base64

/-- lib/rfc/base64.scm:86-99 `*standard-decode-table*`. -/
def standardDecode : List (Option Nat) :=
  [none, none, none, none, none, none, none, none, none, none, none, some 62, none, none, none, some 63,
   some 52, some 53, some 54, some 55, some 56, some 57, some 58, some 59, some 60, some 61, none, none, none, none, none, none,
   none, some 0, some 1, some 2, some 3, some 4, some 5, some 6, some 7, some 8, some 9, some 10, some 11, some 12, some 13, some 14,
   some 15, some 16, some 17, some 18, some 19, some 20, some 21, some 22, some 23, some 24, some 25, none, none, none, none, none,
   none, some 26, some 27, some 28, some 29, some 30, some 31, some 32, some 33, some 34, some 35, some 36, some 37, some 38, some 39, some 40,
   some 41, some 42, some 43, some 44, some 45, some 46, some 47, some 48, some 49, some 50, some 51, none, none, none, none, none]

/-- lib/rfc/base64.scm:101-112 `*standard-encode-table*` (character codes). -/
def standardEncode : List Nat :=
  [65, 66, 67, 68, 69, 70, 71, 72, 73, 74, 75, 76, 77, 78, 79, 80,
   81, 82, 83, 84, 85, 86, 87, 88, 89, 90, 97, 98, 99, 100, 101, 102,
   103, 104, 105, 106, 107, 108, 109, 110, 111, 112, 113, 114, 115, 116, 117, 118,
   119, 120, 121, 122, 48, 49, 50, 51, 52, 53, 54, 55, 56, 57, 43, 47,
   61]

/-- lib/rfc/base64.scm:114-127 `*url-safe-decode-table*`. -/
def urlSafeDecode : List (Option Nat) :=
  [none, none, none, none, none, none, none, none, none, none, none, none, none, some 62, none, none,
   some 52, some 53, some 54, some 55, some 56, some 57, some 58, some 59, some 60, some 61, none, none, none, none, none, none,
   none, some 0, some 1, some 2, some 3, some 4, some 5, some 6, some 7, some 8, some 9, some 10, some 11, some 12, some 13, some 14,
   some 15, some 16, some 17, some 18, some 19, some 20, some 21, some 22, some 23, some 24, some 25, none, none, none, none, some 63,
   none, some 26, some 27, some 28, some 29, some 30, some 31, some 32, some 33, some 34, some 35, some 36, some 37, some 38, some 39, some 40,
   some 41, some 42, some 43, some 44, some 45, some 46, some 47, some 48, some 49, some 50, some 51, none, none, none, none, none]

/-- lib/rfc/base64.scm:129-140 `*url-safe-encode-table*` (character codes). -/
def urlSafeEncode : List Nat :=
  [65, 66, 67, 68, 69, 70, 71, 72, 73, 74, 75, 76, 77, 78, 79, 80,
   81, 82, 83, 84, 85, 86, 87, 88, 89, 90, 97, 98, 99, 100, 101, 102,
   103, 104, 105, 106, 107, 108, 109, 110, 111, 112, 113, 114, 115, 116, 117, 118,
   119, 120, 121, 122, 48, 49, 50, 51, 52, 53, 54, 55, 56, 57, 45, 95,
   61]

/-- lib/rfc/base64.scm:305-318 `*base32-decode-table*`. -/
def base32Decode : List (Option Nat) :=
  [none, none, none, none, none, none, none, none, none, none, none, none, none, none, none, none,
   none, none, some 26, some 27, some 28, some 29, some 30, some 31, none, none, none, none, none, none, none, none,
   none, some 0, some 1, some 2, some 3, some 4, some 5, some 6, some 7, some 8, some 9, some 10, some 11, some 12, some 13, some 14,
   some 15, some 16, some 17, some 18, some 19, some 20, some 21, some 22, some 23, some 24, some 25, none, none, none, none, none,
   none, none, none, none, none, none, none, none, none, none, none, none, none, none, none, none,
   none, none, none, none, none, none, none, none, none, none, none, none, none, none, none, none]

/-- lib/rfc/base64.scm:320-327 `*base32-encode-table*` (character codes). -/
def base32Encode : List Nat :=
  [65, 66, 67, 68, 69, 70, 71, 72, 73, 74, 75, 76, 77, 78, 79, 80,
   81, 82, 83, 84, 85, 86, 87, 88, 89, 90, 50, 51, 52, 53, 54, 55,
   61]

/-- lib/rfc/base64.scm:329-342 `*base32hex-decode-table*`. -/
def base32hexDecode : List (Option Nat) :=
  [none, none, none, none, none, none, none, none, none, none, none, none, none, none, none, none,
   some 0, some 1, some 2, some 3, some 4, some 5, some 6, some 7, some 8, some 9, none, none, none, none, none, none,
   none, some 10, some 11, some 12, some 13, some 14, some 15, some 16, some 17, some 18, some 19, some 20, some 21, some 22, some 23, some 24,
   some 25, some 26, some 27, some 28, some 29, some 30, some 31, none, none, none, none, none, none, none, none, none,
   none, none, none, none, none, none, none, none, none, none, none, none, none, none, none, none,
   none, none, none, none, none, none, none, none, none, none, none, none, none, none, none, none]

/-- lib/rfc/base64.scm:344-351 `*base32hex-encode-table*` (character codes). -/
def base32hexEncode : List Nat :=
  [48, 49, 50, 51, 52, 53, 54, 55, 56, 57, 65, 66, 67, 68, 69, 70,
   71, 72, 73, 74, 75, 76, 77, 78, 79, 80, 81, 82, 83, 84, 85, 86,
   61]

/-- lib/rfc/base64.scm:510-523 `*base16-decode-table*`. -/
def base16Decode : List (Option Nat) :=
  [none, none, none, none, none, none, none, none, none, none, none, none, none, none, none, none,
   some 0, some 1, some 2, some 3, some 4, some 5, some 6, some 7, some 8, some 9, none, none, none, none, none, none,
   none, some 10, some 11, some 12, some 13, some 14, some 15, none, none, none, none, none, none, none, none, none,
   none, none, none, none, none, none, none, none, none, none, none, none, none, none, none, none,
   none, none, none, none, none, none, none, none, none, none, none, none, none, none, none, none,
   none, none, none, none, none, none, none, none, none, none, none, none, none, none, none, none]

/-- lib/rfc/base64.scm:524-537 `*base16lax-decode-table*`. -/
def base16laxDecode : List (Option Nat) :=
  [none, none, none, none, none, none, none, none, none, none, none, none, none, none, none, none,
   some 0, some 1, some 2, some 3, some 4, some 5, some 6, some 7, some 8, some 9, none, none, none, none, none, none,
   none, some 10, some 11, some 12, some 13, some 14, some 15, none, none, none, none, none, none, none, none, none,
   none, none, none, none, none, none, none, none, none, none, none, none, none, none, none, none,
   none, some 10, some 11, some 12, some 13, some 14, some 15, none, none, none, none, none, none, none, none, none,
   none, none, none, none, none, none, none, none, none, none, none, none, none, none, none, none]

/-- lib/rfc/base64.scm:539-541 `*base16-encode-table*` (character codes). -/
def base16Encode : List Nat :=
  [48, 49, 50, 51, 52, 53, 54, 55, 56, 57, 65, 66, 67, 68, 69, 70]

/-- lib/rfc/base64.scm:542-544 `*base16lc-encode-table*` (character codes). -/
def base16lcEncode : List Nat :=
  [48, 49, 50, 51, 52, 53, 54, 55, 56, 57, 97, 98, 99, 100, 101, 102]

/-- How a decoder ends: normally, with one of its errors, or never. -/
inductive Res where
  | done | invalid (c : Nat) | premature | diverges
deriving DecidableEq, Repr

/-- `#\=` -/
def eqSign : Nat := 61
/-- The character written by `newline`. -/
def newline : Nat := 10

/-- The macro `lookup` of the decoders; lib/rfc/base64.scm:198-202, :356-360, :552-556. -/
def lookup (table : List (Option Nat)) (c : Nat) : Option Nat :=
  if 32 < c ∧ c < 128 then table.getD (c - 32) none else none

/-- Settings of a decoder: its table, the keyword `strict`, and `char-whitespace?`. -/
structure Dec where
  table : List (Option Nat)
  strict : Bool
  ws : Nat → Bool

/-- The test `(and strict (not (char-whitespace? c)))` of the macro `state`. -/
def Dec.rejects (d : Dec) (c : Nat) : Bool := d.strict && !d.ws c

/-- `(premature)` when `strict`, otherwise the normal end. -/
def Dec.eof (d : Dec) : Res := if d.strict then .premature else .done

/-- Write one byte before the rest of the output. -/
def emit (b : Nat) (r : List Nat × Res) : List Nat × Res := (b :: r.1, r.2)

/-! ### base64 decoder; lib/rfc/base64.scm:192-233 `base64-decode` -/

mutual
/-- State `d0`; lib/rfc/base64.scm:212-213. -/
def d0 (d : Dec) : List Nat → List Nat × Res
  | [] => ([], .done)
  | c :: cs => if c = eqSign then ([], .done) else match lookup d.table c with
    | some c0 => d1 d c0 cs
    | none => if d.rejects c then ([], .invalid c) else d0 d cs
/-- State `d1`; lib/rfc/base64.scm:214-219. -/
def d1 (d : Dec) (c0 : Nat) : List Nat → List Nat × Res
  | [] => ([], d.eof)
  | c :: cs => if c = eqSign then ([], .done) else match lookup d.table c with
    | some c1 => emit ((c0 <<< 2) + (c1 >>> 4)) (d2 d (c1 &&& 0x0f) cs)
    | none => if d.rejects c then ([], .invalid c) else d1 d c0 cs
/-- State `d2`; lib/rfc/base64.scm:220-225. -/
def d2 (d : Dec) (c1 : Nat) : List Nat → List Nat × Res
  | [] => ([], d.eof)
  | c :: cs => if c = eqSign then ([], .done) else match lookup d.table c with
    | some c2 => emit ((c1 <<< 4) + (c2 >>> 2)) (d3 d (c2 &&& 0x03) cs)
    | none => if d.rejects c then ([], .invalid c) else d2 d c1 cs
/-- State `d3`; lib/rfc/base64.scm:226-231. -/
def d3 (d : Dec) (c2 : Nat) : List Nat → List Nat × Res
  | [] => ([], d.eof)
  | c :: cs => if c = eqSign then ([], .done) else match lookup d.table c with
    | some c3 => emit ((c2 <<< 6) + c3) (d0 d cs)
    | none => if d.rejects c then ([], .invalid c) else d3 d c2 cs
end

/-! ### base64 encoder; lib/rfc/base64.scm:244-287 `base64-encode` -/

/-- Settings of an encoder: its table (the padding character is the last element), the keyword `omit-padding`,
and `maxcol` (one less than the line width, or `#f`); lib/rfc/base64.scm:249, :424. -/
structure Enc where
  table : List Nat
  omitPadding : Bool
  maxcol : Option Nat

/-- `(and line-width (> line-width 0) (- line-width 1))`; lib/rfc/base64.scm:249, :424. -/
def maxcolOf (lineWidth : Option Int) : Option Nat :=
  match lineWidth with
  | some w => if w > 0 then some (w - 1).toNat else none
  | none => none

/-- One step of the macro `emit*`: the characters written and the new column; lib/rfc/base64.scm:251-258, :426-433. -/
def emit1 (e : Enc) (col idx : Nat) : List Nat × Nat :=
  if some col = e.maxcol then ([e.table.getD idx 0, newline], 0) else ([e.table.getD idx 0], col + 1)

/-- The macro `emit*`. -/
def emits (e : Enc) (col : Nat) : List Nat → List Nat × Nat
  | [] => ([], col)
  | i :: is =>
    let r := emit1 e col i
    let rs := emits e r.2 is
    (r.1 ++ rs.1, rs.2)

mutual
/-- lib/rfc/base64.scm:262-265 `e0`. -/
def e0 (e : Enc) (col : Nat) : List Nat → List Nat
  | [] => []
  | b0 :: bs => let r := emits e col [b0 >>> 2]
                r.1 ++ e1 e (b0 &&& 0x03) r.2 bs
/-- lib/rfc/base64.scm:269-275 `e1`. -/
def e1 (e : Enc) (b0 col : Nat) : List Nat → List Nat
  | [] => let r := emits e col [b0 <<< 4]
          r.1 ++ if e.omitPadding then [] else (emits e r.2 [64, 64]).1
  | b1 :: bs => let r := emits e col [(b0 <<< 4) + (b1 >>> 4)]
                r.1 ++ e2 e (b1 &&& 0x0f) r.2 bs
/-- lib/rfc/base64.scm:279-285 `e2`. -/
def e2 (e : Enc) (b1 col : Nat) : List Nat → List Nat
  | [] => let r := emits e col [b1 <<< 2]
          r.1 ++ if e.omitPadding then [] else (emits e r.2 [64]).1
  | b2 :: bs => let r := emits e col [(b1 <<< 2) + (b2 >>> 6), b2 &&& 0x3f]
                r.1 ++ e0 e r.2 bs
end

/-! ### Tables for the keyword `digits` -/

/-- lib/rfc/base64.scm:151-153 `%valid-digit?`. -/
def validDigit (c : Nat) : Bool :=
  c < 128 && !(decide (65 ≤ c ∧ c ≤ 90) || decide (97 ≤ c ∧ c ≤ 122) || decide (48 ≤ c ∧ c ≤ 57) || c == 61)

/-- lib/rfc/base64.scm:155-170 `%digits->decode-table` (the tables already made are memoized there); `none` is an error
(invalid digit, or a negative index for a control character). -/
def digitsDecode (g0 g1 : Nat) : Option (List (Option Nat)) :=
  if validDigit g0 && validDigit g1 then
    if g0 = 43 ∧ g1 = 47 then some standardDecode
    else if g0 = 45 ∧ g1 = 95 then some urlSafeDecode
    else if g0 < 32 ∨ g1 < 32 then none
    else some ((standardDecode.set (g0 - 32) (some 62)).set (g1 - 32) (some 63))
  else none

/-- lib/rfc/base64.scm:175-190 `%digits->encode-table`. -/
def digitsEncode (g0 g1 : Nat) : Option (List Nat) :=
  if validDigit g0 && validDigit g1 then
    if g0 = 43 ∧ g1 = 47 then some standardEncode
    else if g0 = 45 ∧ g1 = 95 then some urlSafeEncode
    else some ((standardEncode.set 62 g0).set 63 g1)
  else none

/-- The keywords `url-safe` and `digits`: which alphabet. -/
inductive Alphabet where
  | standard | urlSafe | digits (g0 g1 : Nat)
deriving DecidableEq, Repr

/-- lib/rfc/base64.scm:193-195. -/
def decodeTable : Alphabet → Option (List (Option Nat))
  | .standard => some standardDecode
  | .urlSafe => some urlSafeDecode
  | .digits g0 g1 => digitsDecode g0 g1
/-- lib/rfc/base64.scm:246-248. -/
def encodeTable : Alphabet → Option (List Nat)
  | .standard => some standardEncode
  | .urlSafe => some urlSafeEncode
  | .digits g0 g1 => digitsEncode g0 g1

/-- lib/rfc/base64.scm:192-233 `base64-decode`; `none` if the keyword `digits` is rejected. -/
def base64Decode (ws : Nat → Bool) (al : Alphabet) (strict : Bool) (input : List Nat) : Option (List Nat × Res) :=
  (decodeTable al).map (fun t => d0 ⟨t, strict, ws⟩ input)
/-- lib/rfc/base64.scm:244-287 `base64-encode`. -/
def base64Encode (al : Alphabet) (lineWidth : Option Int) (omitPadding : Bool) (bytes : List Nat) : Option (List Nat) :=
  (encodeTable al).map (fun t => e0 ⟨t, omitPadding, maxcolOf lineWidth⟩ 0 bytes)

/-! ### base32; lib/rfc/base64.scm:353-411 `%base32-decode` -/

mutual
/-- State `d0`; lib/rfc/base64.scm:370-371. -/
def f0 (d : Dec) : List Nat → List Nat × Res
  | [] => ([], .done)
  | c :: cs => if c = eqSign then ([], .done) else match lookup d.table c with
    | some c0 => f1 d c0 cs
    | none => if d.rejects c then ([], .invalid c) else f0 d cs
/-- State `d1`; lib/rfc/base64.scm:372-377. -/
def f1 (d : Dec) (c0 : Nat) : List Nat → List Nat × Res
  | [] => ([], d.eof)
  | c :: cs => if c = eqSign then ([], .done) else match lookup d.table c with
    | some c1 => emit ((c0 <<< 3) + (c1 >>> 2)) (f2 d (c1 &&& 0x03) cs)
    | none => if d.rejects c then ([], .invalid c) else f1 d c0 cs
/-- State `d2`; lib/rfc/base64.scm:378-381. -/
def f2 (d : Dec) (c1 : Nat) : List Nat → List Nat × Res
  | [] => ([], d.eof)
  | c :: cs => if c = eqSign then ([], .done) else match lookup d.table c with
    | some c2 => f3 d c1 c2 cs
    | none => if d.rejects c then ([], .invalid c) else f2 d c1 cs
/-- State `d3`; lib/rfc/base64.scm:382-387. -/
def f3 (d : Dec) (c1 c2 : Nat) : List Nat → List Nat × Res
  | [] => ([], d.eof)
  | c :: cs => if c = eqSign then ([], .done) else match lookup d.table c with
    | some c3 => emit ((c1 <<< 6) + (c2 <<< 1) + (c3 >>> 4)) (f4 d (c3 &&& 0x0f) cs)
    | none => if d.rejects c then ([], .invalid c) else f3 d c1 c2 cs
/-- State `d4`; lib/rfc/base64.scm:388-393. -/
def f4 (d : Dec) (c3 : Nat) : List Nat → List Nat × Res
  | [] => ([], d.eof)
  | c :: cs => if c = eqSign then ([], .done) else match lookup d.table c with
    | some c4 => emit ((c3 <<< 4) + (c4 >>> 1)) (f5 d (c4 &&& 0x01) cs)
    | none => if d.rejects c then ([], .invalid c) else f4 d c3 cs
/-- State `d5`; lib/rfc/base64.scm:394-397. -/
def f5 (d : Dec) (c4 : Nat) : List Nat → List Nat × Res
  | [] => ([], d.eof)
  | c :: cs => if c = eqSign then ([], .done) else match lookup d.table c with
    | some c5 => f6 d c4 c5 cs
    | none => if d.rejects c then ([], .invalid c) else f5 d c4 cs
/-- State `d6`; lib/rfc/base64.scm:398-403. -/
def f6 (d : Dec) (c4 c5 : Nat) : List Nat → List Nat × Res
  | [] => ([], d.eof)
  | c :: cs => if c = eqSign then ([], .done) else match lookup d.table c with
    | some c6 => emit ((c4 <<< 7) + (c5 <<< 2) + (c6 >>> 3)) (f7 d (c6 &&& 0x07) cs)
    | none => if d.rejects c then ([], .invalid c) else f6 d c4 c5 cs
/-- State `d7`; lib/rfc/base64.scm:404-409.  To skip a character it calls `(d7 c c6)` with the same character: an
endless loop. -/
def f7 (d : Dec) (c6 : Nat) : List Nat → List Nat × Res
  | [] => ([], d.eof)
  | c :: cs => if c = eqSign then ([], .done) else match lookup d.table c with
    | some c7 => emit ((c6 <<< 5) + c7) (f0 d cs)
    | none => if d.rejects c then ([], .invalid c) else ([], .diverges)
end

mutual
/-- lib/rfc/base64.scm:438-441 `e0`. -/
def g0 (e : Enc) (col : Nat) : List Nat → List Nat
  | [] => []
  | b0 :: bs => let r := emits e col [b0 >>> 3]
                r.1 ++ g1 e (b0 &&& 0x07) r.2 bs
/-- lib/rfc/base64.scm:445-453 `e1`. -/
def g1 (e : Enc) (b0 col : Nat) : List Nat → List Nat
  | [] => let r := emits e col [b0 <<< 2]
          r.1 ++ if e.omitPadding then [] else (emits e r.2 [32, 32, 32, 32, 32, 32]).1
  | b1 :: bs => let r := emits e col [(b0 <<< 2) + (b1 >>> 6), (b1 >>> 1) &&& 0x1f]
                r.1 ++ g2 e (b1 &&& 0x01) r.2 bs
/-- lib/rfc/base64.scm:457-463 `e2`. -/
def g2 (e : Enc) (b1 col : Nat) : List Nat → List Nat
  | [] => let r := emits e col [b1 <<< 4]
          r.1 ++ if e.omitPadding then [] else (emits e r.2 [32, 32, 32, 32]).1
  | b2 :: bs => let r := emits e col [(b1 <<< 4) + (b2 >>> 4)]
                r.1 ++ g3 e (b2 &&& 0x0f) r.2 bs
/-- lib/rfc/base64.scm:467-474 `e3`. -/
def g3 (e : Enc) (b2 col : Nat) : List Nat → List Nat
  | [] => let r := emits e col [b2 <<< 1]
          r.1 ++ if e.omitPadding then [] else (emits e r.2 [32, 32, 32]).1
  | b3 :: bs => let r := emits e col [(b2 <<< 1) + (b3 >>> 7), (b3 >>> 2) &&& 0x1f]
                r.1 ++ g4 e (b3 &&& 0x03) r.2 bs
/-- lib/rfc/base64.scm:478-484 `e4`. -/
def g4 (e : Enc) (b3 col : Nat) : List Nat → List Nat
  | [] => let r := emits e col [b3 <<< 3]
          r.1 ++ if e.omitPadding then [] else (emits e r.2 [32]).1
  | b4 :: bs => let r := emits e col [(b3 <<< 3) + (b4 >>> 5), b4 &&& 0x1f]
                r.1 ++ g0 e r.2 bs
end

/-- The alphabets of base32: base32 or base32hex. -/
inductive Alphabet32 where
  | plain | hex
deriving DecidableEq, Repr

/-- lib/rfc/base64.scm `base32-decode`, `base32hex-decode`. lib/rfc/base64.scm:413-416. -/
def base32DecodeWith (ws : Nat → Bool) (al : Alphabet32) (strict : Bool) (input : List Nat) : List Nat × Res :=
  f0 ⟨match al with
      | .plain => base32Decode
      | .hex => base32hexDecode, strict, ws⟩ input
/-- lib/rfc/base64.scm `base32-encode`, `base32hex-encode`. lib/rfc/base64.scm:488-491. -/
def base32EncodeWith (al : Alphabet32) (lineWidth : Option Int) (omitPadding : Bool) (bytes : List Nat) : List Nat :=
  g0 ⟨match al with
      | .plain => base32Encode
      | .hex => base32hexEncode, omitPadding, maxcolOf lineWidth⟩ 0 bytes

/-! ### base16; `base16-decode` -/

mutual
/-- State `d0` of `base16-decode`. lib/rfc/base64.scm:563-564. -/
def h0 (d : Dec) : List Nat → List Nat × Res
  | [] => ([], .done)
  | c :: cs => match lookup d.table c with
    | some b0 => h1 d b0 cs
    | none => if d.rejects c then ([], .invalid c) else h0 d cs
/-- State `d1` of `base16-decode`. lib/rfc/base64.scm:565-568. -/
def h1 (d : Dec) (b0 : Nat) : List Nat → List Nat × Res
  | [] => ([], d.eof)
  | c :: cs => match lookup d.table c with
    | some b1 => emit ((b0 <<< 4) + b1) (h0 d cs)
    | none => if d.rejects c then ([], .invalid c) else h1 d b0 cs
end

/-- lib/rfc/base64.scm `base16-decode`. lib/rfc/base64.scm:547-569. -/
def base16DecodeWith (ws : Nat → Bool) (strict : Bool) (input : List Nat) : List Nat × Res :=
  h0 ⟨if strict then base16Decode else base16laxDecode, strict, ws⟩ input
/-- lib/rfc/base64.scm `base16-encode`. lib/rfc/base64.scm:574-579. -/
def base16EncodeWith (lowercase : Bool) (bytes : List Nat) : List Nat :=
  bytes.flatMap (fun b =>
    [(if lowercase then base16lcEncode else base16Encode).getD (b >>> 4) 0,
     (if lowercase then base16lcEncode else base16Encode).getD (b &&& 0x0f) 0])

end Gauche.Base64

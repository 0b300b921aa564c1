import Verif.Model.Rational
/-
Model of the text representation of exact numbers: `number->string` (`print_number` of src/number.c and
`Scm_BignumToString`) and the exact part of the number parser of src/number.c.

A string is a list of characters; the C code works on the bytes and rejects every string with a non-ASCII character first.
Modelled: prefixes, signs, integers, rationals, `_` separators, the reader's tables.  Not modelled (the result is `other`):
decimal points, exponents, `#` padding, infinities and NaN, complex numbers, and every text read as an inexact number.
-/
namespace Gauche.NumText
open Gauche.Bignum Gauche.Integer Gauche.Rational

/-! ### printing -/

/-- The digit character of src/number.c:4383-4461 `print_number` (`(c<10)?(c+'0'):(use_upper?(c-10+'A'):(c-10+'a'))`). -/
def digitChar (upper : Bool) (c : Nat) : Char :=
  if c < 10 then Char.ofNat (c + 48) else if upper then Char.ofNat (c - 10 + 65) else Char.ofNat (c - 10 + 97)

/-- The digit loop of src/number.c:4383-4461 `print_number` for fixnums: `i` is the number of places left in `buf` (FLT_BUF = 65), the
buffer is filled from its end. -/
def fixDigits (base : Nat) (upper : Bool) : Nat → Nat → List Char → List Char
  | 0, _, acc => acc
  | i + 1, value, acc =>
    if value > 0 then fixDigits base upper i (value / base) (digitChar upper (value % base) :: acc) else acc

/-- Formatting flags (SCM_NUMBER_FORMAT_USE_UPPER, _SHOW_PLUS, _ALT_RADIX). -/
structure Flags where
  upper : Bool
  plus : Bool
  radix : Bool
deriving DecidableEq, Repr

/-- The branches for fixnums and bignums of src/number.c:4383-4461 `print_number`, without the radix prefix. -/
def printInt (base : Nat) (upper plus : Bool) : Num → Option (List Char)
  | .fix n =>
    let sign := if n < 0 then ['-'] else if plus then ['+'] else []
    if n = 0 then some (sign ++ ['0'])
    else some (sign ++ fixDigits base upper 65 n.natAbs [])
  | .big b =>
    (bignumToString b base upper).map fun s => (if plus && decide (0 ≤ scmSign (.big b)) then ['+'] else []) ++ s

/-- src/number.c:4354-4369 `print_radix_prefix`. -/
def radixPrefix (base : Nat) : List Char :=
  if base = 2 then ['#', 'b'] else if base = 8 then ['#', 'o'] else if base = 10 then ['#', 'd']
  else if base = 16 then ['#', 'x'] else ['#'] ++ fixDigits 10 false 65 base [] ++ ['r']

/-- src/number.c:4383-4461 `print_number`, exact numbers, without SCM_NUMBER_FORMAT_EXACT_DECIMAL_POINT. -/
def printNumber (base : Nat) (f : Flags) (x : Q) : Option (List Char) :=
  let pre := if f.radix then radixPrefix base else []
  match x with
  | .int n => (printInt base f.upper f.plus n).map (pre ++ ·)
  | .rat n d =>
    (printInt base f.upper f.plus n).bind fun sn =>
      (printInt base f.upper false d).map fun sd => pre ++ sn ++ ['/'] ++ sd

/-- src/number.c:4499-4510 `Scm_NumberToString`; `none` is the error for a bad base. -/
def numberToString (x : Q) (base : Nat) (f : Flags) : Option (List Char) :=
  if base < 2 ∨ base > 36 then none else printNumber base f x

/-! ### the tables of the reader -/

/-- Rounding of `a / b` to 53 bits, to nearest, ties to even (the double division and subtraction in `Scm__InitNumber`; `a / b` is at least 2^53). -/
def rnd53 (a b : Nat) : Nat :=
  let u := 2 ^ (Nat.log2 (a / b) - 52)
  let q := a / (b * u)
  let m := a % (b * u)
  if 2 * m > b * u ∨ (2 * m = b * u ∧ q % 2 = 1) then (q + 1) * u else q * u

/-- `longlimit` (src/number.c:5473-5542 `Scm__InitNumber`): `(u_long)floor((double)LONG_MAX/radix - radix)`; `(double)LONG_MAX` is 2^63, and
all the intermediate values are integers. -/
def longlimit (radix : Nat) : Nat := rnd53 (rnd53 9223372036854775808 radix - radix) 1

/-- The loop of src/number.c:5473-5542 `Scm__InitNumber`: the first `i` and `n = radix^i` with `n >= LONG_MAX/radix`; 64 rounds are enough. -/
def tabLoop (radix : Nat) : Nat → Nat → Nat → Nat × Nat
  | 0, i, n => (i, n)
  | fuel + 1, i, n => if n ≥ 9223372036854775807 / radix then (i, n) else tabLoop radix fuel (i + 1) (n * radix % W64)
/-- `longdigs` (src/number.c:5473-5542 `Scm__InitNumber`). -/
def longdigs (radix : Nat) : Nat := (tabLoop radix 64 0 1).1 - 1
/-- `bigdig` (src/number.c:5473-5542 `Scm__InitNumber`). -/
def bigdig (radix : Nat) : Nat := (tabLoop radix 64 0 1).2

/-! ### the reader -/

/-- The digit table of src/number.c:4612-4710 `read_uint`. -/
def tab : List Char := "0123456789abcdefghijklmnopqrstuvwxyz".toList

/-- The search in the digit table in src/number.c:4612-4710 `read_uint`. -/
def digval (radix : Nat) (c : Char) : Option Nat := (tab.take radix).idxOf? c

/-- What src/number.c:4612-4710 `read_uint` does: `bad` is #f (with or without a message), `pad` is a `#` that the caller handles. -/
inductive RU where
  | bad
  | pad
  | ok (n : Num) (rest : List Char)
deriving DecidableEq, Repr

/-- `value_big`/`value_int`/`digits` of src/number.c:4612-4710 `read_uint`. -/
structure Acc where
  big : Option (List Nat)
  int : Nat
  digits : Nat
deriving DecidableEq, Repr

/-- One digit in src/number.c:4612-4710 `read_uint`. -/
def accDigit (radix : Nat) (a : Acc) (d : Nat) : Acc :=
  let v := (a.int * radix + d) % W64
  let ds := a.digits + 1
  match a.big with
  | none => if v ≥ longlimit radix then ⟨some [v, 0, 0, 0], 0, 0⟩ else ⟨none, v, ds⟩
  | some b => if ds > longdigs radix then ⟨some (accMultAdd b (bigdig radix) v), 0, 0⟩ else ⟨some b, v, ds⟩

/-- The end of src/number.c:4612-4710 `read_uint`; `ipow` is exact here.  `Scm_MakeInteger(value_int)` takes a signed long. -/
def accFinish (radix : Nat) (a : Acc) : Num :=
  match a.big with
  | none => makeInteger (Int.bmod a.int W64)
  | some b =>
    normalize ⟨1, if a.digits > 0 then accMultAdd b (radix ^ a.digits % W64) a.int else b⟩

/-- The digit loop of src/number.c:4612-4710 `read_uint` and what follows.  `start` is `str == *strp`, `us` is `underscore_read`. -/
def ruLoop (radix : Nat) (strict : Bool) : Bool → Bool → Bool → Acc → List Char → RU
  | start, _, us, a, [] => if start then .bad else if us then .bad else .ok (accFinish radix a) []
  | start, digread, us, a, c0 :: cs =>
    let c := c0.toLower
    if c = '_' then
      if strict then .bad
      else if start || us || (!digread && decide (a.digits = 0)) then .bad
      else ruLoop radix strict false digread true a cs
    else if digread ∧ c = '#' then .pad
    else
      match digval radix c with
      | none => if start then .bad else if us then .bad else .ok (accFinish radix a) (c0 :: cs)
      | some d => ruLoop radix strict false true false (accDigit radix a d) cs

/-- src/number.c:4612-4710 `read_uint` with `initval` = #f. -/
def readUint (radix : Nat) (strict : Bool) (s : List Char) : RU :=
  let z := s.takeWhile (· = '0')
  let s' := s.dropWhile (· = '0')
  ruLoop radix strict z.isEmpty (!z.isEmpty) false ⟨none, 0, 0⟩ s'

/-- `exactness` of `struct numread_packet`. -/
inductive Exactness where
  | noexact
  | exact
  | inexact
deriving DecidableEq, Repr

/-- The result of the parser: an exact number, #f, something not modelled here, or undefined behaviour. -/
inductive Out where
  | num (q : Q)
  | no
  | other
  | ub
deriving DecidableEq, Repr

/-- The result of src/number.c:4971-5259 `read_real`: a number and the unread text. -/
inductive RR where
  | num (q : Q) (rest : List Char)
  | no
  | other
deriving DecidableEq, Repr

/-- `strncasecmp(*strp, "inf.0", 5) == 0` or `"nan.0"` in src/number.c:4971-5259 `read_real`. -/
def isSpecial (s : List Char) : Bool :=
  let t := (s.take 5).map Char.toLower
  t == "inf.0".toList || t == "nan.0".toList

/-- The part of src/number.c:4971-5259 `read_real` after the sign. -/
def readUreal (radix : Nat) (strict : Bool) (ex : Exactness) (minusp sign : Bool) (s : List Char) : RR :=
  if s = [] then .no
  else if sign && isSpecial s then .other
  else if s.head? = some '.' then .other
  else
    match readUint radix strict s with
    | .pad => .other
    | .bad => .no
    | .ok n rest =>
      let n' := if minusp then scmNegate n else n
      match rest with
      | [] => if ex = .inexact then .other else .num (.int n') []
      | c :: rest' =>
        if c = '/' then
          if rest' = [] then .no
          else
            match readUint radix strict rest' with
            | .ok d rest'' =>
              if d = .fix 0 then (if ex ≠ .inexact then .no else .other)
              else if ex = .inexact then .other
              else
                match makeRational n' d with
                | .ok q => .num q rest''
                | _ => .no
            | _ => .no
        else .other

/-- src/number.c:4971-5259 `read_real`. -/
def readReal (radix : Nat) (strict : Bool) (ex : Exactness) (s : List Char) : RR :=
  match s with
  | '-' :: cs => readUreal radix strict ex true true cs
  | '+' :: cs => readUreal radix strict ex false true cs
  | cs => readUreal radix strict ex false false cs

/-- The part of src/number.c:5262-5405 `read_number` after the prefixes.  The complex forms are not modelled. -/
def readBody (radix : Nat) (strict : Bool) (ex : Exactness) (s : List Char) : Out :=
  if s = [] then .no
  else
    let signed := s.head? = some '+' ∨ s.head? = some '-'
    if signed ∧ s.length = 1 then .no
    else if signed ∧ s.length = 2 ∧ (s[1]? = some 'i' ∨ s[1]? = some 'I') then
      (if ex = .exact then .no else .other)
    else
      match readReal radix strict ex s with
      | .num q [] => .num q
      | .num _ (c :: _) =>
        if c = '@' ∨ c = '+' ∨ c = '-' ∨ c = 'i' ∨ c = 'I' then .other else .no
      | .no => .no
      | .other => .other

/-- src/read.c:920-940 `Scm_ParseDigitsAsLong` with radix 10: the value (`none` for -1) and the unread text.  `ub` is the overflow of the
`long` that the test `val >= LONG_MAX/radix+1` lets through. -/
def parseDigits : Nat → Nat → List Char → Res (Option Nat × List Char)
  | val, nchars, [] => .ok (if nchars = 0 then none else some val, [])
  | val, nchars, c :: cs =>
    if 48 ≤ c.toNat ∧ c.toNat < 58 then
      if val ≥ 9223372036854775807 / 10 + 1 then .ok (none, c :: cs)
      else if val * 10 + (c.toNat - 48) > 9223372036854775807 then .ub
      else parseDigits (val * 10 + (c.toNat - 48)) (nchars + 1) cs
    else .ok (some val, c :: cs)

/-- What src/number.c:5262-5405 `read_number` knows while it reads the prefixes. -/
structure Ctx where
  radix : Nat
  strict : Bool
  noRadixPrefix : Bool
  ex : Exactness
deriving DecidableEq, Repr

/-- The prefix loop of src/number.c:5262-5405 `read_number`; `rs` and `es` are `radix_seen` and `exactness_seen`.  `fuel` is the length of the text. -/
def readPrefix : Nat → Ctx → Bool → Bool → List Char → Out
  | 0, _, _, _, _ => .no
  | fuel + 1, cx, rs, es, s =>
    let setRadix (r : Nat) (cs : List Char) : Out :=
      if cx.noRadixPrefix || rs then .no else readPrefix fuel { cx with radix := r } true es cs
    let setExact (e : Exactness) (cs : List Char) : Out :=
      if es then .no else readPrefix fuel { cx with ex := e } rs true cs
    match s with
    | '#' :: c :: cs =>
      if c = 'x' ∨ c = 'X' then setRadix 16 cs
      else if c = 'o' ∨ c = 'O' then setRadix 8 cs
      else if c = 'b' ∨ c = 'B' then setRadix 2 cs
      else if c = 'd' ∨ c = 'D' then setRadix 10 cs
      else if c = 'e' ∨ c = 'E' then setExact .exact cs
      else if c = 'i' ∨ c = 'I' then setExact .inexact cs
      else if 48 ≤ c.toNat ∧ c.toNat < 58 then
        if cx.noRadixPrefix || cx.strict || rs then .no
        else
          match parseDigits 0 0 (c :: cs) with
          | .ok (some r, t :: rest) =>
            if r < 2 ∨ r > 36 then .no
            else if t = 'r' ∨ t = 'R' then readPrefix fuel { cx with radix := r } true es rest
            else .no
          | .ok _ => .no
          | _ => .ub
      else .no
    | '#' :: [] => .no
    | s => readBody cx.radix cx.strict cx.ex s

/-- src/number.c:5422-5465 `Scm_StringToNumber` (without the error message flag). -/
def stringToNumber (cx : Ctx) (s : List Char) : Out :=
  if s.any (fun c => decide (c.toNat ≥ 128)) then .no
  else if cx.radix < 2 ∨ cx.radix > 36 then .no
  else readPrefix (s.length + 1) cx false false s

end Gauche.NumText

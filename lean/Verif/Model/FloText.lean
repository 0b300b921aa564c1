import Verif.Model.Flonum
/-
Model of the text of flonums in src/number.c: `print_double` in the default format (base 10, no precision, no rounding mode) and the decimal part
of `read_real`.
-/
namespace Gauche.FloText
open Gauche.Spec Gauche.Flonum Gauche.Bignum Gauche.NumText

/-! ### printing -/

/-- `r`, `s`, `m-` and `mp2` as src/number.c:4048-4318 `print_double` initializes them for the double `f * 2^exp`. -/
def initPrint (f : Nat) (exp : Int) : Nat × Nat × Nat × Bool :=
  if 0 ≤ exp then
    if f ≠ 2 ^ 52 then (f * 2 ^ (exp + 1).toNat, 2, 2 ^ exp.toNat, false)
    else (f * 2 ^ (exp + 2).toNat, 4, 2 ^ exp.toNat, true)
  else
    if exp = -1023 ∨ f ≠ 2 ^ 52 then (f * 2, 2 ^ (-exp + 1).toNat, 1, false)
    else (f * 4, 2 ^ (-exp + 2).toNat, 1, true)

/-- The scaling by the estimated exponent in src/number.c:4048-4318 `print_double`. -/
def scalePrint (est : Int) (p : Nat × Nat × Nat × Bool) : Nat × Nat × Nat × Bool :=
  if 0 ≤ est then (p.1, p.2.1 * 10 ^ est.toNat, p.2.2.1, p.2.2.2)
  else (p.1 * 10 ^ (-est).toNat, p.2.1, p.2.2.1 * 10 ^ (-est).toNat, p.2.2.2)

/-- `m+`. -/
def plusOf (mp2 : Bool) (mm : Nat) : Nat := if mp2 then mm * 2 else mm

/-- `fixup` in src/number.c:4048-4318 `print_double`. -/
def needFixup (round : Bool) (p : Nat × Nat × Nat × Bool) : Bool :=
  if p.2.1 ≤ p.1 then true
  else if round then decide (p.2.1 ≤ p.1 + plusOf p.2.2.2 p.2.2.1)
  else decide (p.2.1 < p.1 + plusOf p.2.2.2 p.2.2.1)

/-- A digit character. -/
def dig (q : Nat) : Char := Char.ofNat (q + 48)

/-- The digit loop of src/number.c:4048-4318 `print_double`: the text, the last value of `digs`, and `spilled`.  `none` when the fuel is used up. -/
def digLoop (s : Nat) (mp2 round : Bool) (point : Int) : Nat → Int → Nat → Nat → Option (List Char × Int × Bool)
  | 0, _, _, _ => none
  | fuel + 1, digs, r, mm =>
    let q := r * 10 / s
    let r' := r * 10 % s
    let mm' := mm * 10
    let mp := plusOf mp2 mm'
    let tc1 := if round then decide (r' ≤ mm') else decide (r' < mm')
    let tc2 := if round then decide (s ≤ r' + mp) else decide (s < r' + mp)
    if !tc1 && !tc2 then
      (digLoop s mp2 round point fuel (digs + 1) r' mm').map fun t =>
        (dig q :: (if digs = point then ['.'] else []) ++ t.1, t.2)
    else
      let down := if !tc1 then false else if !tc2 then true
        else (round && decide (r' + r' ≤ s)) || (!round && decide (r' + r' < s))
      if down then some ([dig q], digs, false)
      else if 9 < q + 1 then some (['9'], digs, true)
      else some ([dig (q + 1)], digs, false)

/-- The carry loop of src/number.c:3974-3994 `notational_roundup`, over the reversed text; the flag tells that the carry is left over. -/
def carry : List Char → List Char × Bool
  | [] => ([], true)
  | c :: cs =>
    if c = '.' then let t := carry cs; ('.' :: t.1, t.2)
    else if c = '9' then let t := carry cs; ('0' :: t.1, t.2)
    else (Char.ofNat (c.toNat + 1) :: cs, false)

/-- src/number.c:3974-3994 `notational_roundup` applied to the text from `numstart` on. -/
def notationalRoundup (t : List Char) : List Char :=
  let u := carry t.reverse
  let v := u.1.reverse
  if u.2 && v.head? == some '0' then '1' :: v else v

/-- The decimal digits of the exponent, `sprintf("%d")`. -/
def decimal (n : Nat) : List Char := if n = 0 then ['0'] else fixDigits 10 false 65 n []

/-- The part of src/number.c:4048-4318 `print_double` that handles a finite nonzero number, after the sign.  `est0` is the estimate
`(int)ceil(log10(val) - 0.1)`, `lo` and `hi` are `exp_lo` and `exp_hi`; `exp_width` is 0 and `exp_char` is `e`. -/
def printBody (fuel : Nat) (lo hi est0 : Int) (f : Nat) (exp : Int) : Option (List Char) :=
  let round := decide (f % 2 = 0)
  let p := scalePrint est0 (initPrint f exp)
  let fix := needFixup round p
  let s := if fix then p.2.1 * 10 else p.2.1
  let est := if fix then est0 + 1 else est0
  let plain := decide (est < hi) && decide (lo < est)
  let point := if plain then est else 1
  let est' := if plain then 1 else est
  let zeros := if point ≤ 0 then '0' :: '.' :: List.replicate (-point).toNat '0' else []
  (digLoop s p.2.2.2 round point fuel 1 p.1 p.2.2.1).map fun t =>
    let t1 := if t.2.2 then notationalRoundup (zeros ++ t.1) else zeros ++ t.1
    let tail := if t.2.1 ≤ point then List.replicate (point - t.2.1).toNat '0' ++ ['.', '0'] else []
    let e := est' - 1
    let ex := if e ≠ 0 ∨ plain = false then 'e' :: (if e < 0 then ['-'] else []) ++ decimal e.natAbs else []
    t1 ++ tail ++ ex

/-- src/number.c:4048-4318 `print_double` in base 10 with `precision` = -1. -/
def printDouble (fuel : Nat) (lo hi : Int) (plus : Bool) (est : Int) : Flo → Option (List Char)
  | .nan => some "+nan.0".toList
  | .num neg .inf => some (if neg then "-inf.0".toList else "+inf.0".toList)
  | .num neg (.fin m k) =>
    let sign := if neg then ['-'] else if plus then ['+'] else []
    if m = 0 then some (sign ++ "0.0".toList)
    else (printBody fuel lo hi est m k).map (sign ++ ·)

/-! ### reading -/

/-- src/number.c:4612-4710 `read_uint` with `initval` an integer: the accumulator at the start. -/
def accInit : Num → Acc
  | .fix n => if n.toNat > longlimit 10 then ⟨some [n.toNat, 0, 0, 0], 0, 0⟩ else ⟨none, n.toNat, 0⟩
  | .big b => ⟨some b.vals, 0, 0⟩

/-- src/number.c:4612-4710 `read_uint`, called for the digits after the decimal point; `none` is `initval` = #f. -/
def readFrac (strict : Bool) (init : Option Num) (s : List Char) : RU :=
  match init with
  | none => readUint 10 strict s
  | some n => if s.head? = some '_' then .bad else ruLoop 10 strict false true false (accInit n) s

/-- The digit loop of src/number.c:4902-4966 `read_exponent`: the exponent, whether it is too big, and the unread text.  `first` is `str == *strp`. -/
def expLoop : Bool → Bool → Bool → Nat → List Char → Option (Nat × Bool × List Char)
  | _, _, ov, e, [] => some (e, ov, [])
  | first, us, ov, e, c :: cs =>
    if c = '_' then
      if us || first || cs.isEmpty then none else expLoop false true ov e cs
    else if 48 ≤ c.toNat ∧ c.toNat < 58 then
      if ov then expLoop false false ov e cs
      else
        let e' := e * 10 + (c.toNat - 48)
        expLoop false false (decide (325 ≤ e')) e' cs
    else some (e, ov, c :: cs)

/-- `strchr("eEsSfFdDlL", c)`, which also finds the terminating NUL. -/
def isExpMark (c : Char) : Bool := c.toNat = 0 || "eEsSfFdDlL".toList.contains c

/-- src/number.c:4902-4966 `read_exponent` in radix 10: the exponent, overflow and the unread text.  The marker `p` is an error later in
src/number.c:4971-5259 `read_real`, whatever follows. -/
def readExponent (s : List Char) : Option (Int × Bool × List Char) :=
  match s with
  | [] => some (0, false, [])
  | c :: cs =>
    if isExpMark c then
      match cs with
      | [] => none
      | c' :: cs' =>
        if c' = '-' ∨ c' = '+' then
          if cs' = [] then none
          else (expLoop true false false 0 cs').map fun t => (if c' = '-' then -(t.1 : Int) else t.1, t.2)
        else (expLoop true false false 0 cs).map fun t => ((t.1 : Int), t.2)
    else if c = 'p' ∨ c = 'P' then
      (if cs.head? = some 'i' ∨ cs.head? = some 'I' then some (0, false, c :: cs) else none)
    else some (0, false, c :: cs)

/-- What reading gives: a flonum and the unread text, #f, a loop that does not end with the fuel given, or something modelled elsewhere or not at all
(exact numbers: `NumText`; `#` digits; the inexact prefix). -/
inductive FR where
  | flo (x : Flo) (rest : List Char)
  | no
  | hang
  | other
deriving DecidableEq, Repr

/-- The integer in a `Num`. -/
def natOf (n : Num) : Nat := n.toInt.toNat

/-- The end of src/number.c:4971-5259 `read_real`, from `read_exponent` on: `fraction` and `fracdigs` are known. -/
def finish (fuel : Nat) (minusp : Bool) (fraction fracdigs : Nat) (s : List Char) : FR :=
  match readExponent s with
  | none => .no
  | some (e, ov, rest) =>
    if ov then
      if e < 0 ∨ fraction = 0 then .flo (.num minusp (.fin 0 (-1074))) rest else .flo (.num minusp .inf) rest
    else
      match toFlonum fuel fraction (e - fracdigs) with
      | none => .hang
      | some d => .flo (.num minusp d) rest

/-- The part of src/number.c:4971-5259 `read_real` after the sign, radix 10, no exactness prefix. -/
def readUdec (fuel : Nat) (strict minusp sign : Bool) (s : List Char) : FR :=
  if s = [] then .no
  else if sign && (s.take 5).map Char.toLower == "inf.0".toList then .flo (.num minusp .inf) (s.drop 5)
  else if sign && (s.take 5).map Char.toLower == "nan.0".toList then .flo .nan (s.drop 5)
  else
    let fracPart (init : Option Num) (t : List Char) : FR :=
      match readFrac strict init t with
      | .ok fr rest => finish fuel minusp (natOf fr) (((t.take (t.length - rest.length)).filter (· ≠ '_')).length) rest
      | .pad => .other
      | .bad => .no
    match s with
    | '.' :: t => if t = [] then .no else fracPart none t
    | _ =>
      match readUint 10 strict s with
      | .bad => .no
      | .pad => .other
      | .ok n rest =>
        match rest with
        | [] => .other
        | c :: t =>
          if c = '/' then .other
          else if c = '.' then fracPart (some n) t
          else finish fuel minusp (natOf n) 0 (c :: t)

/-- src/number.c:4971-5259 `read_real`, radix 10, no exactness prefix. -/
def readDec (fuel : Nat) (strict : Bool) (s : List Char) : FR :=
  match s with
  | '-' :: cs => readUdec fuel strict true true cs
  | '+' :: cs => readUdec fuel strict false true cs
  | cs => readUdec fuel strict false false cs

/-- src/number.c:5262-5405 `read_number` for a text without prefixes that is not a complex number. -/
def readNumber (fuel : Nat) (strict : Bool) (s : List Char) : FR :=
  if s = [] then .no
  else
    let signed := s.head? = some '+' ∨ s.head? = some '-'
    if signed ∧ s.length = 1 then .no
    else if signed ∧ s.length = 2 ∧ (s[1]? = some 'i' ∨ s[1]? = some 'I') then .other
    else
      match readDec fuel strict s with
      | .flo x [] => .flo x []
      | .flo _ (c :: _) => if c = '@' ∨ c = '+' ∨ c = '-' ∨ c = 'i' ∨ c = 'I' then .other else .no
      | r => r

end Gauche.FloText

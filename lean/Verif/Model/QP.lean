/-! Model of lib/rfc/quoted-printable.scm.

Bytes and characters are numbers.  `none` as a result stands for an error.  Characters are written by `wc`, which gives the bytes of a
character in the encoding. -/
namespace Gauche.QP

/-- The digit written by the directive `~X` of `format` for a number below 16 (lib/rfc/quoted-printable.scm:62, 74). -/
def hexU (n : Nat) : Nat := if n < 10 then 48 + n else 55 + n

/-- `(digit->integer c 16)` (lib/rfc/quoted-printable.scm:113-117). -/
def digit (c : Nat) : Option Nat :=
  if 48 ≤ c ∧ c ≤ 57 then some (c - 48)
  else if 65 ≤ c ∧ c ≤ 70 then some (c - 55)
  else if 97 ≤ c ∧ c ≤ 102 then some (c - 87)
  else none

/-- `limit` (lib/rfc/quoted-printable.scm:53). -/
def limitOf (lineWidth : Option Nat) : Option Nat :=
  match lineWidth with
  | some w => if w ≥ 4 then some (w - 3) else none
  | none => none

/-- `(and limit (>= lcnt limit))` (lib/rfc/quoted-printable.scm:57). -/
def atLimit (limit : Option Nat) (lcnt : Nat) : Bool :=
  match limit with
  | some k => decide (lcnt ≥ k)
  | none => false

/-- The loop of `quoted-printable-encode` (lib/rfc/quoted-printable.scm:54-75).  The clause that writes a soft line break and goes on with the
same byte and a count of 0 (line 57) is merged with what follows; `limit` is at least 1, so it does not apply twice.  The clause after
it (lines 58-60) cannot be reached. -/
def enc (limit : Option Nat) (binary : Bool) : List Nat → Nat → Option (List Nat)
  | [], _ => some []
  | c :: l, lcnt0 =>
    let pre := if atLimit limit lcnt0 then [61, 13, 10] else []
    let lcnt := if atLimit limit lcnt0 then 0 else lcnt0
    if binary && (c = 10 || c = 13) then (enc limit binary l (lcnt + 1)).map (fun t => pre ++ [61, 48, hexU c] ++ t)
    else if c = 13 then
      match l with
      | [] => none
      | c1 :: l' =>
        if c1 = 10 then (enc limit binary l' 0).map (fun t => pre ++ [13, 10] ++ t)
        else (enc limit binary (c1 :: l') 0).map (fun t => pre ++ [13, 10] ++ t)
    else if c = 10 then (enc limit binary l 0).map (fun t => pre ++ [13, 10] ++ t)
    else if (32 < c && c < 61) || c = 62 || (63 < c && c < 127) then (enc limit binary l (lcnt + 1)).map (fun t => pre ++ [c] ++ t)
    else (enc limit binary l (lcnt + 3)).map (fun t => pre ++ [61, hexU (c / 16), hexU (c % 16)] ++ t)

/-- `quoted-printable-encode` (lib/rfc/quoted-printable.scm:52-75). -/
def encode (lineWidth : Option Nat) (binary : Bool) (l : List Nat) : Option (List Nat) := enc (limitOf lineWidth) binary l 0

/-- `quoted-printable-decode` (lib/rfc/quoted-printable.scm:88-125).  The first argument bounds the number of characters; the loop over tabs and
spaces (`loop2`) is a `span`. -/
def dec (wc : Nat → List Nat) : Nat → List Nat → Option (List Nat)
  | _, [] => some []
  | 0, _ :: _ => some []
  | n + 1, c :: l =>
    if c = 61 then
      match l with
      | [] => some []
      | c1 :: l1 =>
        if c1 = 10 then dec wc n l1
        else if c1 = 13 then
          match l1 with
          | [] => none
          | c2 :: l2 => if c2 = 10 then dec wc n l2 else dec wc n (c2 :: l2)
        else if c1 = 9 || c1 = 32 then
          let r := l1.takeWhile (fun x => x = 9 || x = 32)
          match l1.dropWhile (fun x => x = 9 || x = 32) with
          | [] => some []
          | c2 :: l2 =>
            if c2 = 10 then dec wc n l2
            else if c2 = 13 then
              match l2 with
              | [] => none
              | c3 :: l3 => if c3 = 10 then dec wc n l3 else dec wc n (c3 :: l3)
            else (dec wc n (c2 :: l2)).map (fun t => (c :: c1 :: r).flatMap wc ++ t)
        else
          match digit c1 with
          | some n1 =>
            match l1 with
            | [] => some (wc c ++ wc c1)
            | c2 :: l2 =>
              match digit c2 with
              | some n2 => (dec wc n l2).map (fun t => (n1 * 16 + n2) :: t)
              | none => (dec wc n (c2 :: l2)).map (fun t => wc c ++ wc c1 ++ t)
          | none => (dec wc n (c1 :: l1)).map (fun t => wc c ++ t)
    else (dec wc n l).map (fun t => wc c ++ t)

/-- `quoted-printable-decode` on a whole string (lib/rfc/quoted-printable.scm:88-125). -/
def decode (wc : Nat → List Nat) (l : List Nat) : Option (List Nat) := dec wc l.length l

end Gauche.QP

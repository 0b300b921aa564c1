import Verif.Model.Str
import Verif.Spec.Utf8
import Mathlib.Data.List.Forall2

/-!
# What strings are

A complete string is a sequence of character codes; its bytes are the UTF-8 encoding (`Verif.Spec.Utf8`).
The definitions here say which body represents which sequence and what the operations are to produce, in
terms of the sequence only.
-/

namespace Gauche.Str
open Gauche.Spec.Utf8

/-- Number of bytes of an encoded sequence. -/
def blen (cs : List Nat) : Nat := (encodeAll cs).length

/-- Byte position of the `n`th character. -/
def pos (cs : List Nat) (n : Nat) : Nat := blen (cs.take n)

/-- `b` is the complete string with the characters `cs`, ignoring the index. -/
structure Is (b : Body) (cs : List Nat) : Prop where
  complete : b.incomplete = false
  codes : ∀ c ∈ cs, IsCode c
  size : b.size = blen cs
  len : b.len = cs.length
  holds : Holds b.mem (encodeAll cs)

/-- Lists of bodies representing lists of strings. -/
abbrev AllIs (bs : List Body) (css : List (List Nat)) : Prop := List.Forall₂ Is bs css

/-- What `string-join` is to produce. -/
def joinSpec (d : List Nat) (css : List (List Nat)) : Grammar → List Nat
  | .infix | .strictInfix => List.intercalate d css
  | .suffix => (css.map (· ++ d)).flatten
  | .prefix => (css.map (d ++ ·)).flatten

/-- Lexicographic order of codes, as a three-way comparison. -/
def lexCmp : List Nat → List Nat → Ordering
  | [], [] => .eq
  | [], _ :: _ => .lt
  | _ :: _, [] => .gt
  | a :: l, b :: m => if a < b then .lt else if b < a then .gt else lexCmp l m

/-- `ds` occurs in `cs` at character index `i`. -/
def OccursAt (cs ds : List Nat) (i : Nat) : Prop := i ≤ cs.length ∧ ds <+: cs.drop i

/-- The first occurrence. -/
def FirstAt (cs ds : List Nat) (i : Nat) : Prop := OccursAt cs ds i ∧ ∀ j < i, ¬ OccursAt cs ds j
/-- The last occurrence. -/
def LastAt (cs ds : List Nat) (i : Nat) : Prop := OccursAt cs ds i ∧ ∀ j, i < j → ¬ OccursAt cs ds j

/-- The value `string-scan` is to return in each mode, for a match at character index `i`. -/
def ScanOK (cs ds : List Nat) (i : Nat) : Mode → Scan → Prop
  | .index, .index n => n = i
  | .cursor, .cursor off => off = pos cs i
  | .before, .one s => Is s (cs.take i)
  | .after, .one s => Is s (cs.drop (i + ds.length))
  | .before2, .two a c => Is a (cs.take i) ∧ Is c (cs.drop i)
  | .after2, .two a c => Is a (cs.take (i + ds.length)) ∧ Is c (cs.drop (i + ds.length))
  | .both, .two a c => Is a (cs.take i) ∧ Is c (cs.drop (i + ds.length))
  | _, _ => False

/-- The pieces `split` is to return. -/
structure SplitOK (cs : List Nat) (ch : Nat) (limit : Int) (css : List (List Nat)) : Prop where
  join : List.intercalate [ch] css = cs
  free : ∀ p ∈ css.dropLast, ch ∉ p
  count : (css.length : Int) = (if limit < 0 then (cs.count ch : Int) else min limit (cs.count ch : Int)) + 1

end Gauche.Str

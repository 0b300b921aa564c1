import Verif.Model.Tr
/-! Specification of transliteration. -/
namespace Gauche.Tr

/-- The characters of an element. -/
def chars (s : Seg) : List Nat := if s.isRange then (List.range s.size).map (s.char + ·) else List.replicate s.size s.char

/-- The characters of an array. -/
def expand (a : List Seg) : List Nat := a.flatMap chars

/-- The image of a character: the character at the same place as its first occurrence. -/
def image : List Nat → List Nat → Nat → Entry
  | [], _, _ => .notIn
  | f :: fs, ts, i => if f = i then entryOf ts.head? else image fs ts.tail i

/-- The characters that are written for a character, without `:squeeze`. -/
def written (fs ts : List Nat) (d : Bool) (x : Nat) : List Nat :=
  match image fs ts x with
  | .char c => [c]
  | .notIn => [x]
  | .noImage => if d then [] else [x]

/-- The characters that are written for a character, each with the mark whether the character it stands for is one of those to be replaced. -/
def marked (fs ts : List Nat) (d : Bool) (x : Nat) : List (Nat × Bool) :=
  match image fs ts x with
  | .char c => [(c, true)]
  | .notIn => [(x, false)]
  | .noImage => if d then [] else [(x, true)]

/-- Every marked character that follows the same marked character is left out. -/
def squeezed (l : List (Nat × Bool)) : List Nat :=
  ((none :: l.map some).zip l).filterMap (fun p => if p.2.2 = true ∧ p.1 = some p.2 then none else some p.2.1)

/-- What the parser and its check give for the characters to be replaced: single characters, and ranges that do not cross the size of the table. -/
def ValidFrom (size : Nat) (a : List Seg) : Prop := ∀ s ∈ a, (s.isRange = false → s.size = 1) ∧ (s.char < size → s.char + s.size ≤ size)

/-- The elements are in ascending order, without common characters, from a code on, and up to the largest code. -/
def Ascending (max : Nat) : Nat → List Seg → Prop
  | _, [] => True
  | index, s :: r => index ≤ s.char ∧ 0 < s.size ∧ s.char + s.size ≤ max + 1 ∧ Ascending max (s.char + s.size) r

end Gauche.Tr

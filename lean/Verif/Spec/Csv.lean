/-! Words of the specification of reading and writing comma separated text.  Characters are code points. -/
namespace Gauche.Csv

/-- `t` is `s` without the longest prefix and the longest suffix of characters of `p`. -/
def TrimmedBy (p : Nat → Bool) (s t : List Nat) : Prop :=
  ∃ a b, s = a ++ t ++ b ∧ (∀ c ∈ a, p c = true) ∧ (∀ c ∈ b, p c = true) ∧
    (∀ c, t.head? = some c → p c = false) ∧ (∀ c, t.getLast? = some c → p c = false)

/-- `parts` are the pieces of `s` between the occurrences of `sep`. -/
def Pieces (sep : Nat) (s : List Nat) (parts : List (List Nat)) : Prop :=
  parts ≠ [] ∧ (∀ f ∈ parts, sep ∉ f) ∧ s = List.intercalate [sep] parts

/-- What a reader takes for the row written: a row of no fields comes back as a row of one empty field. -/
def seen (row : List (List Nat)) : List (List Nat) := if row = [] then [[]] else row

end Gauche.Csv

import Verif.Model.Sexp
/-
What it means that a datum is read back, without reference to the functions of the writer and the reader.
-/
namespace Gauche.Sexp

mutual
/-- The datum that a tree stands for: the abbreviations `'x`, `` `x``, `,x` and `,@x` are lists of two elements. -/
def strip : Tree → Tree
  | .atom a => .atom a
  | .ref n => .ref n
  | .lab n t => .lab n (strip t)
  | .pair a d => .pair (strip a) (strip d)
  | .vec l => .vec (stripL l)
  | .abbr q t => .pair (.atom (.sym q.name)) (.pair (strip t) (.atom .nil))
/-- The data in a vector. -/
def stripL : List Tree → List Tree
  | [] => []
  | t :: ts => strip t :: stripL ts
end

/-- The characters that the reader treats as white space are separators according to their categories. -/
def SpacesOk (cat : Char → Cat) : Prop :=
  ∀ c : Char, (c.toNat = 0xa0 ∨ c.toNat = 0x1680 ∨ (0x2000 ≤ c.toNat ∧ c.toNat ≤ 0x200a) ∨ c.toNat = 0x2028 ∨ c.toNat = 0x2029 ∨ c.toNat = 0x202f ∨
    c.toNat = 0x205f ∨ c.toNat = 0x3000) → cat c = .Zs ∨ cat c = .Zl ∨ cat c = .Zp

/-- A name without the characters that the writer and the reader disagree about: decimal digits outside of ASCII, spacing and enclosing marks. -/
def PlainName (cat : Char → Cat) (s : List Char) : Prop := ∀ c ∈ s, 128 ≤ c.toNat → cat c ≠ .Nd ∧ cat c ≠ .Mc ∧ cat c ≠ .Me

end Gauche.Sexp

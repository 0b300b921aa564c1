import Verif.Model.SexpGraph
/-
What it means that a graph of objects is a copy of another, without reference to the functions of the writer and the reader.
-/
namespace Gauche.Sexp

/-- A value that a program can have: an immediate (strings are objects), or the address of an object. -/
def Value (H : List Cell) (v : V) : Prop := (∃ a, v = .imm a ∧ ∀ s, a ≠ .str s) ∨ ∃ p, p < H.length ∧ v = .ptr p

/-- All parts of all objects are values. -/
def HeapOk (H : List Cell) : Prop := ∀ c ∈ H, match c with
  | .str _ => True
  | .pair a d => Value H a ∧ Value H d
  | .vec l => ∀ v ∈ l, Value H v

/-- Going from cdr to cdr comes to an end, from every pair. -/
def ListsEnd (H : List Cell) : Prop := ¬ ∃ f : Nat → Nat, ∀ n, ∃ a, H[f n]? = some (.pair a (.ptr (f (n + 1))))

/-- The same immediate, or corresponding objects. -/
inductive SameV (R : Nat → Nat → Prop) : V → V → Prop
  | imm (a : Atom) : SameV R (.imm a) (.imm a)
  | ptr (p i : Nat) : R p i → SameV R (.ptr p) (.ptr i)

/-- Objects of the same type with corresponding parts. -/
inductive SameCell (R : Nat → Nat → Prop) : Cell → Cell → Prop
  | str (s : List Char) : SameCell R (.str s) (.str s)
  | pair {a d a' d' : V} : SameV R a a' → SameV R d d' → SameCell R (.pair a d) (.pair a' d')
  | vec {l l' : List V} : l.length = l'.length → (∀ (n : Nat) (v v' : V), l[n]? = some v → l'[n]? = some v' → SameV R v v') → SameCell R (.vec l) (.vec l')

/-- `w` in the heap `G` has the structure of `v` in the heap `H`: `R p i` says that the object `i` of `G` stands for the object `p` of `H`; no object of `G` stands
for two.  (So `v` and `w` are the same as seen by `car`, `cdr`, `vector-ref` and so on, to every depth, and what is one object in the copy is one object in the original.) -/
structure CopyBy (R : Nat → Nat → Prop) (H : List Cell) (v : V) (G : List Cell) (w : V) : Prop where
  root : SameV R v w
  cells : ∀ p i, R p i → ∃ c d, H[p]? = some c ∧ G[i]? = some d ∧ SameCell R c d
  one : ∀ p q i, R p i → R q i → p = q

/-- A copy. -/
def IsCopy (H : List Cell) (v : V) (G : List Cell) (w : V) : Prop := ∃ R, CopyBy R H v G w

/-- A copy with the same sharing: only empty strings and vectors are copied more than once. -/
def IsExactCopy (H : List Cell) (v : V) (G : List Cell) (w : V) : Prop :=
  ∃ R, CopyBy R H v G w ∧ ∀ p i j, H[p]? ≠ some (.str []) → H[p]? ≠ some (.vec []) → R p i → R p j → i = j

end Gauche.Sexp

/-!
# Finite maps up to an equivalence on keys

What a sparse table is supposed to be: a function from keys to optional values
that does not distinguish keys the table's comparator takes for equal.
-/

namespace Gauche.SparseTab

/-- What a comparator must satisfy for a hash table to make sense: equality is an
equivalence, and equal keys have the same hash value, a 64-bit word. -/
structure Comparator {K : Type} (hash : K → Nat) (eq : K → K → Bool) : Prop where
  refl : ∀ a, eq a a = true
  symm : ∀ a b, eq a b = true → eq b a = true
  trans : ∀ a b c, eq a b = true → eq b c = true → eq a c = true
  compat : ∀ a b, eq a b = true → hash a = hash b
  word : ∀ a, hash a < 2 ^ 64

/-- The map with `x` stored at `k` and every key equal to it. -/
def put {K V : Type} (eq : K → K → Bool) (M : K → Option V) (k : K) (x : Option V) :
    K → Option V := fun j => if eq j k then x else M j

/-- `E` enumerates the map `M`: the pairs of `E` are entries of `M`, every entry
of `M` has one under an equal key, and no two keys of `E` are equal.  So
`E.length` is the number of entries. -/
structure Lists {K V : Type} (eq : K → K → Bool) (E : List (K × V)) (M : K → Option V) : Prop where
  distinct : E.Pairwise (fun a b => eq a.1 b.1 = false)
  sound : ∀ k v, (k, v) ∈ E → M k = some v
  complete : ∀ k v, M k = some v → ∃ k', eq k k' = true ∧ (k', v) ∈ E

/-- The operations. -/
inductive Op (K V : Type) where
  | set (k : K) (v : V)
  | delete (k : K)
  | clear
  | copy

/-- What an operation answers. -/
inductive Reply (V : Type) where
  | void
  | val (v : V)
  | bool (b : Bool)

/-- One operation. -/
def stepMap {K V : Type} (eq : K → K → Bool) (M : K → Option V) :
    Op K V → (K → Option V) × Reply V
  | .set k v => (put eq M k (some v), .val v)
  | .delete k => (put eq M k none, .bool (M k).isSome)
  | .clear => (fun _ => none, .void)
  | .copy => (M, .void)

/-- A history. -/
def runMap {K V : Type} (eq : K → K → Bool) :
    (K → Option V) → List (Op K V) → (K → Option V) × List (Reply V)
  | M, [] => (M, [])
  | M, op :: ops =>
    let r := stepMap eq M op
    let r2 := runMap eq r.1 ops
    (r2.1, r.2 :: r2.2)

end Gauche.SparseTab

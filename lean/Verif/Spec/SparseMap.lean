/-!
# Finite maps from indices to values

What a sparse vector is supposed to be, said without reference to its
implementation: a function from indices to optional values, with the updates
the procedures make, and lists that enumerate such a function.
-/

namespace Gauche.SparseMap

/-- The map `M` with `x` stored at `i`. -/
def put {K V : Type} [DecidableEq K] (M : K → Option V) (i : K) (x : Option V) : K → Option V :=
  fun j => if j = i then x else M j

/-- `E` enumerates the map `M`: every entry of the map occurs, nothing else
does, and no index occurs twice.  So `E.length` is the number of entries. -/
structure Lists {K V : Type} (E : List (K × V)) (M : K → Option V) : Prop where
  nodup : (E.map Prod.fst).Nodup
  mem : ∀ i v, (i, v) ∈ E ↔ M i = some v

/-- The operations on a sparse vector (`K` is `Nat`) or a sparse matrix (`K` is
`Nat × Nat`). -/
inductive Op (K V : Type) where
  | set (i : K) (v : V)
  | delete (i : K)
  | clear
  | copy
  | inc (i : K) (delta : V) (fallback : Option V)

/-- The index an operation mentions is admissible. -/
def Op.valid {K V : Type} (adm : K → Prop) : Op K V → Prop
  | .set i _ => adm i
  | .delete i => adm i
  | .inc i _ _ => adm i
  | _ => True

/-- A 64-bit unsigned word, what a sparse vector takes for an index. -/
def Word (i : Nat) : Prop := i < 2 ^ 64

/-- A pair of 32-bit unsigned words, what a sparse matrix takes. -/
def Words2 (p : Nat × Nat) : Prop := p.1 < 2 ^ 32 ∧ p.2 < 2 ^ 32

/-- Not an increment. -/
def Op.noInc {K V : Type} : Op K V → Prop
  | .inc _ _ _ => False
  | _ => True

/-- What an operation answers: nothing, a truth value, a value, or an error. -/
inductive Reply (V : Type) where
  | void
  | bool (b : Bool)
  | val (v : V)
  | error

/-- One operation on a map.  `norm` is what becomes of a value when it is stored
(`none` when it does not fit the element type); `base` is what an increment
takes for a missing entry when it is given the fallback; `add` adds. -/
def stepMap {K V : Type} [DecidableEq K] (norm : V → Option V) (base : Option V → V)
    (add : V → V → V) (M : K → Option V) : Op K V → (K → Option V) × Reply V
  | .set i v =>
    match norm v with
    | some w => (put M i (some w), .void)
    | none => (M, .error)
  | .delete i => (put M i none, .bool (M i).isSome)
  | .clear => (fun _ => none, .void)
  | .copy => (M, .void)
  | .inc i delta fb =>
    let v := add ((M i).getD (base fb)) delta
    match norm v with
    | some w => (put M i (some w), .val v)
    | none => (M, .error)

/-- What an increment takes for a missing entry: the fallback it was given, else the
default value of the vector, else zero, skipping what is not a number. -/
def missing {V : Type} (isNumber : V → Bool) (zero : V) (dflt fallback : Option V) : V :=
  ((fallback.filter isNumber).or (dflt.filter isNumber)).getD zero

/-- A history. -/
def runMap {K V : Type} [DecidableEq K] (norm : V → Option V) (base : Option V → V)
    (add : V → V → V) : (K → Option V) → List (Op K V) → (K → Option V) × List (Reply V)
  | M, [] => (M, [])
  | M, op :: ops =>
    let r := stepMap norm base add M op
    let r2 := runMap norm base add r.1 ops
    (r2.1, r.2 :: r2.2)

end Gauche.SparseMap

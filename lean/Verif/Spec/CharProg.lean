/-
Specification of character sets: programs over mutable and immutable sets of code points.
-/
namespace Gauche.CharProg

/-- One call of the character set API.  Sets are named by the order of their creation. -/
inductive Cmd where
  /-- make an empty set -/
  | new
  /-- add all characters from code `f` to code `u` to set `i` -/
  | addRange (i f u : Nat)
  /-- add all members of set `j` to set `i` -/
  | union (i j : Nat)
  /-- complement set `i` in place -/
  | complement (i : Nat)
  /-- a fresh mutable copy of set `i` -/
  | copy (i : Nat)
  /-- an immutable copy of set `i` -/
  | freeze (i : Nat)
  /-- make set `i` immutable -/
  | freezeX (i : Nat)

/-- A set of code points and whether it is immutable. -/
structure S where
  mem : Nat → Prop
  immutable : Bool

/-- Update a mutable set; an error (`none`) if there is no such set or it is immutable. -/
def modify (h : List S) (i : Nat) (f : S → Nat → Prop) : Option (List S) :=
  match h[i]? with
  | none => none
  | some s => if s.immutable then none else some (h.set i ⟨f s, false⟩)

/-- What each call does, as sets; `none` is an error. `max` is the greatest code point. -/
def step (max : Nat) : Cmd → List S → Option (List S)
  | .new, h => some (h ++ [⟨fun _ => False, false⟩])
  | .addRange i f u, h =>
    if f > max ∨ u > max then none else modify h i fun s c => s.mem c ∨ (f ≤ c ∧ c ≤ u)
  | .union i j, h =>
    match h[j]? with
    | none => none
    | some t => modify h i fun s c => s.mem c ∨ t.mem c
  | .complement i, h => modify h i fun s c => c ≤ max ∧ ¬ s.mem c
  | .copy i, h => h[i]?.map fun s => h ++ [⟨s.mem, false⟩]
  | .freeze i, h => h[i]?.map fun s => h ++ [⟨s.mem, true⟩]
  | .freezeX i, h => h[i]?.map fun s => h.set i ⟨s.mem, true⟩

/-- A program stops at the first error. -/
def run {α : Type} (f : Cmd → List α → Option (List α)) : List Cmd → List α → Option (List α)
  | [], h => some h
  | c :: p, h => (f c h).bind (run f p)
end Gauche.CharProg

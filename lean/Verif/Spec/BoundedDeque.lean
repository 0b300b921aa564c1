import Verif.Model.RingBuffer
/-
Specification: a deque with a capacity, as a plain list.  Only the vocabulary of calls, handler answers and
outcomes (`Op`, `Ans`, `Out`) is shared with the model.
-/
namespace Gauche.Spec
open Gauche.RingBuffer

variable {α : Type}

structure BDeque (α : Type) where
  items : List α
  cap : Nat

/-- The i-th element for an exact integer index. -/
def nth (l : List α) (n : Int) : Option α := if 0 ≤ n then l[n.toNat]? else none

def optOut : Option α → Out α
  | some a => .elt a
  | none => .err

/-- The effect of a call; `none` = the overflow handler broke its contract by returning a storage that is not
larger. -/
def BDeque.step (d : BDeque α) : Op α → Option (BDeque α × Out α)
  | .addFront x ans =>
    if d.items.length < d.cap then some (⟨x :: d.items, d.cap⟩, .unit)
    else match ans with
      | .error => some (d, .err)
      | .invalid => some (d, .err)
      | .overwrite => some (⟨x :: d.items.dropLast, d.cap⟩, .unit)
      | .storage v => if d.cap < v.length then some (⟨x :: d.items, v.length⟩, .unit) else none
  | .addBack x ans =>
    if d.items.length < d.cap then some (⟨d.items ++ [x], d.cap⟩, .unit)
    else match ans with
      | .error => some (d, .err)
      | .invalid => some (d, .err)
      | .overwrite => some (⟨d.items.tail ++ [x], d.cap⟩, .unit)
      | .storage v => if d.cap < v.length then some (⟨d.items ++ [x], v.length⟩, .unit) else none
  | .removeFront => some (⟨d.items.tail, d.cap⟩, optOut d.items.head?)
  | .removeBack => some (⟨d.items.dropLast, d.cap⟩, optOut d.items.getLast?)
  | .front => some (d, optOut d.items.head?)
  | .back => some (d, optOut d.items.getLast?)
  | .ref n fallback => some (d, optOut ((nth d.items n).or fallback))
  | .set n x => if (nth d.items n).isSome then some (⟨d.items.set n.toNat x, d.cap⟩, .unit) else some (d, .err)
  | .clear => some (⟨[], d.cap⟩, .unit)
  | .toVector s e =>
    if 0 ≤ s ∧ s ≤ e ∧ e ≤ d.items.length then some (d, .elts ((d.items.take e.toNat).drop s.toNat))
    else some (d, .err)
  | .num => some (d, .int d.items.length)
  | .capacity => some (d, .int d.cap)
  | .room => some (d, .int (d.cap - d.items.length : Nat))
  | .empty => some (d, .bool (d.items.isEmpty))
  | .full => some (d, .bool (decide (d.items.length = d.cap)))

/-- What the callers see; `none` = the handler broke its contract somewhere. -/
def BDeque.run (d : BDeque α) : List (Op α) → Option (List (Out α))
  | [] => some []
  | o :: os => (d.step o).bind fun r => (r.1.run os).map (r.2 :: ·)

/-- The deque after the calls; `none` = the handler broke its contract somewhere. -/
def BDeque.exec (d : BDeque α) : List (Op α) → Option (BDeque α)
  | [] => some d
  | o :: os => (d.step o).bind fun r => r.1.exec os

end Gauche.Spec

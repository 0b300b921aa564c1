import Verif.Model.ListPrim
/-!
# Lists in a cons graph

`Path h v as w`: from the object `v`, taking `cdr`, one passes the pairs `as`, in this order, and arrives at `w`.
-/
namespace Gauche.Spec.ConsGraph

open Gauche.ListPrim (Val Heap)

def Path (h : Heap) : Val → List Nat → Val → Prop
  | v, [], w => v = w
  | v, a :: as, w => v = .pair a ∧ a < h.size ∧ Path h (h.cdr a) as w

/-- Not a pair. -/
def Val.Atomic (v : Val) : Prop := ∀ a, v ≠ .pair a

/-- Every address in a pair is that of a pair that exists. -/
def Closed (h : Heap) : Prop :=
  ∀ i < h.size, (∀ a, h.car i = .pair a → a < h.size) ∧ (∀ a, h.cdr i = .pair a → a < h.size)

/-- The object exists. -/
def Exists (h : Heap) (v : Val) : Prop := ∀ a, v = .pair a → a < h.size

/-- A list of the pairs `as`. -/
def Proper (h : Heap) (v : Val) (as : List Nat) : Prop := Path h v as .nil

/-- A dotted list of the pairs `as`; there may be none. -/
def Dotted (h : Heap) (v : Val) (as : List Nat) : Prop := ∃ t, t ≠ .nil ∧ Val.Atomic t ∧ Path h v as t

/-- Circular: a pair can be reached from which it can be reached again. -/
def Circular (h : Heap) (v : Val) : Prop := ∃ as bs a, bs ≠ [] ∧ Path h v as (.pair a) ∧ Path h (.pair a) bs (.pair a)

/-- The elements. -/
def elems (h : Heap) (as : List Nat) : List Val := as.map h.car

/-- The number of pairs met; `none` is infinitely many. -/
def Pairs (h : Heap) (v : Val) : Option Nat → Prop
  | some n => ∃ as t, Val.Atomic t ∧ Path h v as t ∧ as.length = n
  | none => Circular h v

/-- The order of numbers with infinity. -/
def cmpLen : Option Nat → Option Nat → Int
  | some m, some n => if m < n then -1 else if m = n then 0 else 1
  | some _, none => -1
  | none, some _ => 1
  | none, none => 0

/-- No pair that existed is changed. -/
def Keeps (h h' : Heap) : Prop := h.size ≤ h'.size ∧ ∀ i < h.size, h'.car i = h.car i ∧ h'.cdr i = h.cdr i

/-- Only the cdrs of the pairs in `as` are changed, and no pair is made. -/
def ChangesCdrs (as : List Nat) (h h' : Heap) : Prop := h'.size = h.size ∧ h'.car = h.car ∧ ∀ i, i ∉ as → h'.cdr i = h.cdr i

/-- The pairs are new. -/
def New (h : Heap) (as : List Nat) : Prop := as.Nodup ∧ ∀ a ∈ as, h.size ≤ a

/-- The pairs among the objects. -/
def pairs (xs : List Val) : List Nat := xs.filterMap fun x => match x with | .pair a => some a | _ => none

/-- The object, or a copy of it if it is a pair. -/
def CopyOf (h h' : Heap) : Val → Val → Prop
  | .pair e, y => ∃ d, y = .pair d ∧ h'.car d = h.car e ∧ h'.cdr d = h.cdr e
  | x, y => y = x

/-- The elements without those equal to an earlier one. -/
def firsts (eq : Val → Val → Bool) (seen : List Val) : List Val → List Val
  | [] => []
  | x :: xs => if seen.any (fun y => eq y x) then firsts eq (seen ++ [x]) xs else x :: firsts eq (seen ++ [x]) xs

end Gauche.Spec.ConsGraph

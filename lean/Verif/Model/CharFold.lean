import Verif.Model.CharSet
/-
Making a character set case insensitive: `Scm_CharSetCaseFold`, src/char.c (`%char-set-case-fold!`, and the
classes of regular expressions compiled with the flag `i`).

The loop modifies the tree it iterates over.  The iterator (src/treemap.c) holds the current and the next node;
a deleted node keeps its key and value, and has no successor.  Nodes are identified by their keys: a set
only grows here, so a key that was absorbed by a lower range never becomes a key again
(`Verif.Proof.CharFold`, `key_gone`).  For the current and the next node the model keeps the last value the node
had while it was in the tree.  `up` and `down` stand for `Scm_CharUpcase` and `Scm_CharDowncase`.
-/
namespace Gauche.CharSet
open Gauche.TreeMap

/-- `MASK_SET` on the bitmap. -/
def setBit (b : Nat → Bool) (i : Nat) : Nat → Bool := fun j => if j = i then true else b j

/-- The loop over the ASCII letters in src/char.c:971-994 `Scm_CharSetCaseFold`; `n` letters from `ch` on remain. -/
def foldSmall : Nat → Nat → (Nat → Bool) → (Nat → Bool)
  | 0, _, b => b
  | n + 1, ch, b =>
    if b ch || b (ch - 32) then foldSmall n (ch + 1) (setBit (setBit b ch) (ch - 32))
    else foldSmall n (ch + 1) b

/-- The set, the node `e` and the iterator's `n` (src/treemap.c:243-255 `Scm_TreeIterNext`), each node with its current or
last value. -/
structure FState where
  cs : CharSet
  e : Nat × Nat
  n : Option (Nat × Nat)

/-- The value of node `p`: the one in the tree, if it is there. -/
def refresh (cs : CharSet) (p : Nat × Nat) : Nat × Nat :=
  match cs.large with
  | .tree t => (p.1, (t.get compare p.1).getD p.2)
  | .frozen _ _ => p

/-- Adding one character in src/char.c:971-994 `Scm_CharSetCaseFold`. -/
def foldAdd (s : FState) (x : Nat) : Option FState :=
  (s.cs.addRange x x).map fun cs => ⟨cs, refresh cs s.e, s.n.map (refresh cs)⟩

/-- The inner loop of src/char.c:971-994 `Scm_CharSetCaseFold`. -/
def foldInner (up down : Nat → Nat) : Nat → Nat → FState → Option FState
  | 0, _, _ => none
  | fuel + 1, c, s =>
    if c ≤ s.e.2 then
      (foldAdd s (up c)).bind fun s => (foldAdd s (down c)).bind (foldInner up down fuel (c + 1))
    else some s

/-- `advance_iter` (src/treemap.c:210-214 `advance_iter`) on node `p`: a deleted node has no next node. -/
def advance (cs : CharSet) (p : Nat × Nat) : Option (Nat × Nat) :=
  match cs.large with
  | .tree t => if t.exists_ compare p.1 then t.successor compare p.1 else none
  | .frozen _ _ => none

/-- The outer loop of src/char.c:971-994 `Scm_CharSetCaseFold`; the third argument is the iterator's `n`. -/
def foldOuter (up down : Nat → Nat) : Nat → CharSet → Option (Nat × Nat) → Option CharSet
  | 0, _, _ => none
  | _ + 1, cs, none => some cs
  | fuel + 1, cs, some e =>
    (foldInner up down (charMax + 2) e.1 ⟨cs, e, advance cs e⟩).bind fun s => foldOuter up down fuel s.cs s.n

/-- src/char.c:971-994 `Scm_CharSetCaseFold`; `none` includes the error for an immutable set. -/
def CharSet.caseFold (up down : Nat → Nat) (cs : CharSet) : Option CharSet :=
  match cs.large with
  | .frozen _ _ => none
  | .tree t => foldOuter up down (charMax + 2) ⟨foldSmall 26 97 cs.small, cs.largep, .tree t⟩ t.min

end Gauche.CharSet

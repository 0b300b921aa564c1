import Verif.Model.Trie
/-! Specification of tries. -/
namespace Gauche.Trie

/-- The value of a key. -/
def lookup (t : Trie) (k : Key) : Option Val :=
  (find t.root k.elems).bind (fun n => (terminal n.terms k.cls).map (·.2))

/-- The calls that change a trie. -/
inductive Op where
  | put (k : Key) (v : Val)
  | update (k : Key) (proc : Val → Val) (fallback : Option Val)
  | delete (k : Key)

/-- The trie after a call. -/
def run (t : Trie) : Op → Trie
  | .put k v => put t k v
  | .update k proc fb => (update t k proc fb).1
  | .delete k => delete t k

/-- The same on a map from keys to values. -/
def runMap (m : Key → Option Val) : Op → Key → Option Val
  | .put k v => fun x => if x = k then some v else m x
  | .update k proc fb => fun x => if x = k then (match m k with | some v => some (proc v) | none => fb.map proc) else m x
  | .delete k => fun x => if x = k then none else m x

/-- The trie after a history of calls. -/
def after (ops : List Op) : Trie := ops.foldl run empty

/-- The map after the same history. -/
def mapAfter (ops : List Op) : Key → Option Val := ops.foldl runMap (fun _ => none)

end Gauche.Trie

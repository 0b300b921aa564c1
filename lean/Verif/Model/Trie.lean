/-! Model of data.trie (libsrc/data/trie.scm).

A key is a sequence of elements with its class, so that a string and a list with the same elements are different keys.  A value is a number or
`none` for #f.  The table of a node is a list of elements with nodes, in the order in which `tab-fold` goes over it; a node without a table
and a node with an empty table are not distinguished, since a table is made only to put a node into it (libsrc/data/trie.scm:152-154, 189-205).  Changes of a
node in the trie are modelled by making the path to it anew. -/
namespace Gauche.Trie

/-- A value; `none` is #f. -/
abbrev Val := Option Nat

/-- A key: its class and its elements (`class-of` and `x->generator`, libsrc/data/trie.scm:158-186). -/
structure Key where
  cls : Nat
  elems : List Nat
deriving DecidableEq

mutual
/-- A node: its table and its terminals (libsrc/data/trie.scm:62-69, 148-150). -/
inductive Node where
  | mk (tab : Tab) (terms : List (Key × Val))
/-- A table of elements and nodes (libsrc/data/trie.scm:71-88). -/
inductive Tab where
  | nil
  | cons (e : Nat) (n : Node) (rest : Tab)
end

/-- `%make-node` (libsrc/data/trie.scm:148). -/
def emptyNode : Node := .mk .nil []

def Node.tab : Node → Tab | .mk t _ => t
def Node.terms : Node → List (Key × Val) | .mk _ l => l

/-- `tab-get`, a lookup in a hash table (libsrc/data/trie.scm:101). -/
def Tab.get : Tab → Nat → Option Node
  | .nil, _ => none
  | .cons e n r, x => if e = x then some n else r.get x

/-- `tab-put!` with a node (libsrc/data/trie.scm:102-107). -/
def Tab.put : Tab → Nat → Node → Tab
  | .nil, x, n => .cons x n .nil
  | .cons e m r, x, n => if e = x then .cons e n r else .cons e m (r.put x n)

/-- `%trie-get-node` (libsrc/data/trie.scm:175-186). -/
def find (n : Node) : List Nat → Option Node
  | [] => some n
  | e :: es =>
    match n.tab.get e with
    | some m => find m es
    | none => none

/-- `%trie-get-node-or-create` (libsrc/data/trie.scm:189-205), and a change of the terminals of the node. -/
def upd (f : List (Key × Val) → List (Key × Val)) (n : Node) : List Nat → Node
  | [] => .mk n.tab (f n.terms)
  | e :: es =>
    match n.tab.get e with
    | some m => .mk (n.tab.put e (upd f m es)) n.terms
    | none => .mk (n.tab.put e (upd f emptyNode es)) n.terms

/-- `%node-find-terminal` (libsrc/data/trie.scm:158-160). -/
def terminal (ts : List (Key × Val)) (c : Nat) : Option (Key × Val) := ts.find? (fun p => p.1.cls = c)

/-- `set-cdr!` of the terminal with the class, in `trie-put!` and `trie-update!`. -/
def setTerminal (c : Nat) (v : Val) : List (Key × Val) → List (Key × Val)
  | [] => []
  | p :: r => if p.1.cls = c then (p.1, v) :: r else p :: setTerminal c v r

/-- `<trie>` (libsrc/data/trie.scm:95-97). -/
structure Trie where
  root : Node
  size : Nat

/-- `make-trie` (libsrc/data/trie.scm:119-127). -/
def empty : Trie := ⟨emptyNode, 0⟩

/-- `trie-exists?` (libsrc/data/trie.scm:239-241). -/
def existsP (t : Trie) (k : Key) : Bool :=
  match find t.root k.elems with
  | some n => (terminal n.terms k.cls).isSome
  | none => false

/-- `trie-get` (libsrc/data/trie.scm:251-255): `none` is an error, and so is a missing fallback. -/
def get (t : Trie) (k : Key) (fallback : Option Val) : Option Val :=
  match (find t.root k.elems).bind (fun n => terminal n.terms k.cls) with
  | some (_, some v) => some (some v)
  | some (_, none) => fallback
  | none => fallback

/-- `trie-put!` (libsrc/data/trie.scm:257-264). -/
def put (t : Trie) (k : Key) (v : Val) : Trie :=
  let old := ((find t.root k.elems).getD emptyNode).terms
  match terminal old k.cls with
  | some _ => ⟨upd (setTerminal k.cls v) t.root k.elems, t.size⟩
  | none => ⟨upd (fun ts => (k, v) :: ts) t.root k.elems, t.size + 1⟩

/-- `trie-update!` (libsrc/data/trie.scm:266-274); `false` is an error, after which the path to the node is there. -/
def update (t : Trie) (k : Key) (proc : Val → Val) (fallback : Option Val) : Trie × Bool :=
  let old := ((find t.root k.elems).getD emptyNode).terms
  match terminal old k.cls with
  | some p => (⟨upd (setTerminal k.cls (proc p.2)) t.root k.elems, t.size⟩, true)
  | none =>
    match fallback with
    | some v => (⟨upd (fun ts => (k, proc v) :: ts) t.root k.elems, t.size + 1⟩, true)
    | none => (⟨upd id t.root k.elems, t.size⟩, false)

/-- `trie-delete!` (libsrc/data/trie.scm:276-286); the size is decremented for every terminal that is removed. -/
def delete (t : Trie) (k : Key) : Trie :=
  match find t.root k.elems with
  | some n => ⟨upd (fun ts => ts.filter (fun p => p.1.cls ≠ k.cls)) t.root k.elems, t.size - (n.terms.filter (fun p => p.1.cls = k.cls)).length⟩
  | none => t

/-- `%trie-node-empty?` (libsrc/data/trie.scm:226-235); the last clause of the `cond`, for tables without a test, gives #f for every table, and there is no table without a node. -/
def nodeEmpty (n : Node) : Bool :=
  match n.tab with
  | .nil => true
  | .cons _ _ _ => false

/-- `trie-partial-key?` (libsrc/data/trie.scm:247-249). -/
def partialKey (t : Trie) (l : List Nat) : Bool :=
  match find t.root l with
  | some n => !nodeEmpty n
  | none => false

/-- The loop of `%trie-get-node-longest` (libsrc/data/trie.scm:208-223). -/
def longestLoop (c : Nat) : List Nat → Node → Option (Key × Val) → Option (Key × Val)
  | [], _, last => last
  | e :: es, n, last =>
    match n.tab.get e with
    | some m => longestLoop c es m (match terminal m.terms c with | some p => some p | none => last)
    | none => last

/-- `trie-longest-match` (libsrc/data/trie.scm:288-290) without the fallback. -/
def longest (t : Trie) (k : Key) : Option (Key × Val) := longestLoop k.cls k.elems t.root (terminal t.root.terms k.cls)

mutual
/-- `%trie-node-fold` (libsrc/data/trie.scm:297-309); `isF` says which seed is #f. -/
def foldNode {S : Type} (isF : S → Bool) (proc : Key × Val → S → S) : Node → S → S
  | .mk tab terms, seed =>
    let s := foldTab isF proc tab seed
    terms.foldl (fun s p => proc p s) (if isF s then seed else s)
/-- `tab-fold` (libsrc/data/trie.scm:109). -/
def foldTab {S : Type} (isF : S → Bool) (proc : Key × Val → S → S) : Tab → S → S
  | .nil, seed => seed
  | .cons _ n r, seed => foldTab isF proc r (foldNode isF proc n seed)
end

/-- `trie-common-prefix-fold` (libsrc/data/trie.scm:327-330). -/
def prefixFold {S : Type} (isF : S → Bool) (t : Trie) (l : List Nat) (proc : Key × Val → S → S) (seed : S) : S :=
  match find t.root l with
  | some n => foldNode isF proc n seed
  | none => seed

/-- `trie-common-prefix` (libsrc/data/trie.scm:318-319); a list is never #f. -/
def commonPrefix (t : Trie) (l : List Nat) : List (Key × Val) := prefixFold (fun _ => false) t l (fun p s => p :: s) []

end Gauche.Trie

/-
Model of src/treemap.c (red-black tree core), the tree-map primitives in src/libhash.scm and
lib/gauche/treeutil.scm.

Simplifications:
* A C `Node*` is represented by a location: the subtree hanging from the node together with the
  path of frames up to the root (the parent pointers).  Mutation through parent pointers becomes
  rebuilding along the path (`plug`).  Pointer identity of nodes held outside the tree
  is not represented (so iterators are modelled for traversals without concurrent mutation).
* `none` models: a failed SCM_ASSERT, a NULL dereference, or a raised Scheme error.
* The comparison function `cmp e.key key` is a pure function to `Ordering`
  (-,0,+); the `tc->cmp == NULL` case is the instance comparing the raw words.
* `new_node`'s value 0 ("not set yet") followed by the caller's SCM_DICT_SET_VALUE is modelled by
  passing the value-computing function `f : Option ν → ν` (argument `none` = freshly created).
-/
namespace Gauche.TreeMap

/-- src/treemap.c:63-64 `BLACK`, `RED`. -/
inductive Color where
  | black | red
deriving DecidableEq, Repr

/-- src/treemap.c:44-51 `NodeRec`: colour, children, key, value (parent: see `Frame`). -/
inductive Tree (κ ν : Type) where
  | nil
  | node (c : Color) (l : Tree κ ν) (k : κ) (v : ν) (r : Tree κ ν)
deriving DecidableEq, Repr

open Color Tree

/-- Which child of its parent a node is: src/treemap.c:70 `LEFTP`, src/treemap.c:71 `RIGHTP`. -/
inductive Side where
  | L | R
deriving DecidableEq, Repr

/-- A parent node as seen from a child: our side, the parent's colour, key, value and
its other child. -/
structure Frame (κ ν : Type) where
  side : Side
  c : Color
  k : κ
  v : ν
  sib : Tree κ ν

/-- Ancestors, nearest first. -/
abbrev Path (κ ν : Type) := List (Frame κ ν)

variable {κ ν : Type}

/-- src/treemap.c:65 `REDP`. -/
def isRed : Tree κ ν → Bool
  | node red _ _ _ _ => true
  | _ => false
/-- src/treemap.c:64 `BLACKP`: NULL counts as black. -/
def isBlack (t : Tree κ ν) : Bool := !isRed t

/-- The parent node with child `t` put back on its side. -/
def Frame.fill (f : Frame κ ν) (c : Color) (t : Tree κ ν) : Tree κ ν :=
  match f.side with
  | .L => node c t f.k f.v f.sib
  | .R => node c f.sib f.k f.v t

/-- The root of the whole tree when the node at `path` is `t`
(src/treemap.c:498-507 `replace_node` with the links above unchanged). -/
def plug (t : Tree κ ν) : Path κ ν → Tree κ ν
  | [] => t
  | f :: path => plug (f.fill f.c t) path

/-- src/treemap.c:67 `PAINT`; `none` = painting through a NULL pointer. -/
def paint (c : Color) : Tree κ ν → Option (Tree κ ν)
  | nil => none
  | node _ l k v r => some (node c l k v r)

/-- src/treemap.c:518-527 `rotate_right`; `none` = the assertion that the left child exists. -/
def rotateRight : Tree κ ν → Option (Tree κ ν)
  | node c (node lc gl lk lv gr) k v r => some (node lc gl lk lv (node c gr k v r))
  | _ => none
/-- src/treemap.c:537-546 `rotate_left`; `none` = the assertion that the right child exists. -/
def rotateLeft : Tree κ ν → Option (Tree κ ν)
  | node c l k v (node rc gl rk rv gr) => some (node rc (node c l k v gl) rk rv gr)
  | _ => none

/-- src/treemap.c:555-594 `balance_tree`, cases 4a, 4b: make `n` an outer grandchild of g; the result is the
subtree at p's place. -/
def balanceOuter (p g : Frame κ ν) (n : Tree κ ν) : Option (Tree κ ν) :=
  if p.side = .R ∧ g.side = .L then rotateLeft (p.fill p.c n)
  else if p.side = .L ∧ g.side = .R then rotateRight (p.fill p.c n)
  else some (p.fill p.c n)
/-- src/treemap.c:555-594 `balance_tree`, cases 5a, 5b, with `pt` the (already black) child at p's place. -/
def balanceRotate (g : Frame κ ν) (pt : Tree κ ν) : Option (Tree κ ν) :=
  if g.side = .L then rotateRight (g.fill red pt) else rotateLeft (g.fill red pt)

/-- src/treemap.c:555-594 `balance_tree`, with `n` the inserted (or recursively repainted) node.
Returns the new root. -/
def balanceTree (n : Tree κ ν) (path : Path κ ν) : Option (Tree κ ν) :=
  match path with
  | [] => paint black n                                   -- case 1
  | p :: path' =>
    if p.c = black then some (plug n (p :: path'))        -- case 2
    else match path' with
      | [] => none                                        -- SCM_ASSERT(g != NULL)
      | g :: path'' =>
        if isRed g.sib then                               -- case 3
          (paint black g.sib).bind fun u => balanceTree ({ g with sib := u }.fill red (p.fill black n)) path''
        else
          (balanceOuter p g n).bind fun pt =>
          (paint black pt).bind fun pt =>
          (balanceRotate g pt).map fun res => plug res path''

/-- src/treemap.c:604-677 `delete_node1`, case 7a: the sibling after a possible right rotation. -/
def case7a (sc : Color) (sl : Tree κ ν) (sk : κ) (sv : ν) (sr : Tree κ ν) : Option (Tree κ ν) :=
  if isRed sl ∧ isBlack sr then
    (paint black sl).bind fun sl' => rotateRight (node red sl' sk sv sr)
  else some (node sc sl sk sv sr)
/-- src/treemap.c:604-677 `delete_node1`, case 7b. -/
def case7b (sc : Color) (sl : Tree κ ν) (sk : κ) (sv : ν) (sr : Tree κ ν) : Option (Tree κ ν) :=
  if isBlack sl ∧ isRed sr then
    (paint black sr).bind fun sr' => rotateLeft (node red sl sk sv sr')
  else some (node sc sl sk sv sr)
/-- src/treemap.c:604-677 `delete_node1`, case 8a: the subtree replacing `parent`. -/
def case8a (child : Tree κ ν) (f : Frame κ ν) : Tree κ ν → Option (Tree κ ν)
  | nil => none
  | node _ sl sk sv sr => (paint black sr).bind fun sr' =>
    rotateLeft (node black child f.k f.v (node f.c sl sk sv sr'))
/-- src/treemap.c:604-677 `delete_node1`, case 8b. -/
def case8b (child : Tree κ ν) (f : Frame κ ν) : Tree κ ν → Option (Tree κ ν)
  | nil => none
  | node _ sl sk sv sr => (paint black sl).bind fun sl' =>
    rotateRight (node black (node f.c sl' sk sv sr) f.k f.v child)

/-- src/treemap.c:604-677 `delete_node1`, from "if (REDP(parent) && ..." (case 6) to the end, when
`f` is the frame of `parent`, `child` its black child. -/
def deleteTail (child : Tree κ ν) (f : Frame κ ν) (path : Path κ ν) : Option (Tree κ ν) :=
  match f.sib with
  | nil => none
  | node sc sl sk sv sr =>
    if f.c = red ∧ isBlack sl ∧ isBlack sr then           -- case 6
      some (plug ({ f with sib := node red sl sk sv sr }.fill black child) path)
    else match f.side with
      | .L => (case7a sc sl sk sv sr).bind fun s => (case8a child f s).map fun res => plug res path
      | .R => (case7b sc sl sk sv sr).bind fun s => (case8b child f s).map fun res => plug res path

/-- src/treemap.c:604-677 `delete_node1`, the loop from label `recur`. When the sibling is red (case 4)
the parent has just been painted red, so the case 5 test fails and control reaches `deleteTail`
with the rotated frames. -/
def deleteRecur (child : Tree κ ν) : Path κ ν → Option (Tree κ ν)
  | [] => some child                                      -- case 3
  | f :: path =>
    match f.sib with
    | nil => none                                         -- SCM_ASSERT(sibling != NULL)
    | node sc sl sk sv sr =>
      if sc = red then                                    -- cases 4a, 4b
        match f.side with
        | .L => deleteTail child { f with c := red, sib := sl } (⟨.L, black, sk, sv, sr⟩ :: path)
        | .R => deleteTail child { f with c := red, sib := sr } (⟨.R, black, sk, sv, sl⟩ :: path)
      else if f.c = black ∧ isBlack sl ∧ isBlack sr then  -- case 5
        deleteRecur ({ f with sib := node red sl sk sv sr }.fill f.c child) path
      else deleteTail child f path

/-- src/treemap.c:604-677 `delete_node1`: `todie` (colour `c`) at `path` has the only child `child`. -/
def deleteNode1 (c : Color) (child : Tree κ ν) (path : Path κ ν) : Option (Tree κ ν) :=
  if c = red then some (plug child path)                  -- case 1
  else if isRed child then (paint black child).map fun t => plug t path  -- case 2
  else deleteRecur child path

/-- src/treemap.c:439-443 `rightmost`: the node, with the frames from it up to (excluding) `path`. -/
def rightmost (c : Color) (l : Tree κ ν) (k : κ) (v : ν) : (r : Tree κ ν) → Path κ ν →
    (Color × Tree κ ν × κ × ν) × Path κ ν
  | nil, path => ((c, l, k, v), path)
  | node c' l' k' v' r', path => rightmost c' l' k' v' r' (⟨.R, c, k, v, l⟩ :: path)
/-- src/treemap.c:445-449 `leftmost`. -/
def leftmost (c : Color) : (l : Tree κ ν) → (k : κ) → (v : ν) → (r : Tree κ ν) → Path κ ν →
    (Color × κ × ν × Tree κ ν) × Path κ ν
  | nil, k, v, r, path => ((c, k, v, r), path)
  | node c' l' k' v' r', k, v, r, path => leftmost c' l' k' v' r' (⟨.L, c, k, v, r⟩ :: path)

/-- src/treemap.c:708-726 `delete_node` of the node `(c, l, k, v, r)` at `path`.  With two children it
first trades places with its in-order predecessor (src/treemap.c:679-706 `swap_node`: the nodes swap
position and colour, so the predecessor's key and value appear here and `todie` has the
predecessor's colour, left child and no right child).  Returns the new root. -/
def deleteNode (c : Color) (l : Tree κ ν) (r : Tree κ ν) (path : Path κ ν) : Option (Tree κ ν) :=
  match l, r with
  | node lc ll lk lv lr, node _ _ _ _ _ =>
    -- the predecessor is rightmost(l); everything above it in `l`
    let ((pc, pl, pk, pv), sub) := rightmost lc ll lk lv lr []
    deleteNode1 pc pl (sub ++ ⟨.L, c, pk, pv, r⟩ :: path)
  | node lc ll lk lv lr, nil => deleteNode1 c (node lc ll lk lv lr) path
  | nil, r => deleteNode1 c r path

/-- `ScmTreeCore`: root and number of entries. -/
structure Core (κ ν : Type) where
  root : Tree κ ν
  num : Nat

/-- INT_MAX of src/treemap.c:82-85 `CHECK_OVERFLOW`. -/
def intMax : Nat := 2 ^ 31 - 1

/-- src/treemap.c:101-109 `Scm_TreeCoreInit`. -/
def Core.init : Core κ ν := ⟨nil, 0⟩
/-- src/treemap.c:123-127 `Scm_TreeCoreClear`. -/
def Core.clear (_ : Core κ ν) : Core κ ν := ⟨nil, 0⟩

/-- src/treemap.c:810-818 `copy_tree`. -/
def copyTree : Tree κ ν → Tree κ ν
  | nil => nil
  | node c l k v r => node c (copyTree l) k v (copyTree r)
/-- src/treemap.c:111-121 `Scm_TreeCoreCopy`. -/
def Core.copy (t : Core κ ν) : Core κ ν := ⟨copyTree t.root, t.num⟩

variable (cmp : κ → κ → Ordering)

/-- src/treemap.c:729-807 `core_ref` with TREE_GET. -/
def coreGet (key : κ) : Tree κ ν → Option (κ × ν)
  | nil => none
  | node _ l k v r =>
    match cmp k key with
    | .eq => some (k, v)
    | .lt => coreGet key r
    | .gt => coreGet key l

/-- src/treemap.c:729-807 `core_ref` with TREE_CREATE followed by setting the value of the returned entry
to `f old`.  Result: new root and whether a node was added. -/
def coreCreateGo (key : κ) (f : Option ν → ν) : Tree κ ν → Path κ ν → Option (Tree κ ν × Bool)
  | nil, path => (balanceTree (node red nil key (f none) nil) path).map (·, true)
  | node c l k v r, path =>
    match cmp k key with
    | .eq => some (plug (node c l k (f (some v)) r) path, false)
    | .lt => coreCreateGo key f r (⟨.R, c, k, v, l⟩ :: path)
    | .gt => coreCreateGo key f l (⟨.L, c, k, v, r⟩ :: path)

/-- src/treemap.c:729-807 `core_ref` with TREE_CREATE on the core. `none` = "Too many entries" error or an
internal failure. -/
def Core.create (t : Core κ ν) (key : κ) (f : Option ν → ν) : Option (Core κ ν) :=
  match t.root with
  | nil => if t.num = intMax then none else some ⟨node black nil key (f none) nil, t.num + 1⟩
  | root => do
    let (root', added) ← coreCreateGo cmp key f root []
    if added then (if t.num = intMax then none else some ⟨root', t.num + 1⟩)
    else some ⟨root', t.num⟩

/-- src/treemap.c:729-807 `core_ref` with TREE_DELETE: deleted entry (if any) and new root. -/
def coreDeleteGo (key : κ) : Tree κ ν → Path κ ν → Option (Option ((κ × ν) × Tree κ ν))
  | nil, _ => some none
  | node c l k v r, path =>
    match cmp k key with
    | .eq => (deleteNode c l r path).map fun t => some ((k, v), t)
    | .lt => coreDeleteGo key r (⟨.R, c, k, v, l⟩ :: path)
    | .gt => coreDeleteGo key l (⟨.L, c, k, v, r⟩ :: path)

/-- src/treemap.c:392-398 `Scm_TreeMapDelete` / src/treemap.c:729-807 `core_ref` with TREE_DELETE:
the deleted entry and the new core. -/
def Core.delete (t : Core κ ν) (key : κ) : Option (Option (κ × ν) × Core κ ν) := do
  match ← coreDeleteGo cmp key t.root [] with
  | none => some (none, t)
  | some (e, root') => some (some e, ⟨root', t.num - 1⟩)

/-- src/treemap.c:162-175 `core_bound` with MIN and pop = FALSE. -/
def Core.min (t : Core κ ν) : Option (κ × ν) :=
  match t.root with
  | nil => none
  | node c l k v r => let ((_, k, v, _), _) := leftmost c l k v r []; some (k, v)
/-- src/treemap.c:162-175 `core_bound` with MAX and pop = FALSE. -/
def Core.max (t : Core κ ν) : Option (κ × ν) :=
  match t.root with
  | nil => none
  | node c l k v r => let ((_, _, k, v), _) := rightmost c l k v r []; some (k, v)

/-- src/treemap.c:162-175 `core_bound` with MIN and pop = TRUE: popped entry and new core; outer `none` =
internal failure. -/
def Core.popMin (t : Core κ ν) : Option (Option (κ × ν) × Core κ ν) :=
  match t.root with
  | nil => some (none, t)
  | node c l k v r =>
    let ((c', k', v', r'), path) := leftmost c l k v r []
    (deleteNode c' nil r' path).map fun root' => (some (k', v'), ⟨root', t.num - 1⟩)
/-- src/treemap.c:162-175 `core_bound` with MAX and pop = TRUE. -/
def Core.popMax (t : Core κ ν) : Option (Option (κ × ν) × Core κ ν) :=
  match t.root with
  | nil => some (none, t)
  | node c l k v r =>
    let ((c', l', k', v'), path) := rightmost c l k v r []
    (deleteNode c' l' nil path).map fun root' => (some (k', v'), ⟨root', t.num - 1⟩)

/-! ### Locations: neighbours and iteration -/

/-- A `Node*`: the node's fields and its ancestors. -/
structure Loc (κ ν : Type) where
  c : Color
  l : Tree κ ν
  k : κ
  v : ν
  r : Tree κ ν
  path : Path κ ν

/-- The climbing loop of src/treemap.c:452-460 `prev_node`: go up while we are a left child. -/
def climbPrev (t : Tree κ ν) : Path κ ν → Option (Loc κ ν)
  | [] => none
  | f :: path => match f.side with
    | .R => some ⟨f.c, f.sib, f.k, f.v, t, path⟩
    | .L => climbPrev (f.fill f.c t) path
/-- The climbing loop of src/treemap.c:463-471 `next_node`: go up while we are a right child. -/
def climbNext (t : Tree κ ν) : Path κ ν → Option (Loc κ ν)
  | [] => none
  | f :: path => match f.side with
    | .L => some ⟨f.c, t, f.k, f.v, f.sib, path⟩
    | .R => climbNext (f.fill f.c t) path

/-- src/treemap.c:452-460 `prev_node`. -/
def prevNode (n : Loc κ ν) : Option (Loc κ ν) :=
  match n.l with
  | node c l k v r =>
    let ((c', l', k', v'), path') := rightmost c l k v r (⟨.L, n.c, n.k, n.v, n.r⟩ :: n.path)
    some ⟨c', l', k', v', nil, path'⟩
  | nil => climbPrev (node n.c n.l n.k n.v n.r) n.path
/-- src/treemap.c:463-471 `next_node`. -/
def nextNode (n : Loc κ ν) : Option (Loc κ ν) :=
  match n.r with
  | node c l k v r =>
    let ((c', k', v', r'), path') := leftmost c l k v r (⟨.R, n.c, n.k, n.v, n.l⟩ :: n.path)
    some ⟨c', nil, k', v', r', path'⟩
  | nil => climbNext (node n.c n.l n.k n.v n.r) n.path

/-- src/treemap.c:729-807 `core_ref` with TREE_NEAR: (exact match, lo, hi). -/
def coreNear (key : κ) : Tree κ ν → Path κ ν → Option (Loc κ ν) × Option (Loc κ ν) × Option (Loc κ ν)
  | nil, _ => (none, none, none)
  | node c l k v r, path =>
    let e : Loc κ ν := ⟨c, l, k, v, r, path⟩
    match cmp k key with
    | .eq => (some e, prevNode e, nextNode e)
    | .lt => match r with
      | nil => (none, some e, nextNode e)
      | node c' l' k' v' r' => coreNear key (node c' l' k' v' r') (⟨.R, c, k, v, l⟩ :: path)
    | .gt => match l with
      | nil => (none, prevNode e, some e)
      | node c' l' k' v' r' => coreNear key (node c' l' k' v' r') (⟨.L, c, k, v, r⟩ :: path)

/-- The entry a location points to. -/
def Loc.entry (n : Loc κ ν) : κ × ν := (n.k, n.v)

/-- src/libhash.scm:778-780 `tree-map-floor` via src/libhash.scm:751-771 `tree-map-closest-entry`, inclusive, `lo`;
`none` = the fallbacks are returned. -/
def Core.floor (t : Core κ ν) (key : κ) : Option (κ × ν) :=
  match coreNear cmp key t.root [] with
  | (some e, _, _) => some e.entry
  | (none, some lo, _) => some lo.entry
  | (none, none, _) => none
/-- src/libhash.scm:786-788 `tree-map-ceiling`. -/
def Core.ceiling (t : Core κ ν) (key : κ) : Option (κ × ν) :=
  match coreNear cmp key t.root [] with
  | (some e, _, _) => some e.entry
  | (none, _, some hi) => some hi.entry
  | (none, _, none) => none
/-- src/libhash.scm:794-796 `tree-map-predecessor`. -/
def Core.predecessor (t : Core κ ν) (key : κ) : Option (κ × ν) :=
  (coreNear cmp key t.root []).2.1.map Loc.entry
/-- src/libhash.scm:804-806 `tree-map-successor`. -/
def Core.successor (t : Core κ ν) (key : κ) : Option (κ × ν) :=
  (coreNear cmp key t.root []).2.2.map Loc.entry

/-- `ScmTreeIter` (src/gauche/treemap.h); the tree `t` is not mutated during the traversal. -/
structure Iter (κ ν : Type) where
  c : Option (Loc κ ν)
  n : Option (Loc κ ν)
  p : Option (Loc κ ν)

/-- The location of the least node, src/treemap.c:162-175 `core_bound`. -/
def minLoc : Tree κ ν → Option (Loc κ ν)
  | nil => none
  | node c l k v r =>
    let ((c', k', v', r'), path) := leftmost c l k v r []
    some ⟨c', nil, k', v', r', path⟩
/-- The location of the greatest node, src/treemap.c:162-175 `core_bound`. -/
def maxLoc : Tree κ ν → Option (Loc κ ν)
  | nil => none
  | node c l k v r =>
    let ((c', l', k', v'), path) := rightmost c l k v r []
    some ⟨c', l', k', v', nil, path⟩

/-- src/treemap.c:225-240 `Scm_TreeIterInit` with start = NULL. -/
def Iter.init (t : Tree κ ν) : Iter κ ν := ⟨none, minLoc t, maxLoc t⟩

/-- src/treemap.c:491-495 `node_cleared_p`: no parent and no children. (NULL: false.) -/
def nodeCleared : Option (Loc κ ν) → Bool
  | some ⟨_, nil, _, _, nil, []⟩ => true
  | _ => false

/-- src/treemap.c:243-255 `Scm_TreeIterNext`; the returned entry is the new `c`. -/
def Iter.next (i : Iter κ ν) : Iter κ ν :=
  if nodeCleared i.c then ⟨i.n, i.n.bind nextNode, i.n.bind prevNode⟩
  else ⟨i.n, i.n.bind nextNode, i.c⟩
/-- src/treemap.c:257-269 `Scm_TreeIterPrev`. -/
def Iter.prev (i : Iter κ ν) : Iter κ ν :=
  if nodeCleared i.c then ⟨i.p, i.p.bind nextNode, i.p.bind prevNode⟩
  else ⟨i.p, i.c, i.p.bind prevNode⟩

/-- lib/gauche/treeutil.scm:71-79 `%tree-map-fold`: the loop, at most `fuel` steps (`none` = not
finished). -/
def foldLoop {σ : Type} (kons : κ → ν → σ → σ) (backward : Bool) : Nat → Iter κ ν → σ → Option σ
  | 0, _, _ => none
  | fuel + 1, i, s =>
    let i' := if backward then i.prev else i.next
    match i'.c with
    | none => some s
    | some n => foldLoop kons backward fuel i' (kons n.k n.v s)

/-- lib/gauche/treeutil.scm:81-82 `tree-map-fold`, lib/gauche/treeutil.scm:84-85 `tree-map-fold-right`. The loop takes one step more
than there are entries. -/
def Core.fold {σ : Type} (t : Core κ ν) (kons : κ → ν → σ → σ) (knil : σ) (backward : Bool) : Option σ :=
  foldLoop kons backward (t.num + 1) (Iter.init t.root) knil
/-- lib/gauche/treeutil.scm:115-116 `tree-map->alist`. -/
def Core.toAlist (t : Core κ ν) : Option (List (κ × ν)) :=
  t.fold (fun k v r => (k, v) :: r) [] true
/-- lib/gauche/treeutil.scm:109-110 `tree-map-keys`. -/
def Core.keys (t : Core κ ν) : Option (List κ) := t.fold (fun k _ r => k :: r) [] true
/-- lib/gauche/treeutil.scm:112-113 `tree-map-values`. -/
def Core.values (t : Core κ ν) : Option (List ν) := t.fold (fun _ v r => v :: r) [] true

/-! ### Scheme API -/

/-- src/treemap.c:366-375 `Scm_TreeMapRef`: `none` = fallback is returned (or the error of `dict-get`). -/
def Core.get (t : Core κ ν) (key : κ) : Option ν := (coreGet cmp key t.root).map (·.2)
/-- src/libhash.scm:700-701 `tree-map-exists?`. -/
def Core.exists_ (t : Core κ ν) (key : κ) : Bool := (coreGet cmp key t.root).isSome
/-- src/libhash.scm:672-673 `tree-map-put!` with src/treemap.c:379-390 `Scm_TreeMapSet`, flags 0. -/
def Core.put (t : Core κ ν) (key : κ) (v : ν) : Option (Core κ ν) := t.create cmp key fun _ => v
/-- src/libhash.scm:675-676 `tree-map-adjoin!`: SCM_DICT_NO_OVERWRITE. -/
def Core.adjoin (t : Core κ ν) (key : κ) (v : ν) : Option (Core κ ν) :=
  t.create cmp key fun o => o.getD v
/-- Set the value of an existing entry. -/
def setValue (key : κ) (v : ν) : Tree κ ν → Tree κ ν
  | nil => nil
  | node c l k v0 r => match cmp k key with
    | .eq => node c l k v r
    | .lt => node c l k v0 (setValue key v r)
    | .gt => node c (setValue key v l) k v0 r
/-- src/libhash.scm:678-679 `tree-map-replace!`: SCM_DICT_NO_CREATE. -/
def Core.replace (t : Core κ ν) (key : κ) (v : ν) : Core κ ν := ⟨setValue cmp key v t.root, t.num⟩
/-- src/libhash.scm:691-692 `tree-map-update!`, `proc` pure; without fallback an absent key is an error. -/
def Core.update (t : Core κ ν) (key : κ) (proc : ν → ν) (fallback : Option ν) : Option (Core κ ν) :=
  match fallback with
  | none => match coreGet cmp key t.root with
    | none => none
    | some (_, v) => some ⟨setValue cmp key (proc v) t.root, t.num⟩
  | some fb => t.create cmp key fun o => proc (o.getD fb)
/-- src/libhash.scm:694-695 `tree-map-push!` on list-valued maps. -/
def Core.push {α : Type} (t : Core κ (List α)) (key : κ) (x : α) : Option (Core κ (List α)) :=
  t.create cmp key fun o => x :: o.getD []
/-- src/libhash.scm:697-698 `tree-map-pop!` on list-valued maps: result value and new map; `none` = error (no
entry or empty list, and no fallback). -/
def Core.pop {α : Type} (t : Core κ (List α)) (key : κ) (fallback : Option α) :
    Option (α × Core κ (List α)) :=
  match coreGet cmp key t.root with
  | none => fallback.map (·, t)
  | some (_, []) => fallback.map (·, t)
  | some (_, x :: xs) => some (x, ⟨setValue cmp key xs t.root, t.num⟩)

/-- src/treemap.c:285-312 `check_traverse`: `none` = a consistency error is raised; otherwise the black depth
and the node count. -/
def checkTraverse : Tree κ ν → Nat → Option (Nat × Nat)
  | nil, depth => some (depth, 0)  -- the caller's `ld = depth` for an absent child
  | node c l _ _ r, depth => do
    let depth := if c = black then depth + 1 else depth
    if c = red ∧ isRed l then none else
    let (ld, n1) ← checkTraverse l depth
    if c = red ∧ isRed r then none else
    let (rd, n2) ← checkTraverse r depth
    if ld ≠ rd then none else some (ld, n1 + n2 + 1)
/-- src/treemap.c:314-324 `Scm_TreeCoreCheckConsistency`: true iff no error is raised. -/
def Core.check (t : Core κ ν) : Bool :=
  if isRed t.root then false
  else match t.root with
    | nil => t.num == 0
    | root => match checkTraverse root 1 with
      | none => false
      | some (_, cnt) => cnt == t.num

end Gauche.TreeMap

/-
Model of lib/data/imap.scm (module data.imap): Okasaki's functional red-black tree.

The comparator is a function `cmp : κ → κ → Ordering` (`comparator-compare` = -1, 0, 1); its
type check and errors raised inside a user comparator are not modelled.  `#f` (the empty tree)
is `Tree.E`.  An imap is its tree; the comparator slot never changes.
-/
namespace Gauche.IMap

inductive Color where
  | R | B
deriving DecidableEq, Repr

/-- lib/data/imap.scm:57 `T` and lib/data/imap.scm:59 `E?`. -/
inductive Tree (κ ν : Type) where
  | E
  | T (c : Color) (l : Tree κ ν) (p : κ × ν) (r : Tree κ ν)
deriving Repr, DecidableEq

variable {κ ν : Type} (cmp : κ → κ → Ordering)

open Color Tree

/-- lib/data/imap.scm:61-69 `balance`: the four `or` alternatives in order, then the default. -/
def balance : Color → Tree κ ν → κ × ν → Tree κ ν → Tree κ ν
  | B, T R (T R a x b) y c, z, d => T R (T B a x b) y (T B c z d)
  | B, T R a x (T R b y c), z, d => T R (T B a x b) y (T B c z d)
  | B, a, x, T R (T R b y c) z d => T R (T B a x b) y (T B c z d)
  | B, a, x, T R b y (T R c z d) => T R (T B a x b) y (T B c z d)
  | color, a, x, b => T color a x b

/-- lib/data/imap.scm:71-77 `get`. -/
def get (key : κ) : Tree κ ν → Option (κ × ν)
  | E => none
  | T _ a p b =>
    match cmp key p.1 with
    | .lt => get key a
    | .eq => some p
    | .gt => get key b

/-- lib/data/imap.scm:79-89 `insert`, inner `ins`. -/
def ins (key : κ) (val : ν) : Tree κ ν → Tree κ ν
  | E => T R E (key, val) E
  | T color a p b =>
    match cmp key p.1 with
    | .lt => balance color (ins key val a) p b
    | .eq => T color a (key, val) b
    | .gt => balance color a p (ins key val b)

/-- lib/data/imap.scm:79-89 `insert`; the `match-let1` on an empty tree (never produced by `ins`)
is given the value `E` here, see `ins_ne_E`. -/
def insert (key : κ) (val : ν) (t : Tree κ ν) : Tree κ ν :=
  match ins cmp key val t with
  | E => E
  | T _ a p b => T B a p b

/-- lib/data/imap.scm:91-96 `populate`. -/
def populate (t : Tree κ ν) : List (κ × ν) → Tree κ ν
  | [] => t
  | (k, v) :: al => populate (insert cmp k v t) al

/-- lib/data/imap.scm:99-104 `del-min`; `none` = no matching clause (empty tree). -/
def delMin : Tree κ ν → Option ((κ × ν) × Tree κ ν)
  | E => none
  | T _ E p E => some (p, E)
  | T _ E p b => some (p, b)
  | T color a p b => (delMin a).map fun (mp, a') => (mp, balance color a' p b)

/-- lib/data/imap.scm:98-120 `delete`, inner `del`. -/
def del (key : κ) : Tree κ ν → Tree κ ν
  | E => E
  | T color a p b =>
    match cmp key p.1 with
    | .lt => balance color (del key a) p b
    | .eq =>
      match a, b with
      | E, b => b
      | a, E => a
      | a, b => match delMin b with
        | some (mp, b') => balance color a mp b'
        | none => E  -- not reached: b is not empty, see `delMin_toList`
    | .gt => balance color a p (del key b)

/-- lib/data/imap.scm:98-120 `delete`. -/
def delete (key : κ) (t : Tree κ ν) : Tree κ ν :=
  match del cmp key t with
  | E => E
  | T _ a p b => T B a p b

/-- lib/data/imap.scm:167 `imap-empty?`. -/
def imapEmpty : Tree κ ν → Bool
  | E => true
  | _ => false
/-- lib/data/imap.scm:170-171 `imap-exists?`. -/
def imapExists (t : Tree κ ν) (key : κ) : Bool := (get cmp key t).isSome
/-- lib/data/imap.scm:174-179 `imap-get`: outer `none` = the "No such key" error, raised only without
a default. -/
def imapGet (t : Tree κ ν) (key : κ) (default : Option ν) : Option ν :=
  match get cmp key t with
  | some p => some p.2
  | none => default
/-- lib/data/imap.scm:140-147 `make-imap`. -/
def imapMake : Tree κ ν := E
/-- lib/data/imap.scm:182-185 `imap-put`. -/
def imapPut (t : Tree κ ν) (key : κ) (val : ν) : Tree κ ν := insert cmp key val t
/-- lib/data/imap.scm:188-191 `imap-delete`. -/
def imapDelete (t : Tree κ ν) (key : κ) : Tree κ ν := delete cmp key t
/-- lib/data/imap.scm:150-159 `alist->imap`. -/
def ofAlist (al : List (κ × ν)) : Tree κ ν := populate cmp E al

/-- lib/data/imap.scm:194-199 `imap-min`; `none` = `#f`. -/
def imapMin : Tree κ ν → Option (κ × ν)
  | E => none
  | T _ E p _ => some p
  | T _ a _ _ => imapMin a
/-- lib/data/imap.scm:202-207 `imap-max`; `none` = `#f`. -/
def imapMax : Tree κ ν → Option (κ × ν)
  | E => none
  | T _ _ p E => some p
  | T _ _ _ b => imapMax b

/-- lib/data/imap.scm:210-216 `%imap-fold`. -/
def fold {σ : Type} (proc : κ × ν → σ → σ) : Tree κ ν → σ → σ
  | E, seed => seed
  | T _ a p b, seed => fold proc b (proc p (fold proc a seed))
/-- lib/data/imap.scm:218-224 `%imap-fold-right`. -/
def foldRight {σ : Type} (proc : κ × ν → σ → σ) : Tree κ ν → σ → σ
  | E, seed => seed
  | T _ a p b, seed => foldRight proc a (proc p (foldRight proc b seed))

/-- Number of entries; used as measure only. -/
def size : Tree κ ν → Nat
  | E => 0
  | T _ a _ b => size a + size b + 1

/-- lib/data/imap.scm:227-241 `call-with-iterator`, the `next` closure: `dequeue!` from and
`queue-push!` to the front of the queue `q` of trees.  `none` = dequeue of an empty queue
or an empty tree in the queue. -/
def iterStep : List (Tree κ ν) → Option ((κ × ν) × List (Tree κ ν))
  | [] => none
  | E :: _ => none
  | T _ E p E :: q => some (p, q)
  | T _ E p b :: q => some (p, b :: q)
  | T c a p b :: q => iterStep (a :: T c E p b :: q)
termination_by q => (q.head?.map size).getD 0
decreasing_by simp_wf; simp [size]; omega

/-- All values delivered by `next` until `end?` (queue empty) holds, at most `n` of them. -/
def iterAll : Nat → List (Tree κ ν) → Option (List (κ × ν))
  | _, [] => some []
  | 0, _ => none
  | n + 1, q => (iterStep q).bind fun (p, q') => (iterAll n q').map (p :: ·)

/-- lib/data/imap.scm:227-241 `call-with-iterator`: initial queue. -/
def iterInit : Tree κ ν → List (Tree κ ν)
  | E => []
  | t => [t]

end Gauche.IMap

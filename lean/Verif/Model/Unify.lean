/-! Model of lib/util/unification.scm.

A tree is a variable, a value, or a tuple of trees.  `tuple-fold` is given by the user; here it goes through the elements from left to
right, and on two tuples with different numbers of elements it gives `#f`.  The dictionary (a hash table that is changed in place, and is
never used again after a failure) is a function.  The first argument of the recursive procedures bounds the depth; `none` means that it
was not enough, `some none` is `#f`. -/
namespace Gauche.Unify

/-- Trees (lib/util/unification.scm:42-43). -/
inductive Tree
  | var (v : Nat)
  | val (c : Nat)
  | tup (l : List Tree)

/-- The dictionary of the substitution (lib/util/unification.scm:96). -/
abbrev Dict := Nat → Option Tree

/-- `dict-put!` (lib/util/unification.scm:85). -/
def put (d : Dict) (v : Nat) (t : Tree) : Dict := fun x => if x = v then some t else d x

/-- `tuple-fold` in `occurs?` (lib/util/unification.scm:93). -/
def occursL (rec : Tree → Option Bool) : List Tree → Option Bool
  | [] => some false
  | a :: l => (rec a).bind (fun f => if f then some true else occursL rec l)

/-- `occurs?` (lib/util/unification.scm:87-94). -/
def occurs : Nat → Nat → Tree → Dict → Option Bool
  | 0, _, _, _ => none
  | k + 1, v, x, d =>
    match x with
    | .var y =>
      if v = y then some true
      else match d y with
        | some t => occurs k v t d
        | none => some false
    | .tup l => occursL (fun a => occurs k v a d) l
    | .val _ => some false

/-- `tuple-fold` in `unify-rec` (lib/util/unification.scm:75-76). -/
def unifyL (rec : Tree → Tree → Dict → Option (Option Dict)) : List Tree → List Tree → Dict → Option (Option Dict)
  | [], [], d => some (some d)
  | a :: l, b :: l', d =>
    match rec a b d with
    | none => none
    | some none => some none
    | some (some d') => unifyL rec l l' d'
  | _, _, _ => some none

/-- `unify-var` (lib/util/unification.scm:79-85); `rec` is `unify-rec`, and `k` bounds the depth of `occurs?`. -/
def unifyVar (k : Nat) (rec : Tree → Tree → Dict → Option (Option Dict)) (v : Nat) (x : Tree) (d : Dict) : Option (Option Dict) :=
  let bind : Option (Option Dict) := (occurs k v x d).map (fun o => if o then none else some (put d v x))
  match x with
  | .var y =>
    if v = y then some (some d)
    else match d v with
      | some t => rec t x d
      | none =>
        match d y with
        | some t => rec (.var v) t d
        | none => bind
  | _ =>
    match d v with
    | some t => rec t x d
    | none => bind

/-- `unify-rec` (lib/util/unification.scm:69-77). -/
def unifyRec : Nat → Tree → Tree → Dict → Option (Option Dict)
  | 0, _, _, _ => none
  | k + 1, a, b, d =>
    match a, b with
    | .var v, b => unifyVar k (unifyRec k) v b d
    | a, .var v => unifyVar k (unifyRec k) v a d
    | .val c, .val c' => some (if c = c' then some d else none)
    | .tup l, .tup l' => unifyL (unifyRec k) l l' d
    | _, _ => some none

/-- `unify` (lib/util/unification.scm:63-96). -/
def unify (k : Nat) (a b : Tree) : Option (Option Dict) := unifyRec k a b (fun _ => none)

/-- `map` of a procedure that may not come to an end (lib/util/unification.scm:124). -/
def mapO (f : Tree → Option Tree) : List Tree → Option (List Tree)
  | [] => some []
  | x :: l => (f x).bind (fun y => (mapO f l).map (fun ys => y :: ys))

/-- `subst` in `unify-merge` (lib/util/unification.scm:117-128); a tuple none of whose elements is changed is returned itself, which is not
distinguished here. -/
def subst (d : Dict) : Nat → Tree → Option Tree
  | 0, _ => none
  | k + 1, x =>
    match x with
    | .var v =>
      match d v with
      | some t => subst d k t
      | none => some (.var v)
    | .tup l => (mapO (subst d k) l).map .tup
    | .val c => some (.val c)

/-- `unify-merge` (lib/util/unification.scm:109-130). -/
def unifyMerge (k : Nat) (a b : Tree) : Option (Option Tree) :=
  match unify k a b with
  | none => none
  | some none => some none
  | some (some d) => (subst d k a).map some

end Gauche.Unify

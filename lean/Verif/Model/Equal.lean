import Verif.Spec.Equal
/-
Model of `equal?`: src/boolean.c:102-213 `Scm_EqualP` for leaves, flat lists and vectors, and src/libbool.scm:100-154 `%interleave-equal?`, the interleaved algorithm with a union-find
table that it falls back to.

Not modelled: NaN, identifiers (which are equal to their symbol), uniform vectors, boxes and objects with their own comparison function or `object-equal?` method.  The
memory is not changed while the comparison runs.
-/
namespace Gauche.Equal

/-- src/boolean.c:44-80 `Scm_EqvP` (and `eq?`): leaves with the same value, or the same object. -/
def eqv (x y : Val) : Bool := decide (x = y)

/-- src/boolean.c:116-203 `Scm_EqualP` on two leaves: strings by content, everything else like `eqv?`. -/
def equalLeaf : Leaf → Leaf → Bool
  | .str _ s, .str _ t => decide (s = t)
  | a, b => decide (a = b)

/-- `pair?`: the car and the cdr. -/
def asPair (H : Heap) : Val → Option (Val × Val)
  | .leaf _ => none
  | .ptr p =>
    match cellAt H p with
    | .pair a d => some (a, d)
    | .vec _ => none

/-- `vector?`: the elements. -/
def asVec (H : Heap) : Val → Option (List Val)
  | .leaf _ => none
  | .ptr p =>
    match cellAt H p with
    | .pair _ _ => none
    | .vec l => some l

/-- src/boolean.c:116-203 `Scm_EqualP` when `x` is neither a pair nor a vector. -/
def equalAtom (x y : Val) : Bool :=
  match x, y with
  | .leaf a, .leaf b => eqv x y || equalLeaf a b
  | _, _ => false

/-! ### the union-find table -/

/-- The content of a box: the size of the class, or a link to another box. -/
inductive Box where
  | cnt (n : Nat)
  | link (b : Nat)
deriving DecidableEq, Repr

/-- The hash table `ht` from objects to boxes, and the boxes. -/
structure UF where
  tab : Nat → Option Nat
  boxes : List Box

/-- The table before anything is entered. -/
def UF.empty : UF := ⟨fun _ => none, []⟩

/-- `hash-table-put!`. -/
def tabSet (t : Nat → Option Nat) (p b : Nat) : Nat → Option Nat := fun q => if q = p then some b else t q

/-- src/libbool.scm:160-167, the loop of `find`: `b` is a box that links to `n`.  The first argument bounds the number of rounds. -/
def findLoop : Nat → List Box → Nat → Nat → Option (List Box × Nat)
  | 0, _, _, _ => none
  | m + 1, B, b, n =>
    match B[n]? with
    | some (.link nn) => findLoop m (B.set b (.link nn)) n nn
    | _ => some (B, n)

/-- src/libbool.scm:157-168 `find`. -/
def find (B : List Box) (b : Nat) : Option (List Box × Nat) :=
  match B[b]? with
  | some (.link n) => findLoop B.length B b n
  | _ => some (B, b)

/-- The size in a root box. -/
def boxCnt (B : List Box) (b : Nat) : Nat :=
  match B[b]? with
  | some (.cnt n) => n
  | _ => 0

/-- src/libbool.scm:186-200: the classes of the two roots become one; the larger one keeps its root. -/
def link (B : List Box) (rx ry : Nat) : List Box :=
  if boxCnt B rx > boxCnt B ry then (B.set ry (.link rx)).set rx (.cnt (boxCnt B rx + boxCnt B ry))
  else (B.set rx (.link ry)).set ry (.cnt (boxCnt B ry + boxCnt B rx))

/-- src/libbool.scm:156-195 `%union-find`: whether the objects are in the same class already; if not they are put into the same class. -/
def unionFind (u : UF) (x y : Nat) : Option (Bool × UF) :=
  match u.tab x, u.tab y with
  | none, none => some (false, ⟨tabSet (tabSet u.tab x u.boxes.length) y u.boxes.length, u.boxes ++ [.cnt 1]⟩)
  | none, some bY =>
    match find u.boxes bY with
    | none => none
    | some (B, ry) => some (false, ⟨tabSet u.tab x ry, B⟩)
  | some bX, none =>
    match find u.boxes bX with
    | none => none
    | some (B, rx) => some (false, ⟨tabSet u.tab y rx, B⟩)
  | some bX, some bY =>
    match find u.boxes bX with
    | none => none
    | some (B, rx) =>
      match find B bY with
      | none => none
      | some (B', ry) => if rx = ry then some (true, ⟨u.tab, B'⟩) else some (false, ⟨u.tab, link B' rx ry⟩)

/-! ### the interleaved comparison -/

/-- src/libbool.scm:98-99. -/
def K0 : Int := 401
/-- src/libbool.scm:98-99. -/
def Kb : Int := -40

/-- The table and the number of calls of `sys-random` so far. -/
structure St where
  uf : UF
  pos : Nat

/-- The answer of `e?`, `slow?` and `fast?`: out of fuel (`none`), `#f` (`some none`), or the new `k`. -/
abbrev Ans := Option (Option Int × St)

/-- The components one after another, as in the `and-let*` for pairs and the loops for vectors. -/
def seqE (rec : Val → Val → Int → St → Ans) : List Val → List Val → Int → St → Ans
  | x :: xs, y :: ys, k, s =>
    match rec x y k s with
    | some (some k', s') => seqE rec xs ys k' s'
    | r => r
  | _, _, k, s => some (some k, s)

/-- src/libbool.scm:113-134, `slow?`. -/
def slow (H : Heap) (rec : Val → Val → Int → St → Ans) (x y : Val) (k : Int) (s : St) : Ans :=
  if eqv x y then some (some k, s)
  else
    match x with
    | .leaf _ => some (if equalAtom x y then some k else none, s)
    | .ptr p =>
      match y with
      | .leaf _ => some (none, s)
      | .ptr q =>
        match cellAt H p, cellAt H q with
        | .pair a d, .pair a' d' =>
          match unionFind s.uf p q with
          | none => none
          | some (true, u) => some (some 0, { s with uf := u })
          | some (false, u) => seqE rec [a, d] [a', d'] (k - 1) { s with uf := u }
        | .vec l, .vec l' =>
          if l'.length = l.length then
            match unionFind s.uf p q with
            | none => none
            | some (true, u) => some (some 0, { s with uf := u })
            | some (false, u) => seqE rec l l' (k - 1) { s with uf := u }
          else some (none, s)
        | _, _ => some (none, s)

/-- src/libbool.scm:135-153, `fast?`. -/
def fast (H : Heap) (rec : Val → Val → Int → St → Ans) (x y : Val) (k : Int) (s : St) : Ans :=
  if eqv x y then some (some (k - 1), s)
  else
    match x with
    | .leaf _ => some (if equalAtom x y then some (k - 1) else none, s)
    | .ptr p =>
      match y with
      | .leaf _ => some (none, s)
      | .ptr q =>
        match cellAt H p, cellAt H q with
        | .pair a d, .pair a' d' => seqE rec [a, d] [a', d'] (k - 1) s
        | .vec l, .vec l' => if l'.length = l.length then seqE rec l l' (k - 1) s else some (none, s)
        | _, _ => some (none, s)

/-- src/libbool.scm:107-112, `e?`; `rnd` is what `sys-random` returns.  The first argument bounds the depth of the recursion. -/
def e (H : Heap) (rnd : Nat → Nat) : Nat → Val → Val → Int → St → Ans
  | 0, _, _, _, _ => none
  | m + 1, x, y, k, s =>
    if k ≤ 0 then
      if k = Kb then fast H (e H rnd m) x y (((rnd s.pos : Int)) % (2 * K0)) { s with pos := s.pos + 1 }
      else slow H (e H rnd m) x y k s
    else fast H (e H rnd m) x y k s

/-- src/libbool.scm:100-154 `%interleave-equal?`. -/
def interleave (H : Heap) (rnd : Nat → Nat) (fuel : Nat) (x y : Val) : Option Bool :=
  (e H rnd fuel x y K0 ⟨UF.empty, 0⟩).map (·.1.isSome)

/-! ### the C part -/

/-- The outcome of the macro `CHECK_AGGREGATE`. -/
inductive Chk where
  | ok
  | no
  | fallback
deriving DecidableEq, Repr

/-- src/boolean.c:104-114, the macro `CHECK_AGGREGATE`. -/
def checkAgg (H : Heap) (a b : Val) : Chk :=
  if (asPair H a).isSome then (if (asPair H b).isSome then .fallback else .no)
  else if (asVec H a).isSome then (if (asVec H b).isSome then .fallback else .no)
  else if equalAtom a b then .ok else .no

/-- How the loop over the lists ends: with an answer, with the call of the Scheme routine, or with the call of `Scm_EqualP` for the ends of the lists. -/
inductive Out where
  | ret (b : Bool)
  | fallback (x y : Val)
  | tail (x y : Val)
deriving DecidableEq, Repr

/-- The cdr of a pair. -/
def cdr (H : Heap) (v : Val) : Val :=
  match asPair H v with
  | some (_, d) => d
  | none => v

/-- src/boolean.c:123-155, the loop for two lists.  The first argument bounds the number of rounds. -/
def listLoop (H : Heap) : Nat → Val → Val → Val → Val → Bool → Bool → Option Out
  | 0, _, _, _, _, _, _ => none
  | m + 1, x, y, xslow, yslow, xcirc, ycirc =>
    match asPair H x, asPair H y with
    | some (a, x1), some (b, y1) =>
      match checkAgg H a b with
      | .no => some (.ret false)
      | .fallback => some (.fallback x y)
      | .ok =>
        match asPair H x1, asPair H y1 with
        | some (a', x2), some (b', y2) =>
          match checkAgg H a' b' with
          | .no => some (.ret false)
          | .fallback => some (.fallback x1 y1)
          | .ok =>
            if xslow = x1 ∧ ycirc then some (.ret true)
            else if yslow = y1 ∧ (xcirc ∨ xslow = x1) then some (.ret true)
            else if (asPair H x2).isSome ∧ (asPair H y2).isSome then
              listLoop H m x2 y2 (cdr H xslow) (cdr H yslow) (xcirc || decide (xslow = x1)) (ycirc || decide (yslow = y1))
            else some (.tail x2 y2)
        | _, _ => some (.tail x1 y1)
    | _, _ => some (.tail x y)

/-- src/boolean.c:156-172, the loop for two vectors: `some b` is an answer, `none` the call of the Scheme routine. -/
def vecLoop (H : Heap) : List Val → List Val → Option Bool
  | a :: l, b :: l' =>
    match checkAgg H a b with
    | .no => some false
    | .fallback => none
    | .ok => vecLoop H l l'
  | _, _ => some true

/-- src/boolean.c:116-203, `Scm_EqualP` for values that are not both pairs. -/
def equalNonPair (H : Heap) (rnd : Nat → Nat) (fuel : Nat) (x y : Val) : Option Bool :=
  if eqv x y then some true
  else if (asPair H x).isSome then some false
  else
    match asVec H x with
    | some l =>
      match asVec H y with
      | some l' =>
        if l'.length = l.length then
          match vecLoop H l l' with
          | some b => some b
          | none => interleave H rnd fuel x y
        else some false
      | none => some false
    | none => some (equalAtom x y)

/-- src/boolean.c:102-213 `Scm_EqualP`: `equal?`. -/
def equalP (H : Heap) (rnd : Nat → Nat) (fuel : Nat) (x y : Val) : Option Bool :=
  if eqv x y then some true
  else if (asPair H x).isSome ∧ (asPair H y).isSome then
    match listLoop H fuel x y x y false false with
    | none => none
    | some (.ret b) => some b
    | some (.fallback x' y') => interleave H rnd fuel x' y'
    | some (.tail x' y') => equalNonPair H rnd fuel x' y'
  else equalNonPair H rnd fuel x y

end Gauche.Equal

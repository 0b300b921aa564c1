import Mathlib.Data.List.Basic
/-
Longest common subsequence, lib/util/lcs.scm.

`eq` is the equality procedure given by the caller, called on an element of the first and one of the second
sequence.  The three vectors `V_d`, `V_l`, `V_r` are kept as one vector of triples (they are always read and
written at the same index); an index out of range gives `none`.  Loops carry a number of rounds; `none` if it does
not suffice.
-/
namespace Gauche.Lcs

variable {α : Type}

/-- An entry of `V_d`, `V_l` and `V_r` of lib/util/lcs.scm:63-125 `lcs-with-positions`. -/
structure Cell (α : Type) where
  x : Int
  l : Int
  r : List (α × Int × Int)

/-- The vectors of lib/util/lcs.scm:63-125 `lcs-with-positions`: `mn` is `M+N`. -/
structure Vec (α : Type) where
  mn : Int
  cells : List (Cell α)

/-- `(make-vector (+ (* 2 M+N) 1) …)` of lib/util/lcs.scm:63-125 `lcs-with-positions`. -/
def Vec.make (mn : Nat) : Vec α := ⟨mn, List.replicate (2 * mn + 1) ⟨0, 0, []⟩⟩

/-- `vector-ref` with the offset `M+N`, the macros `vd`, `vr`, `vl` of lib/util/lcs.scm:63-125 `lcs-with-positions`. -/
def Vec.get (v : Vec α) (i : Int) : Option (Cell α) :=
  if 0 ≤ i + v.mn then v.cells[(i + v.mn).toNat]? else none

/-- `vector-set!` with the offset `M+N`, the macros `vd`, `vr`, `vl` of lib/util/lcs.scm:63-125 `lcs-with-positions`. -/
def Vec.set (v : Vec α) (i : Int) (c : Cell α) : Option (Vec α) :=
  if 0 ≤ i + v.mn ∧ i + v.mn < v.cells.length then some { v with cells := v.cells.set (i + v.mn).toNat c } else none

/-- `(vector-ref A i)`. -/
def vref (a : List α) (i : Int) : Option α := if 0 ≤ i then a[i.toNat]? else none

/-- `xy-loop` of lib/util/lcs.scm:63-125 `lcs-with-positions`. -/
def xyLoop (eq : α → α → Bool) (a b : List α) : Nat → Int → Int → Int → List (α × Int × Int) → Option (Int × Int × Int × List (α × Int × Int))
  | 0, _, _, _, _ => none
  | fuel + 1, x, y, l, r =>
    if (a.length : Int) ≤ x then some (x, y, l, r)
    else if (b.length : Int) ≤ y then some (x, y, l, r)
    else
      (vref a x).bind fun ax => (vref b y).bind fun bY =>
        if eq ax bY then xyLoop eq a b fuel (x + 1) (y + 1) (l + 1) ((ax, x, y) :: r)
        else some (x, y, l, r)

/-- The choice of the neighbouring diagonal in lib/util/lcs.scm:63-125 `lcs-with-positions`. -/
def choose (v : Vec α) (d k : Int) : Option (Cell α) :=
  if k = -d then v.get (k + 1)
  else if k = d then (v.get (k - 1)).map fun c => { c with x := c.x + 1 }
  else (v.get (k - 1)).bind fun c1 => (v.get (k + 1)).bind fun c2 =>
    if c1.x < c2.x then some c2 else some { c1 with x := c1.x + 1 }

/-- `k-loop` of lib/util/lcs.scm:63-125 `lcs-with-positions`: the vectors, and whether `finish` is called. -/
def kLoop (eq : α → α → Bool) (a b : List α) : Nat → Int → Int → Vec α → Option (Vec α × Bool)
  | 0, _, _, _ => none
  | fuel + 1, d, k, v =>
    if d < k then some (v, false)
    else
      (choose v d k).bind fun c =>
      (xyLoop eq a b (a.length + 1) c.x (c.x - k) c.l c.r).bind fun q =>
      (v.set k ⟨q.1, q.2.2.1, q.2.2.2⟩).bind fun v =>
        if (a.length : Int) ≤ q.1 ∧ (b.length : Int) ≤ q.2.1 then some (v, true)
        else kLoop eq a b fuel d (k + 2) v

/-- `d-loop` of lib/util/lcs.scm:63-125 `lcs-with-positions`: the vectors when `finish` is called. -/
def dLoop (eq : α → α → Bool) (a b : List α) : Nat → Int → Vec α → Option (Vec α)
  | 0, _, _ => none
  | fuel + 1, d, v =>
    if v.mn < d then none
    else (kLoop eq a b (d.toNat + 2) d (-d) v).bind fun p =>
      if p.2 then some p.1 else dLoop eq a b fuel (d + 1) p.1

/-- `finish` of lib/util/lcs.scm:63-125 `lcs-with-positions` (the vectors are scanned from the lowest index). -/
def finish (cells : List (Cell α)) (maxl : Int) (r : List (α × Int × Int)) : Int × List (α × Int × Int) :=
  match cells with
  | [] => (maxl, r.reverse)
  | c :: rest => if maxl < c.l then finish rest c.l c.r else finish rest maxl r

/-- lib/util/lcs.scm:63-125 `lcs-with-positions`; `none` = an error. -/
def lcsWithPositions (eq : α → α → Bool) (a b : List α) : Option (Int × List (α × Int × Int)) :=
  let mn := a.length + b.length
  if mn = 0 then some (0, [])
  else (dLoop eq a b (mn + 1) 0 (Vec.make mn)).map fun v => finish v.cells 0 []

/-- lib/util/lcs.scm:128-129 `lcs`. -/
def lcs (eq : α → α → Bool) (a b : List α) : Option (List α) :=
  (lcsWithPositions eq a b).map fun p => p.2.map (·.1)

/-- The loop of lib/util/lcs.scm:133-161 `lcs-fold`; `none` = an error of `split-at` or `cdr`. -/
def foldLoop {σ : Type} (aOnly bOnly both : α → σ → σ) :
    List (α × Int × Int) → σ → List α → Int → List α → Int → Option σ
  | [], seed, a, _, b, _ => some (b.foldl (fun s x => bOnly x s) (a.foldl (fun s x => aOnly x s) seed))
  | (elt, aOff, bOff) :: common, seed, a, aPos, b, bPos =>
    let aSkip := aOff - aPos
    let bSkip := bOff - bPos
    if 0 ≤ aSkip ∧ aSkip ≤ a.length ∧ 0 ≤ bSkip ∧ bSkip ≤ b.length then
      let aHead := a.take aSkip.toNat
      let bHead := b.take bSkip.toNat
      match a.drop aSkip.toNat, b.drop bSkip.toNat with
      | _ :: aTail, _ :: bTail =>
        foldLoop aOnly bOnly both common
          (both elt (bHead.foldl (fun s x => bOnly x s) (aHead.foldl (fun s x => aOnly x s) seed)))
          aTail (aOff + 1) bTail (bOff + 1)
      | _, _ => none
    else none

/-- lib/util/lcs.scm:133-161 `lcs-fold`. -/
def lcsFold {σ : Type} (aOnly bOnly both : α → σ → σ) (seed : σ) (eq : α → α → Bool) (a b : List α) : Option σ :=
  (lcsWithPositions eq a b).bind fun p => foldLoop aOnly bOnly both p.2 seed a 0 b 0

/-- An edit command of lib/util/lcs.scm:168-185 `lcs-edit-list`: `(- pos elt)` or `(+ pos elt)`. -/
inductive Edit (α : Type) where
  | del (pos : Int) (x : α)
  | ins (pos : Int) (x : α)
deriving DecidableEq

/-- The variables of lib/util/lcs.scm:168-185 `lcs-edit-list`; `hunk` is the seed of the fold. -/
structure EditState (α : Type) where
  aPos : Int
  bPos : Int
  hunks : List (List (Edit α))
  hunk : List (Edit α)

/-- lib/util/lcs.scm:168-185 `lcs-edit-list`. -/
def editList (eq : α → α → Bool) (a b : List α) : Option (List (List (Edit α))) :=
  (lcsFold (σ := EditState α)
    (fun elt s => { s with aPos := s.aPos + 1, hunk := .del (s.aPos + 1) elt :: s.hunk })
    (fun elt s => { s with bPos := s.bPos + 1, hunk := .ins (s.bPos + 1) elt :: s.hunk })
    (fun _ s => { aPos := s.aPos + 1, bPos := s.bPos + 1,
                  hunks := if s.hunk.isEmpty then s.hunks else s.hunk.reverse :: s.hunks, hunk := [] })
    ⟨-1, -1, [], []⟩ eq a b).map fun s =>
      (if s.hunk.isEmpty then s.hunks else s.hunk.reverse :: s.hunks).reverse

end Gauche.Lcs

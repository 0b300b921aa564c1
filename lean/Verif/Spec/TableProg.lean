import Verif.Model.HashTable
import Verif.Spec.FinMap
/-
What a program over several hash tables should do, in terms of finite maps only: a state is a list of finite
maps.  (From the model only the types `Op`, `Out`, `Err` and `Pairs` of calls and results are used.)
-/
namespace Gauche.TableProg
open HashTable FinMap

variable {K V : Type}

/-- `l1` without the keys of `l2`. -/
def diff (eq : K → K → Bool) (l1 l2 : List (K × V)) : List (K × V) :=
  l1.filter (fun p => (lookup eq l2 p.1).isNone)
/-- The part of `l1` whose keys are in `l2`. -/
def inter (eq : K → K → Bool) (l1 l2 : List (K × V)) : List (K × V) :=
  l1.filter (fun p => (lookup eq l2 p.1).isSome)

/-- Every binding of `l1` is a binding of `l2`, up to `veq` on values. -/
def Incl (eq : K → K → Bool) (veq : V → V → Bool) (l1 l2 : List (K × V)) : Bool :=
  l1.all (fun p => match lookup eq l2 p.1 with
    | some w => veq p.2 w
    | none => false)

/-- What a call should return and do to the maps. -/
def step (p : Pairs V) (eq : K → K → Bool) (S : List (List (K × V))) : Op K V → Out V × List (List (K × V))
  | .make _ => (.num S.length, S ++ [[]])
  | .copy i => match S[i]? with
    | none => (.noTable, S)
    | some l => (.num S.length, S ++ [l])
  | .get i k fb => match S[i]? with
    | none => (.noTable, S)
    | some l => (match (lookup eq l k).or fb with
      | some v => .val v
      | none => .err .noEntry, S)
  | .exists? i k => match S[i]? with
    | none => (.noTable, S)
    | some l => (.bool (lookup eq l k).isSome, S)
  | .count i => match S[i]? with
    | none => (.noTable, S)
    | some l => (.num l.length, S)
  | .put i k v => match S[i]? with
    | none => (.noTable, S)
    | some l => (.unit, S.set i (insert eq l k v))
  | .adjoin i k v => match S[i]? with
    | none => (.noTable, S)
    | some l => (.unit, S.set i (if (lookup eq l k).isSome then l else insert eq l k v))
  | .replace i k v => match S[i]? with
    | none => (.noTable, S)
    | some l => (.unit, S.set i (if (lookup eq l k).isSome then insert eq l k v else l))
  | .delete i k => match S[i]? with
    | none => (.noTable, S)
    | some l => (.bool (lookup eq l k).isSome, S.set i (erase eq l k))
  | .update i k f fb => match S[i]? with
    | none => (.noTable, S)
    | some l => match (lookup eq l k).or fb with
      | none => (.err .noEntry, S)
      | some v => (.val (f v), S.set i (insert eq l k (f v)))
  | .push i k v => match S[i]? with
    | none => (.noTable, S)
    | some l => (.unit, S.set i (insert eq l k (p.cons v ((lookup eq l k).getD p.nil))))
  | .pop i k fb => match S[i]? with
    | none => (.noTable, S)
    | some l => match (lookup eq l k).bind p.uncons with
      | some (x, rest) => (.val x, S.set i (insert eq l k rest))
      | none => (match fb with
        | some v => .val v
        | none => if (lookup eq l k).isSome then .err .notPair else .err .noEntry, S)
  | .clear i => match S[i]? with
    | none => (.noTable, S)
    | some _ => (.unit, S.set i [])
  | .prune i pred => match S[i]? with
    | none => (.noTable, S)
    | some l => (.unit, S.set i (l.filter (fun q => !pred q.1 q.2)))
  | .mapBang i f => match S[i]? with
    | none => (.noTable, S)
    | some l => (.unit, S.set i (l.map (fun q => (q.1, f q.1 q.2))))
  | .union i j => match S[i]?, S[j]? with
    | some l1, some l2 => (.unit, S.set i (l1 ++ diff eq l2 l1))
    | _, _ => (.noTable, S)
  | .intersection i j => match S[i]?, S[j]? with
    | some l1, some l2 => (.unit, S.set i (inter eq l1 l2))
    | _, _ => (.noTable, S)
  | .difference i j => match S[i]?, S[j]? with
    | some l1, some l2 => (.unit, S.set i (diff eq l1 l2))
    | _, _ => (.noTable, S)
  | .xor i j => match S[i]?, S[j]? with
    | some l1, some l2 => (.unit, S.set i (diff eq l1 l2 ++ diff eq l2 l1))
    | _, _ => (.noTable, S)
  | .compare i j veq => match S[i]?, S[j]? with
    | some l1, some l2 =>
      (.cmp (if i = j then some 0
        else if Incl eq veq l1 l2 && Incl eq veq l2 l1 then some 0
        else if Incl eq veq l1 l2 then some (-1)
        else if Incl eq veq l2 l1 then some 1
        else none), S)
    | _, _ => (.noTable, S)

/-- The results and the final maps of a program. -/
def run (p : Pairs V) (eq : K → K → Bool) (S : List (List (K × V))) : List (Op K V) → List (Out V) × List (List (K × V))
  | [] => ([], S)
  | op :: ops =>
    let r := step p eq S op
    let rs := run p eq r.2 ops
    (r.1 :: rs.1, rs.2)

/-- Number of bindings in all the maps. -/
def total (S : List (List (K × V))) : Nat := (S.map List.length).sum

/-- Conditions on one call: an initial size is at most 2^30; the value equality of a comparison is symmetric. -/
def OkOp : Op K V → Prop
  | .make n => n ≤ 2 ^ 30
  | .compare _ _ veq => ∀ a b, veq a b = veq b a
  | _ => True

end Gauche.TableProg

/-! Model of lib/util/combinations.scm.

A `-for-each` procedure is modelled by the list of what its `proc` does, in order: `proc` is a function from a list to a list of events, and
what is done in sequence is appended.  The procedures recur on lists that get shorter; where the recursion is not structural, a count
given by the length is carried along. -/
namespace Gauche.Comb

variable {α τ : Type}

/-- `but-kth` (lib/util/combinations.scm:40-47); the shortcuts of the first cases are kept. -/
def butKth : List α → Nat → List α
  | _ :: l, 0 => l
  | a :: _ :: l, 1 => a :: l
  | a :: b :: _ :: l, 2 => a :: b :: l
  | a :: b :: c :: _ :: l, 3 => a :: b :: c :: l
  | l, k => l.take k ++ (l.drop k).tail

/-- `fold-with-index` on a list. -/
def foldIdx {β : Type} (f : Nat → α → β → β) : Nat → β → List α → β
  | _, acc, [] => acc
  | i, acc, x :: l => foldIdx f (i + 1) (f i x acc) l

/-- `permutations` (lib/util/combinations.scm:51-66).  The first argument is the length of the list. -/
def perms : Nat → List α → List (List α)
  | 0, _ => [[]]
  | n + 1, set =>
    match set with
    | [] => [[]]
    | [a] => [[a]]
    | [a, b] => [[a, b], [b, a]]
    | [a, b, c] => [[a, b, c], [a, c, b], [b, a, c], [b, c, a], [c, a, b], [c, b, a]]
    | set =>
      (foldIdx (fun ind elt acc => (perms n (butKth set ind)).foldl (fun acc sub => (elt :: sub) :: acc) acc) 0 [] set).reverse

/-- The loop of `permutations*` (lib/util/combinations.scm:75-89), with the recursive call as a parameter. -/
def permsStarLoop (eq : α → α → Bool) (rec : List α → List (List α)) (set : List α) :
    Nat → List α → List α → List (List α) → List (List α)
  | _, _, [], r => r.reverse
  | i, seen, x :: p, r =>
    if seen.any (eq x) then permsStarLoop eq rec set (i + 1) seen p r
    else permsStarLoop eq rec set (i + 1) (x :: seen) p ((rec (butKth set i)).foldl (fun r sub => (x :: sub) :: r) r)

/-- `permutations*` (lib/util/combinations.scm:69-90). -/
def permsStar (eq : α → α → Bool) : Nat → List α → List (List α)
  | 0, _ => [[]]
  | n + 1, set =>
    match set with
    | [] => [[]]
    | [a] => [[a]]
    | [a, b] => if eq a b then [[a, b]] else [[a, b], [b, a]]
    | set => permsStarLoop eq (permsStar eq n) set 0 [] set []

/-- `p/each3` (lib/util/combinations.scm:93-96). -/
def pEach3 (proc : List α → List τ) (x1 x2 x3 : α) : List τ :=
  proc [x1, x2, x3] ++ proc [x1, x3, x2] ++ proc [x2, x1, x3] ++ proc [x2, x3, x1] ++ proc [x3, x1, x2] ++ proc [x3, x2, x1]

/-- `p/each4` (lib/util/combinations.scm:97-101). -/
def pEach4 (proc : List α → List τ) (x1 x2 x3 x4 : α) : List τ :=
  pEach3 (fun xs => proc (x1 :: xs)) x2 x3 x4 ++ pEach3 (fun xs => proc (x2 :: xs)) x1 x3 x4 ++
  pEach3 (fun xs => proc (x3 :: xs)) x1 x2 x4 ++ pEach3 (fun xs => proc (x4 :: xs)) x1 x2 x3

/-- `for-each-with-index` on a list. -/
def eachIdx (f : Nat → α → List τ) : Nat → List α → List τ
  | _, [] => []
  | i, x :: l => f i x ++ eachIdx f (i + 1) l

/-- `p/each*` (lib/util/combinations.scm:102-111); it is called with the length of the list, at least 4. -/
def pEachStar : Nat → (List α → List τ) → List α → List τ
  | 0, _, _ => []
  | len1 + 1, proc, xs =>
    if len1 + 1 = 4 then
      match xs with
      | [x1, x2, x3, x4] => pEach4 proc x1 x2 x3 x4
      | _ => []
    else eachIdx (fun ind elt => pEachStar len1 (fun sub => proc (elt :: sub)) (butKth xs ind)) 0 xs

/-- `permutations-for-each` (lib/util/combinations.scm:112-119). -/
def permsForEach (proc : List α → List τ) (set : List α) : List τ :=
  match set with
  | [] => []
  | [x] => proc [x]
  | [x1, x2] => proc [x1, x2] ++ proc [x2, x1]
  | [x1, x2, x3] => pEach3 proc x1 x2 x3
  | [x1, x2, x3, x4] => pEach4 proc x1 x2 x3 x4
  | set => pEachStar set.length proc set

/-- The loop of `permutations*-for-each` (lib/util/combinations.scm:128-137). -/
def permsStarEachLoop (eq : α → α → Bool) (rec : (List α → List τ) → List α → List τ) (proc : List α → List τ) (set : List α) :
    Nat → List α → List α → List τ
  | _, _, [] => []
  | i, seen, x :: p =>
    if seen.any (eq x) then permsStarEachLoop eq rec proc set (i + 1) seen p
    else rec (fun sub => proc (x :: sub)) (butKth set i) ++ permsStarEachLoop eq rec proc set (i + 1) (x :: seen) p

/-- `permutations*-for-each` (lib/util/combinations.scm:122-138). -/
def permsStarForEach (eq : α → α → Bool) : Nat → (List α → List τ) → List α → List τ
  | 0, _, _ => []
  | n + 1, proc, set =>
    match set with
    | [] => []
    | [a] => proc [a]
    | [a, b] => if eq a b then proc [a, b] else proc [a, b] ++ proc [b, a]
    | set => permsStarEachLoop eq (permsStarForEach eq n) proc set 0 [] set

/-- The inner `rec` of `combinations` (lib/util/combinations.scm:144-149).  `tail` is a tail of `set`, so that `(eq? (cdr set) tail)` holds when
their lengths are the same. -/
def combRec : List α → List α → List (List α)
  | set, [] => [set]
  | [], _ :: _ => []
  | x :: set, t :: tail =>
    if set.length = tail.length + 1 then (x :: set).map (fun y => [y])
    else (combRec set (t :: tail)).foldr (fun sub acc => (x :: sub) :: acc) (combRec set tail)

/-- `combinations` (lib/util/combinations.scm:143-152); `(list-tail set n #f)` gives `#f` when the list is too short. -/
def combinations (set : List α) (n : Nat) : List (List α) :=
  if n = 0 then [[]]
  else if n ≤ set.length then combRec set (set.drop n)
  else []

/-- `lset-difference` with one list to subtract. -/
def lsetDifference (eq : α → α → Bool) (l seen : List α) : List α := l.filter (fun x => !(seen.any (eq x)))

/-- The loop of `combinations*` (lib/util/combinations.scm:158-169). -/
def combStarLoop (eq : α → α → Bool) (rec : List α → List (List α)) : List α → List α → List (List α) → List (List α)
  | [], _, r => r.reverse
  | x :: p, seen, r =>
    if seen.any (eq x) then combStarLoop eq rec p seen r
    else combStarLoop eq rec p (x :: seen) ((rec (lsetDifference eq p seen)).foldl (fun r sub => (x :: sub) :: r) r)

/-- `combinations*` (lib/util/combinations.scm:154-170). -/
def combStar (eq : α → α → Bool) : Nat → List α → List (List α)
  | 0, _ => [[]]
  | n + 1, set => combStarLoop eq (combStar eq n) set [] []

/-- `pair-for-each`: the car and the cdr of every pair of the list. -/
def pairEach (f : α → List α → List τ) : List α → List τ
  | [] => []
  | x :: l => f x l ++ pairEach f l

/-- `combinations-for-each` (lib/util/combinations.scm:172-181). -/
def combForEach : Nat → (List α → List τ) → List α → List τ
  | 0, proc, _ => proc []
  | n + 1, proc, set => pairEach (fun x rest => combForEach n (fun sub => proc (x :: sub)) rest) set

/-- The loop of `combinations*-for-each` (lib/util/combinations.scm:187-196). -/
def combStarEachLoop (eq : α → α → Bool) (rec : (List α → List τ) → List α → List τ) (proc : List α → List τ) :
    List α → List α → List τ
  | [], _ => []
  | x :: p, seen =>
    if seen.any (eq x) then combStarEachLoop eq rec proc p seen
    else rec (fun sub => proc (x :: sub)) (lsetDifference eq p seen) ++ combStarEachLoop eq rec proc p (x :: seen)

/-- `combinations*-for-each` (lib/util/combinations.scm:183-197). -/
def combStarForEach (eq : α → α → Bool) : Nat → (List α → List τ) → List α → List τ
  | 0, proc, _ => proc []
  | n + 1, proc, set => combStarEachLoop eq (combStarForEach eq n) proc set []

/-- `power-set-binary` (lib/util/combinations.scm:203-208). -/
def powerSetBinary : List α → List (List α)
  | [] => [[]]
  | x :: l => powerSetBinary l ++ (powerSetBinary l).map (fun s => x :: s)

/-- The loop of `power-set` (lib/util/combinations.scm:211-217): `k` more sizes, beginning with `i`. -/
def powerLoop (f : Nat → List τ) (i : Nat) : Nat → List τ
  | 0 => []
  | k + 1 => f i ++ powerLoop f (i + 1) k

/-- `power-set` (lib/util/combinations.scm:211-217). -/
def powerSet (set : List α) : List (List α) := powerLoop (combinations set) 0 (set.length + 1)

/-- `power-set-for-each` (lib/util/combinations.scm:220-224). -/
def powerSetForEach (proc : List α → List τ) (set : List α) : List τ :=
  powerLoop (fun i => combForEach i proc set) 0 (set.length + 1)

/-- `power-set*` (lib/util/combinations.scm:227-233). -/
def powerSetStar (eq : α → α → Bool) (set : List α) : List (List α) :=
  powerLoop (fun i => combStar eq i set) 0 (set.length + 1)

/-- `power-set*-for-each` (lib/util/combinations.scm:235-239). -/
def powerSetStarForEach (eq : α → α → Bool) (proc : List α → List τ) (set : List α) : List τ :=
  powerLoop (fun i => combStarForEach eq i proc set) 0 (set.length + 1)

/-- `cartesian-product` (lib/util/combinations.scm:245-251). -/
def cartesian : List (List α) → List (List α)
  | [] => [[]]
  | l :: lol => l.flatMap (fun x => (cartesian lol).map (fun sub => x :: sub))

/-- `cartesian-product-for-each` (lib/util/combinations.scm:253-258). -/
def cartesianForEach : (List α → List τ) → List (List α) → List τ
  | proc, [] => proc []
  | proc, l :: lol => l.flatMap (fun x => cartesianForEach (fun sub => proc (x :: sub)) lol)

/-- `cartesian-product-right` (lib/util/combinations.scm:268-274). -/
def cartesianRight : List (List α) → List (List α)
  | [] => [[]]
  | l :: lol => (cartesianRight lol).flatMap (fun sub => l.map (fun x => x :: sub))

/-- `cartesian-product-right-for-each` (lib/util/combinations.scm:276-281). -/
def cartesianRightForEach : (List α → List τ) → List (List α) → List τ
  | proc, [] => proc []
  | proc, l :: lol => cartesianRightForEach (fun sub => l.flatMap (fun x => proc (x :: sub))) lol

end Gauche.Comb

import Verif.Model.NumUtil
/-
Model of continued fractions and of the rational approximation in lib/gauche/numutil.scm (`continued-fraction`, `real->rational`), which is what
`rationalize` calls.  Only exact arguments are modelled; the lazy sequence of `continued-fraction` is the list of its elements.
-/
namespace Gauche.Rationalize

/-- lib/gauche/numutil.scm:59-66 `continued-fraction`, exact argument: the generator, from the current `a` and `b`. -/
def cfLoop (a b : Int) : List Int :=
  if h : b = 0 then [] else Int.tdiv a b :: cfLoop b (Int.tmod a b)
termination_by b.natAbs
decreasing_by rw [Int.natAbs_tmod]; exact Nat.mod_lt _ (by omega)

/-- lib/gauche/numutil.scm:59-66 `continued-fraction`, exact argument. -/
def continuedFraction (q : ℚ) : List Int := cfLoop q.num q.den

/-- `refine/c` in lib/gauche/numutil.scm:76-172 `real->rational`; `none` is the error of `car` on the empty list. -/
def refineC : List Int → List Int → List Int → Option (List Int)
  | x :: xn, y :: yn, an =>
    if xn = [] then some ((if yn = [] then min x y else min x (1 + y)) :: an)
    else if yn = [] then some (min y (x + 1) :: an)
    else if x = y then refineC xn yn (x :: an)
    else some ((1 + min x y) :: an)
  | _, _, _ => none

/-- `refine/o` in lib/gauche/numutil.scm:76-172 `real->rational`, when the first argument has one element `x`. -/
def refineOEnd (x : Int) : List Int → List Int → Option (List Int)
  | [y], an => if x - y = -1 ∨ x - y = 1 then some (2 :: min x y :: an) else some ((1 + min x y) :: an)
  | y :: y' :: _, an =>
    if y > x + 1 then some ((x + 1) :: an)
    else if y = x + 1 then some (2 :: x :: an)
    else if y = x then some (2 :: (x - 1) :: an)
    else if y = x - 1 then some ((y' + 1) :: y :: an)
    else some ((y + 1) :: an)
  | [], _ => none

/-- `refine/o` in lib/gauche/numutil.scm:76-172 `real->rational`. -/
def refineO : List Int → List Int → List Int → Option (List Int)
  | x :: xn, y :: yn, an =>
    if xn = [] then refineOEnd x (y :: yn) an
    else if yn = [] then refineOEnd y (x :: xn) an
    else if x = y then refineO xn yn (x :: an)
    else some ((1 + min x y) :: an)
  | _, _, _ => none

/-- `realize` in lib/gauche/numutil.scm:76-172 `real->rational`: reversed continued fraction to rational; `none` is a division by zero. -/
def realizeLoop (r : ℚ) : List Int → Option ℚ
  | [] => some r
  | a :: as => if r = 0 then none else realizeLoop (a + 1 / r) as

/-- `realize` in lib/gauche/numutil.scm:76-172 `real->rational`. -/
def realize : List Int → Option ℚ
  | [] => none
  | r :: as => realizeLoop r as

/-- `find-rational-1` in lib/gauche/numutil.scm:76-172 `real->rational`. -/
def findRational1 (x dxp dxm : ℚ) (isOpen : Bool) : Option ℚ :=
  let ub := x + dxp
  let lb := x - dxm
  if lb < 0 then some 0
  else if ub = lb then (if isOpen then none else some ub)
  else
    match (if isOpen then refineO else refineC) (continuedFraction ub) (continuedFraction lb) [] with
    | some rcf => realize rcf
    | none => none

/-- lib/gauche/numutil.scm:76-172 `real->rational`, exact arguments (bounds not given are 0). -/
def realToRational (x dxp dxm : ℚ) (isOpen : Bool) : Option ℚ :=
  if x < 0 then
    match findRational1 (-x) dxm dxp isOpen with
    | some q => some (-q)
    | none => none
  else findRational1 x dxp dxm isOpen

/-- src/libnum.scm:445-453 `rationalize`, exact arguments; `none` is the error for a negative bound. -/
def rationalize (x e : ℚ) : Option ℚ := if e < 0 then none else realToRational x e e false

end Gauche.Rationalize

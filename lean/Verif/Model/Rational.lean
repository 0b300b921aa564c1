import Verif.Model.Integer
import Verif.Spec.Bignum
import Mathlib.Data.Rat.Defs
/-
Model of exact rational arithmetic in src/number.c (64-bit build).  An exact number is an exact integer object or a ratnum.
Flonum and compnum branches, the `inexact` and `compat` modes of `scm_div` and the generic-function fallbacks are not modelled.
-/
namespace Gauche.Rational
open Gauche.Bignum Gauche.Integer

/-- An exact number: fixnum or bignum, or a ratnum (numerator, denominator). -/
inductive Q where
  | int (n : Num)
  | rat (n d : Num)
deriving DecidableEq, Repr

/-- src/number.c:2836-2893 `Scm_Gcd`: the unbounded loop is given a number of rounds that is always enough. -/
def gcd (x y : Num) : Res Num := scmGcd x y (x.toInt.natAbs + y.toInt.natAbs + 1)

/-- src/number.c:724-766 `Scm_ReduceRational`.  The branch for a zero denominator (a flonum infinity) is `err`: no caller modelled here reaches it. -/
def reduceRational (n d : Num) : Res Q :=
  let nd := if scmSign d < 0 then (scmNegate n, scmNegate d) else (n, d)
  let numer := nd.1
  let denom := nd.2
  if denom = .fix 1 then .ok (.int numer)
  else if denom = .fix 0 then .err
  else
    (gcd numer denom).bind fun common =>
      if common = .fix 1 then .ok (.rat numer denom)
      else
        (scmQuotient numer common).bind fun qn =>
          (scmQuotient denom common).bind fun qd =>
            if qd.1 = .fix 1 then .ok (.int qn.1) else .ok (.rat qn.1 qd.1)

/-- src/number.c:692-706 `Scm_MakeRational`. -/
def makeRational (numer denom : Num) : Res Q :=
  if denom = .fix 0 then .err
  else if denom = .fix 1 then .ok (.int numer)
  else if numer = .fix 0 then .ok (.int (makeInt 0))
  else reduceRational numer denom

/-- src/number.c:708-714 `Scm_Numerator`, exact numbers. -/
def numerator : Q → Num
  | .int n => n
  | .rat n _ => n

/-- src/number.c:716-722 `Scm_Denominator`, exact numbers. -/
def denominator : Q → Num
  | .int _ => makeInt 1
  | .rat _ d => d

/-- src/number.c:769-807 `Scm_RatnumAddSub`, from the label `finish`. -/
def addSubFinish (nx ny dr : Num) (subtract : Bool) : Res Q :=
  makeRational (if subtract then scmSub nx ny else scmAdd nx ny) dr

/-- src/number.c:769-807 `Scm_RatnumAddSub`. -/
def ratnumAddSub (x y : Q) (subtract : Bool) : Res Q :=
  let nx := numerator x
  let dx := denominator x
  let ny := numerator y
  let dy := denominator y
  if scmNumCmp dx dy = 0 then addSubFinish nx ny dx subtract
  else
    (if dx = .fix 1 ∨ dx = .fix 1 then .ok (makeInt 1) else gcd dx dy).bind fun g =>
      if scmNumCmp dx g = 0 then
        (scmQuotient dy dx).bind fun q => addSubFinish (scmMul q.1 nx) ny dy subtract
      else if scmNumCmp dy g = 0 then
        (scmQuotient dx dy).bind fun q => addSubFinish nx (scmMul q.1 ny) dx subtract
      else
        (scmQuotient dx g).bind fun fx =>
          (scmQuotient dy g).bind fun fy =>
            addSubFinish (scmMul nx fy.1) (scmMul ny fx.1) (scmMul dx fy.1) subtract

/-- src/number.c:809-821 `Scm_RatnumMulDiv`. -/
def ratnumMulDiv (x y : Q) (divide : Bool) : Res Q :=
  let nx := numerator x
  let dx := denominator x
  let ny := if divide then denominator y else numerator y
  let dy := if divide then numerator y else denominator y
  makeRational (scmMul nx ny) (scmMul dx dy)

/-- src/number.c:1896-2019 `scm_add`, exact numbers. -/
def qAdd : Q → Q → Res Q
  | .int a, .int b => .ok (.int (scmAdd a b))
  | .int a, .rat n d => if a = .fix 0 then .ok (.rat n d) else ratnumAddSub (.int a) (.rat n d) false
  | .rat n d, .int a => if a = .fix 0 then .ok (.rat n d) else ratnumAddSub (.rat n d) (.int a) false
  | .rat n d, .rat n' d' => ratnumAddSub (.rat n d) (.rat n' d') false

/-- src/number.c:2023-2140 `scm_sub`, exact numbers. -/
def qSub : Q → Q → Res Q
  | .int a, .int b => .ok (.int (scmSub a b))
  | .int a, .rat n d => ratnumAddSub (.int a) (.rat n d) true
  | .rat n d, .int a => if a = .fix 0 then .ok (.rat n d) else ratnumAddSub (.rat n d) (.int a) true
  | .rat n d, .rat n' d' => ratnumAddSub (.rat n d) (.rat n' d') true

/-- src/number.c:2147-2293 `scm_mul`, exact numbers. -/
def qMul : Q → Q → Res Q
  | .int a, .int b => .ok (.int (scmMul a b))
  | .int a, .rat n d =>
    if a = .fix 0 then .ok (.int a) else if a = .fix 1 then .ok (.rat n d) else ratnumMulDiv (.int a) (.rat n d) false
  | .rat n d, .int a =>
    if a = .fix 0 then .ok (.int a) else if a = .fix 1 then .ok (.rat n d) else ratnumMulDiv (.rat n d) (.int a) false
  | .rat n d, .rat n' d' => ratnumMulDiv (.rat n d) (.rat n' d') false

/-- src/number.c:2325-2565 `scm_div`, exact numbers with `inexact` and `compat` false. -/
def qDiv : Q → Q → Res Q
  | .int (.fix a), .int (.fix b) =>
    if b = 0 then .err else if a = 0 then .ok (.int (.fix a)) else if b = 1 then .ok (.int (.fix a)) else makeRational (.fix a) (.fix b)
  | .int (.fix a), .int (.big b) => if a = 0 then .ok (.int (.fix a)) else makeRational (.fix a) (.big b)
  | .int (.fix a), .rat n d => makeRational (scmMul (.fix a) d) n
  | .int (.big a), .int (.fix b) => if b = 0 then .err else if b = 1 then .ok (.int (.big a)) else makeRational (.big a) (.fix b)
  | .int (.big a), .int (.big b) => makeRational (.big a) (.big b)
  | .int (.big a), .rat n d => makeRational (scmMul (.big a) d) n
  | .rat n d, .int (.fix b) => if b = 0 then .err else if b = 1 then .ok (.rat n d) else makeRational n (scmMul d (.fix b))
  | .rat n d, .int (.big b) => makeRational n (scmMul d (.big b))
  | .rat n d, .rat n' d' => ratnumMulDiv (.rat n d) (.rat n' d') true

/-- src/number.c:1767-1790 `negate`, exact numbers. -/
def qNegate : Q → Res Q
  | .int n => .ok (.int (scmNegate n))
  | .rat n d => makeRational (scmNegate n) d

/-- src/number.c:1704-1737 `scm_abs`, exact numbers. -/
def qAbs : Q → Res Q
  | .int n => .ok (.int (scmAbs n))
  | .rat n d => if scmSign n < 0 then makeRational (scmNegate n) d else .ok (.rat n d)

/-- src/number.c:1794-1814 `reciprocal`, exact numbers. -/
def reciprocal : Q → Res Q
  | .int n => makeRational (makeInt 1) n
  | .rat n d => makeRational d n

/-- src/number.c:1743-1765 `Scm_Sign`, exact numbers. -/
def qSign : Q → Int
  | .int n => scmSign n
  | .rat n _ => scmSign n

/-- src/number.c:2926-2960 `Scm_ExactIntegerExpt`, the loop of the general case. -/
def exptLoopQ (r x : Q) (iy : Nat) : Res Q :=
  if iy = 0 then .ok r
  else if iy = 1 then qMul r x
  else
    (if iy % 2 = 1 then qMul r x else .ok r).bind fun r =>
      (qMul x x).bind fun x => exptLoopQ r x (iy / 2)
termination_by iy
decreasing_by omega

/-- src/number.c:2926-2960 `Scm_ExactIntegerExpt`: an exact rational to an exact integer power of any sign. -/
def exactExptQ (x : Q) (y : Num) : Res Q :=
  let sign := scmSign y
  if sign = 0 then .ok (.int (makeInt 1))
  else if x = .int (.fix 1) then .ok (.int (makeInt 1))
  else if x = .int (.fix (-1)) then .ok (.int (if scmOddP y then makeInt (-1) else makeInt 1))
  else
    match y with
    | .big _ => .err
    | .fix iy =>
      (if x = .int (.fix 10) ∧ iy > 0 ∧ iy < 341 then Res.ok (Q.int (iexpt10 iy.toNat))
       else if x = .int (.fix 2) ∧ iy > 0 then (scmAsh (makeInt 1) iy).bind fun r => .ok (.int r)
       else exptLoopQ (.int (makeInt 1)) x iy.natAbs).bind fun r =>
        if sign < 0 then reciprocal r else .ok r

/-- src/number.c:3120-3245 `Scm_NumCmp`, the estimate for a fixnum and a ratnum: `x` is the fixnum as a double and `y` the ratnum as a
double (`Scm_GetDouble`, not modelled).  The subtraction is taken to be exact, which preserves its sign in IEEE arithmetic, and so is
the product with the literal `2.0e-52`.  0 means that the exact comparison follows.  The test for the fixnum zero just before
compares a tagged object with the untagged word 0, so it never holds and is left out. -/
def fixRatScreen (x y : ℚ) : Int :=
  let r := x - y
  let err := y * (2 / 10 ^ 52)
  if r < -err then -1 else if r > err then 1 else 0

/-- src/number.c:3120-3245 `Scm_NumCmp`, exact numbers; `screen` is the floating-point estimate used for a fixnum and a ratnum. -/
def qCmp (screen : Int → Num → Num → Int) : Q → Q → Int
  | .int a, .int b => scmNumCmp a b
  | .int (.fix a), .rat n d =>
    if screen a n d ≠ 0 then screen a n d else scmNumCmp (scmMul (.fix a) d) n
  | .int (.big a), .rat n d => scmNumCmp (scmMul (.big a) d) n
  | .rat n d, .int (.fix a) =>
    -(if screen a n d ≠ 0 then screen a n d else scmNumCmp (scmMul (.fix a) d) n)
  | .rat n d, .int (.big a) => -scmNumCmp (scmMul (.big a) d) n
  | .rat n0 d0, .rat n1 d1 =>
    let s0 := scmSign n0
    let s1 := scmSign n1
    if s0 < s1 then -1
    else if s0 > s1 then 1
    else
      let d := scmNumCmp d0 d1
      if d = 0 then scmNumCmp n0 n1
      else
        let same := (s0 > 0 ∧ s1 > 0) ∨ (s0 < 0 ∧ s1 < 0)
        let n := scmNumCmp n0 n1 * s0
        if same ∧ d > 0 ∧ n ≤ 0 then -s0
        else if same ∧ d < 0 ∧ n ≥ 0 then s0
        else scmNumCmp (scmMul n0 d1) (scmMul n1 d0)

/-- The rounding modes `SCM_ROUND_*` of src/gauche/number.h. -/
inductive Mode where
  | floor | ceil | trunc | round
deriving DecidableEq, Repr

/-- src/number.c:3312-3382 `scm_round`, exact numbers. -/
def qRound (mode : Mode) : Q → Res Num
  | .int n => .ok n
  | .rat n d =>
    (scmQuotient n d).bind fun qr =>
      let quot := qr.1
      let rem := qr.2
      if rem = .fix 0 then .ok quot
      else
        let offset : Int :=
          match mode with
          | .floor => if scmSign n < 0 then -1 else 0
          | .ceil => if scmSign n < 0 then 0 else 1
          | .trunc => 0
          | .round =>
            let cmp := scmNumCmp d (scmMul (scmAbs rem) (makeInt 2))
            if cmp > 0 then 0
            else if cmp < 0 then (if scmSign n < 0 then -1 else 1)
            else if scmOddP quot then (if scmSign n < 0 then -1 else 1) else 0
        if offset = 0 then .ok quot else .ok (scmAdd quot (makeInt offset))

end Gauche.Rational

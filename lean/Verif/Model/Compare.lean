import Mathlib.Data.Rat.Defs
import Mathlib.Algebra.Order.Field.Rat
/-! Model of `compare` (src/compare.c:74-220, `Scm_Compare`).

The results -1, 0 and 1 are `lt`, `eq` and `gt`.  Data are trees: lists that come back to themselves are modelled separately (`circular`).
Numbers are exact or inexact real numbers by their value (NaN and infinities are left out; `Scm_NumCmp` is the subject of C48 and C67, and
is here the comparison of the values), and complex numbers with a nonzero imaginary part, as `Scm_MakeComplex` (src/number.c:842-846) makes
them.  Not modelled: complex uniform vectors, character sets (which are only partially ordered), and classes without comparison, for which
`compare` is an error. -/
namespace Gauche.Compare

structure Compnum where
  re : Rat
  im : Rat
  ne : im ≠ 0

inductive Num where
  | real (q : Rat)
  | comp (c : Compnum)

/-- ScmUVectorType (src/gauche/vector.h:138-150). -/
inductive UType where
  | s8 | u8 | s16 | u16 | s32 | u32 | s64 | u64 | f16 | f32 | f64
deriving DecidableEq

/-- The numbers of the types. -/
def UType.code : UType → Nat
  | s8 => 0 | u8 => 1 | s16 => 2 | u16 => 3 | s32 => 4 | u32 => 5 | s64 => 6 | u64 => 7 | f16 => 8 | f32 => 9 | f64 => 10

/-- A class: its name, the names of its modules, and its address. -/
structure Class where
  name : List Nat
  modules : List (List Nat)
  addr : Nat
deriving DecidableEq

/-- Data.  Strings and names are lists of bytes.  `obj` is an instance of another class, whose own comparison is that of the numbers `v`. -/
inductive D where
  | null
  | pair (a d : D)
  | bool (b : Bool)
  | char (c : Nat)
  | str (bytes : List Nat) (incomplete : Bool)
  | sym (name : List Nat)
  | usym (name : List Nat) (addr : Nat)
  | num (n : Num)
  | vec (l : List D)
  | uvec (t : UType) (l : List Rat)
  | obj (c : Class) (v : Int)

/-- `x < y ? -1 : x > y ? 1 : 0`. -/
def cmpR (a b : Rat) : Ordering := if a < b then .lt else if b < a then .gt else .eq

/-- The same for natural numbers. -/
def cmpN (a b : Nat) : Ordering := if a < b then .lt else if b < a then .gt else .eq

/-- memcmp over the length of the shorter one. -/
def memcmp : List Nat → List Nat → Ordering
  | a :: as, b :: bs => match cmpN a b with
    | .eq => memcmp as bs
    | o => o
  | _, _ => .eq

/-- `Scm_StringCmp` (src/string.c:486-511). -/
def strCmp (x : List Nat) (xi : Bool) (y : List Nat) (yi : Bool) : Ordering :=
  match memcmp x y with
  | .eq =>
    if x.length = y.length then
      if xi then (if yi then .eq else .gt) else (if yi then .lt else .eq)
    else if x.length < y.length then .lt else .gt
  | o => o

/-- `symbol_compare` (src/symbol.c:281-295); an uninterned symbol has an address. -/
def symCmp (x : List Nat) (xa : Option Nat) (y : List Nat) (ya : Option Nat) : Ordering :=
  if x = y ∧ xa = ya then .eq
  else match strCmp x false y false with
    | .eq => match xa, ya with
      | none, _ => .lt
      | _, none => .gt
      | some a, some b => if a < b then .lt else .gt
    | o => o

/-- The comparison of numbers (src/compare.c:77-97); `rnd` is the conversion to a double. -/
def numCmp (rnd : Rat → Rat) : Num → Num → Ordering
  | .real p, .real q => cmpR p q
  | x, y =>
    let re : Num → Rat := fun n => match n with | .real q => rnd q | .comp c => c.re
    let im : Num → Rat := fun n => match n with | .real _ => 0 | .comp c => c.im
    match cmpR (re x) (re y) with
    | .eq => cmpR (im x) (im y)
    | o => o

/-- The comparison of the elements of uniform vectors (src/vector.c:791-798). -/
def elemsCmp : List Rat → List Rat → Ordering
  | a :: as, b :: bs => if a < b then .lt else if a ≠ b then .gt else elemsCmp as bs
  | _, _ => .eq

/-- The comparison of uniform vectors of the same type (src/vector.c:777-800). -/
def uvecCmp (x y : List Rat) : Ordering :=
  if x.length ≠ y.length then (if x.length < y.length then .lt else .gt) else elemsCmp x y

/-- The order of the types of uniform vectors (src/compare.c:170-185). -/
def utypeCmp (x y : UType) : Ordering :=
  if x.code / 2 < y.code / 2 then .lt
  else if x.code / 2 > y.code / 2 then .gt
  else if x.code < UType.f16.code then (if x.code % 2 = 1 then .lt else .gt)
  else if x.code < y.code then .lt else .gt

/-- The loop over the modules of two classes (src/compare.c:207-216). -/
def modsCmp : List (List Nat) → List (List Nat) → Ordering
  | x :: xs, y :: ys => match symCmp x none y none with
    | .eq => modsCmp xs ys
    | o => o
  | _ :: _, [] => .lt
  | [], _ :: _ => .gt
  | [], [] => .eq

/-- The order of different classes (src/compare.c:200-219). -/
def classCmp (x y : Class) : Ordering :=
  match symCmp x.name none y.name none with
  | .eq => match modsCmp x.modules y.modules with
    | .eq => if x.addr < y.addr then .lt else .gt
    | o => o
  | o => o

def D.isPair : D → Bool | .pair _ _ => true | _ => false
def D.isBool : D → Bool | .bool _ => true | _ => false
def D.isChar : D → Bool | .char _ => true | _ => false
def D.isStr : D → Bool | .str _ _ => true | _ => false
def D.isSym : D → Bool | .sym _ => true | .usym _ _ => true | _ => false
def D.isNum : D → Bool | .num _ => true | _ => false
def D.isVec : D → Bool | .vec _ => true | _ => false

/-- ELIMINATE (src/compare.c:147-151). -/
def eliminate (p : D → Bool) (x y : D) (rest : Ordering) : Ordering := if p x then .lt else if p y then .gt else rest

/-- `distinct_types` (src/compare.c:140-219); the last case cannot be reached. -/
def distinct (x y : D) : Ordering :=
  eliminate D.isPair x y <| eliminate D.isBool x y <| eliminate D.isChar x y <| eliminate D.isStr x y <| eliminate D.isSym x y <|
  eliminate D.isNum x y <| eliminate D.isVec x y <|
  match x, y with
  | .uvec t _, .uvec t' _ => utypeCmp t t'
  | .uvec _ _, _ => .lt
  | _, .uvec _ _ => .gt
  | .obj c _, .obj c' _ => classCmp c c'
  | _, _ => .gt

mutual
/-- `Scm_Compare` (src/compare.c:74-220) and `vector_compare` (src/vector.c:86-104).  The loop over two lists (105-121) compares the elements
in order until one of the lists ends, and then compares what is left, which is what the recursion does here; its test for circular lists
has no effect on trees. -/
def cmp (rnd : Rat → Rat) : D → D → Ordering
  | .num a, y => match y with
    | .num b => numCmp rnd a b
    | .null => .gt
    | y => distinct (.num a) y
  | .str s i, y => match y with
    | .str t j => strCmp s i t j
    | .null => .gt
    | y => distinct (.str s i) y
  | .char c, y => match y with
    | .char d => if c = d then .eq else if c < d then .lt else .gt
    | .null => .gt
    | y => distinct (.char c) y
  | .null, y => match y with
    | .null => .eq
    | _ => .lt
  | .pair a d, y => match y with
    | .null => .gt
    | .pair a' d' => match cmp rnd a a' with
      | .eq => cmp rnd d d'
      | o => o
    | y => distinct (.pair a d) y
  | .bool false, y => match y with
    | .null => .gt
    | .bool false => .eq
    | .bool true => .lt
    | y => distinct (.bool false) y
  | .bool true, y => match y with
    | .null => .gt
    | .bool false => .gt
    | .bool true => .eq
    | y => distinct (.bool true) y
  | .sym n, y => match y with
    | .null => .gt
    | .sym m => symCmp n none m none
    | .usym m b => symCmp n none m (some b)
    | y => distinct (.sym n) y
  | .usym n a, y => match y with
    | .null => .gt
    | .sym m => symCmp n (some a) m none
    | .usym m b => symCmp n (some a) m (some b)
    | y => distinct (.usym n a) y
  | .vec l, y => match y with
    | .null => .gt
    | .vec l' => if l.length < l'.length then .lt else if l.length > l'.length then .gt else cmpElems rnd l l'
    | y => distinct (.vec l) y
  | .uvec t l, y => match y with
    | .null => .gt
    | .uvec t' l' => if t = t' then uvecCmp l l' else distinct (.uvec t l) (.uvec t' l')
    | y => distinct (.uvec t l) y
  | .obj c v, y => match y with
    | .null => .gt
    | .obj c' v' => if c = c' then (if v < v' then .lt else if v' < v then .gt else .eq) else distinct (.obj c v) (.obj c' v')
    | y => distinct (.obj c v) y
/-- The loop over the elements of two vectors of the same length (src/vector.c:98-102). -/
def cmpElems (rnd : Rat → Rat) : List D → List D → Ordering
  | [], _ => .eq
  | x :: xs, y => match y with
    | [] => .eq
    | y :: ys => match cmp rnd x y with
      | .eq => cmpElems rnd xs ys
      | o => o
end

/-- The loop of `Scm_Compare` over two lists without end (src/compare.c:105-121), where the pairs are numbered and the elements are small
integers.  The first argument bounds the number of rounds. -/
def circular (carx cdrx cary cdry : Nat → Nat) : Nat → Nat → Nat → Nat → Nat → Bool → Bool → Option Ordering
  | 0, _, _, _, _, _, _ => none
  | n + 1, px, sx, py, sy, cx, cy =>
    match cmpN (carx px) (cary py) with
    | .eq =>
      let px := cdrx px
      let py := cdry py
      match cmpN (carx px) (cary py) with
      | .eq =>
        let px := cdrx px
        let py := cdry py
        let sx := cdrx sx
        let sy := cdry sy
        let cx := if sx = px then true else cx
        let cy := if sy = py then true else cy
        if cx && cy then some .eq else circular carx cdrx cary cdry n px sx py sy cx cy
      | o => some o
    | o => some o

end Gauche.Compare

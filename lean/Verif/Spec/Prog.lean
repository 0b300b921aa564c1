/-!
# What a program means

A big-step semantics of the core language that the compiler's back end gets:
variables have locations in a store, `set!` changes a location, a closure keeps
the locations of its free variables.  It does not mention code, stacks, frames or
boxes.
-/
namespace Gauche.Prog

/-- Values.  `clos n` is the `n`-th closure that was made, `subr n` a built-in
procedure, `atom n` any other object: 0 is `#f`, 1 `#t`, 2 `()`, 3 undefined. -/
inductive Val where
  | atom (n : Nat)
  | pair (a d : Val)
  | clos (n : Nat)
  | subr (n : Nat)
deriving DecidableEq, Repr, Inhabited

def Val.false : Val := .atom 0
def Val.nil : Val := .atom 2
def Val.undef : Val := .atom 3
def Val.bool (b : Bool) : Val := if b then .atom 1 else .atom 0

/-- The list of the given values. -/
def Val.list : List Val → Val
  | [] => .nil
  | v :: vs => .pair v (list vs)

/-- Operations that are done without a call. -/
inductive Op where
  | nullp
  | eq
  | other (n : Nat)
deriving DecidableEq, Repr

/-- The language.  A local variable is a number.  `it` is the value of the test, in
a branch of an `ite`.  In `lam vs opt body`, `opt` says that the last parameter
takes the list of the remaining arguments. -/
inductive Term where
  | const (n : Nat)
  | lref (x : Nat)
  | lset (x : Nat) (e : Term)
  | gref (g : Nat)
  | gset (g : Nat) (e : Term)
  | it
  | ite (a b c : Term)
  | letv (xs : List Nat) (inits : List Term) (body : Term)
  | letrec (xs : List Nat) (inits : List Term) (body : Term)
  | lam (xs : List Nat) (opt : Bool) (body : Term)
  | seq (es : List Term)
  | call (f : Term) (args : List Term)
  | prim (op : Op) (args : List Term)
deriving Repr

/-- Locations of the variables. -/
abbrev Env := List (Nat × Nat)

def Env.find (x : Nat) : Env → Option Nat
  | [] => none
  | (y, l) :: ρ => if x = y then some l else find x ρ

/-- A closure: environment, parameters, rest parameter?, body. -/
structure SClos where
  env : Env
  params : List Nat
  opt : Bool
  body : Term

structure Store where
  vars : List Val
  clos : List SClos
  globals : Nat → Option Val

/-- The built-in procedures and operations: a partial function on values. -/
abbrev Builtin := Nat → List Val → Option Val

def primVal (P : Builtin) : Op → List Val → Option Val
  | .nullp, [v] => some (.bool (v == .nil))
  | .eq, [a, b] => some (.bool (a == b))
  | .other n, vs => P n vs
  | _, _ => none

/-- New locations `n, n+1, …` for the variables. -/
def fresh : List Nat → Nat → Env
  | [], _ => []
  | x :: xs, n => (x, n) :: fresh xs (n + 1)

/-- What the parameters are bound to. -/
def bindArgs (nparams : Nat) (opt : Bool) (vs : List Val) : Option (List Val) :=
  if opt then
    if nparams - 1 ≤ vs.length then
      some (vs.take (nparams - 1) ++ [Val.list (vs.drop (nparams - 1))])
    else none
  else if vs.length = nparams then some vs else none

def setGlobal (G : Nat → Option Val) (g : Nat) (v : Val) : Nat → Option Val :=
  fun h => if h = g then some v else G h

/-- The store in which the variables of a `letrec`, at the locations `n, n+1, …`,
have their first values: `lambda` expressions and constants are known at once, the
other variables are undefined. -/
def recInit (ρ : Env) : List Term → Store → Store
  | [], σ => σ
  | .lam ys opt b :: es, σ =>
      recInit ρ es { σ with vars := σ.vars ++ [.clos σ.clos.length],
                            clos := σ.clos ++ [⟨ρ, ys, opt, b⟩] }
  | .const k :: es, σ => recInit ρ es { σ with vars := σ.vars ++ [.atom k] }
  | _ :: es, σ => recInit ρ es { σ with vars := σ.vars ++ [.undef] }

/-- Is the value known at once? -/
def known : Term → Bool
  | .lam _ _ _ => true
  | .const _ => true
  | _ => false

/-- Judgements: evaluate a term, a list of terms from left to right, a sequence
of statements, apply a procedure, and initialise the remaining variables of a
`letrec` from location `l` on. -/
inductive J where
  | ev (ρ : Env) (σ : Store) (e : Term) (v : Val) (σ' : Store)
  | evs (ρ : Env) (σ : Store) (es : List Term) (vs : List Val) (σ' : Store)
  | body (ρ : Env) (σ : Store) (es : List Term) (v : Val) (σ' : Store)
  | app (σ : Store) (f : Val) (vs : List Val) (v : Val) (σ' : Store)
  | init (ρ : Env) (σ : Store) (l : Nat) (es : List Term) (σ' : Store)

/-- **The semantics.** -/
inductive Run (P : Builtin) : J → Prop where
  | const {ρ σ k} : Run P (.ev ρ σ (.const k) (.atom k) σ)
  | lref {ρ σ x l v} : ρ.find x = some l → σ.vars[l]? = some v → Run P (.ev ρ σ (.lref x) v σ)
  | lset {ρ σ σ1 x e v l} : Run P (.ev ρ σ e v σ1) → ρ.find x = some l →
      l < σ1.vars.length →
      Run P (.ev ρ σ (.lset x e) v { σ1 with vars := σ1.vars.set l v })
  | gref {ρ σ g v} : σ.globals g = some v → Run P (.ev ρ σ (.gref g) v σ)
  | gset {ρ σ σ1 g e v} : Run P (.ev ρ σ e v σ1) →
      Run P (.ev ρ σ (.gset g e) v { σ1 with globals := setGlobal σ1.globals g v })
  | ite {ρ σ σ1 a b c v} : Run P (.ev ρ σ a v σ1) → (if v = .false then c else b) = .it →
      Run P (.ev ρ σ (.ite a b c) v σ1)
  | iteThen {ρ σ σ1 σ2 a b c v w} : Run P (.ev ρ σ a v σ1) → v ≠ .false → b ≠ .it →
      Run P (.ev ρ σ1 b w σ2) → Run P (.ev ρ σ (.ite a b c) w σ2)
  | iteElse {ρ σ σ1 σ2 a b c v w} : Run P (.ev ρ σ a v σ1) → v = .false → c ≠ .it →
      Run P (.ev ρ σ1 c w σ2) → Run P (.ev ρ σ (.ite a b c) w σ2)
  | letv {ρ σ σ1 σ2 xs es b vs v} : Run P (.evs ρ σ es vs σ1) →
      Run P (.ev (fresh xs σ1.vars.length ++ ρ) { σ1 with vars := σ1.vars ++ vs } b v σ2) →
      Run P (.ev ρ σ (.letv xs es b) v σ2)
  | letrec {ρ σ σ1 σ2 xs es b v} :
      Run P (.init (fresh xs σ.vars.length ++ ρ)
        (recInit (fresh xs σ.vars.length ++ ρ) es σ) σ.vars.length es σ1) →
      Run P (.ev (fresh xs σ.vars.length ++ ρ) σ1 b v σ2) →
      Run P (.ev ρ σ (.letrec xs es b) v σ2)
  | lam {ρ σ xs opt b} : Run P (.ev ρ σ (.lam xs opt b) (.clos σ.clos.length)
      { σ with clos := σ.clos ++ [⟨ρ, xs, opt, b⟩] })
  | seq {ρ σ σ1 es v} : Run P (.body ρ σ es v σ1) → Run P (.ev ρ σ (.seq es) v σ1)
  | call {ρ σ σ1 σ2 σ3 f es fv vs v} : Run P (.evs ρ σ es vs σ1) → Run P (.ev ρ σ1 f fv σ2) →
      Run P (.app σ2 fv vs v σ3) → Run P (.ev ρ σ (.call f es) v σ3)
  | prim {ρ σ σ1 op es vs v} : Run P (.evs ρ σ es vs σ1) → primVal P op vs = some v →
      Run P (.ev ρ σ (.prim op es) v σ1)
  | evNil {ρ σ} : Run P (.evs ρ σ [] [] σ)
  | evCons {ρ σ σ1 σ2 e es v vs} : Run P (.ev ρ σ e v σ1) → Run P (.evs ρ σ1 es vs σ2) →
      Run P (.evs ρ σ (e :: es) (v :: vs) σ2)
  | bodyOne {ρ σ σ1 e v} : Run P (.ev ρ σ e v σ1) → Run P (.body ρ σ [e] v σ1)
  | bodyCons {ρ σ σ1 σ2 e e' es v w} : Run P (.ev ρ σ e w σ1) →
      Run P (.body ρ σ1 (e' :: es) v σ2) → Run P (.body ρ σ (e :: e' :: es) v σ2)
  | appSubr {σ n vs v} : P n vs = some v → Run P (.app σ (.subr n) vs v σ)
  | appClos {σ σ1 n c vs ws v} : σ.clos[n]? = some c →
      bindArgs c.params.length c.opt vs = some ws →
      Run P (.ev (fresh c.params σ.vars.length ++ c.env)
        { σ with vars := σ.vars ++ ws } c.body v σ1) →
      Run P (.app σ (.clos n) vs v σ1)
  | initNil {ρ σ l} : Run P (.init ρ σ l [] σ)
  | initKnown {ρ σ σ1 l e es} : known e = true → Run P (.init ρ σ (l + 1) es σ1) →
      Run P (.init ρ σ l (e :: es) σ1)
  | initCons {ρ σ σ1 σ2 l e es v} : known e = false → Run P (.ev ρ σ e v σ1) →
      Run P (.init ρ { σ1 with vars := σ1.vars.set l v } (l + 1) es σ2) →
      Run P (.init ρ σ l (e :: es) σ2)

/-! ## Conditions on programs -/

mutual
/-- The variables that are the target of a `set!`. -/
def sets : Term → List Nat
  | .const _ => []
  | .lref _ => []
  | .lset x e => x :: sets e
  | .gref _ => []
  | .gset _ e => sets e
  | .it => []
  | .ite a b c => sets a ++ sets b ++ sets c
  | .letv _ es b => setsL es ++ sets b
  | .letrec _ es b => setsL es ++ sets b
  | .lam _ _ b => sets b
  | .seq es => setsL es
  | .call f es => sets f ++ setsL es
  | .prim _ es => setsL es

def setsL : List Term → List Nat
  | [] => []
  | e :: es => sets e ++ setsL es
end

/-- Is the variable assigned in the program? -/
def assigned (e : Term) (x : Nat) : Bool := (sets e).contains x

mutual
/-- Every variable of a `let` or `letrec` has an initial value, the variables of a
`letrec` are distinct, a rest parameter is a parameter, operations have operands. -/
def Shaped : Term → Prop
  | .const _ => True
  | .lref _ => True
  | .lset _ e => Shaped e
  | .gref _ => True
  | .gset _ e => Shaped e
  | .it => True
  | .ite a b c => Shaped a ∧ Shaped b ∧ Shaped c
  | .letv xs es b => xs.length = es.length ∧ ShapedL es ∧ Shaped b
  | .letrec xs es b => xs.length = es.length ∧ xs.Nodup ∧ ShapedL es ∧ Shaped b
  | .lam xs opt b => (opt = true → xs ≠ []) ∧ Shaped b
  | .seq es => ShapedL es
  | .call f es => Shaped f ∧ ShapedL es
  | .prim _ es => es ≠ [] ∧ ShapedL es

def ShapedL : List Term → Prop
  | [] => True
  | e :: es => Shaped e ∧ ShapedL es
end

/-- Is it a constant or a variable for which `A` holds? -/
def atomic (A : Nat → Bool) : Term → Bool
  | .const _ => true
  | .lref x => A x
  | _ => false

/-- Is it a `let` or a `letrec`? -/
def binding : Term → Bool
  | .letv _ _ _ => true
  | .letrec _ _ _ => true
  | _ => false

mutual
/-- No call has a `let` or `letrec` as its operator, and only variables and constants
as its operands, with an assigned variable among them: such calls are compiled
wrong. -/
def Plain (A : Nat → Bool) : Term → Prop
  | .const _ => True
  | .lref _ => True
  | .lset _ e => Plain A e
  | .gref _ => True
  | .gset _ e => Plain A e
  | .it => True
  | .ite a b c => Plain A a ∧ Plain A b ∧ Plain A c
  | .letv _ es b => PlainL A es ∧ Plain A b
  | .letrec _ es b => PlainL A es ∧ Plain A b
  | .lam _ _ b => Plain A b
  | .seq es => PlainL A es
  | .call f es => ((binding f = true ∧ es.all (atomic fun _ => true) = true) →
      es.all (atomic fun x => !A x) = true) ∧ Plain A f ∧ PlainL A es
  | .prim _ es => PlainL A es

def PlainL (A : Nat → Bool) : List Term → Prop
  | [] => True
  | e :: es => Plain A e ∧ PlainL A es
end

end Gauche.Prog

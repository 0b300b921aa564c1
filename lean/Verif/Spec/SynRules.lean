/-!
# What `syntax-rules` means (R7RS 4.3.2)

A specification of the pattern language that does not mention how Gauche
compiles or matches patterns.  Everything is phrased on the surface syntax: a
pattern, a template and an input form are all just data.

* `Matches S P F b` : the form `F` matches the pattern `P`, and matching binds
  the pattern variables of `P`, in order of appearance, as `b` says.
* `Inst S ρ on T ... env R` : instantiating the template `T` when the pattern
  variables have the values `env` gives `R`; `ρ` is the renaming of the
  identifiers the template inserts.
-/
namespace Gauche.SynRules

/-- Data: what patterns, templates and input forms are made of.  `sym n` is an
identifier (a symbol or a renamed one), `atom n` any other self-contained datum
(number, string, character, boolean).  A vector carries the list of its
elements. -/
inductive Form where
  | nil
  | sym (n : Nat)
  | atom (n : Nat)
  | cons (a d : Form)
  | vec (l : Form)
deriving DecidableEq, Repr

namespace Form

/-- How many pairs the spine of a form has. -/
def pairs : Form → Nat
  | cons _ d => pairs d + 1
  | _ => 0

/-- `f1 ... fk . tail`. -/
def prepend : List Form → Form → Form
  | [], t => t
  | f :: fs, t => cons f (prepend fs t)

/-- The proper list of the given elements. -/
def ofList (fs : List Form) : Form := prepend fs nil

/-- A form ending in the empty list. -/
def proper : Form → Prop
  | nil => True
  | cons _ d => proper d
  | _ => False

/-- Every vector in the form has a proper list of elements: true of any datum. -/
def WF : Form → Prop
  | cons a d => WF a ∧ WF d
  | vec l => proper l ∧ WF l
  | _ => True

end Form

/-- What the identifiers of a rule mean: which are ellipses, literals, and the
underscore, and when a literal is the same as an identifier in the input. -/
structure Syn where
  ell : Nat → Bool
  lit : Nat → Bool
  wild : Nat → Bool
  same : Nat → Form → Bool

/-- What a pattern variable is bound to: a form, or (below an ellipsis) the
sequence of its bindings. -/
inductive Tree where
  | leaf (f : Form)
  | node (ts : List Tree)

/-- The pattern variables of a pattern in order of appearance. -/
def patVars (S : Syn) : Form → List Nat
  | .sym x => if S.ell x || S.lit x || S.wild x then [] else [x]
  | .cons a d => patVars S a ++ patVars S d
  | .vec l => patVars S l
  | _ => []

abbrev Binding := List (Nat × Tree)

/-- The binding of a variable (a dummy when there is none). -/
def getB (x : Nat) : Binding → Tree
  | [] => .leaf .nil
  | (y, t) :: b => if x = y then t else getB x b

/-- Bindings of the variables `xs` collected over the matches of a repeated
subpattern. -/
def collect (xs : List Nat) (bs : List Binding) : Binding :=
  xs.map fun x => (x, .node (bs.map (getB x)))

/-- Pointwise relation of two lists of the same length. -/
def Each {α β : Type} (R : α → β → Prop) : List α → List β → Prop
  | [], [] => True
  | a :: as, b :: bs => R a b ∧ Each R as bs
  | _, _ => False

/-- **The meaning of patterns.** -/
def Matches (S : Syn) : Form → Form → Binding → Prop
  | .sym x, F, b =>
      if S.lit x then S.same x F = true ∧ b = []
      else if S.wild x then b = []
      else b = [(x, .leaf F)]
  | .nil, F, b => F = .nil ∧ b = []
  | .atom k, F, b => F = .atom k ∧ b = []
  | .vec P, F, b => ∃ G, F = .vec G ∧ Matches S P G b
  | .cons P (.cons (.sym e) Q), F, b =>
      if S.ell e then
        -- `P ... . Q`: the elements of `F` but for as many as `Q` has
        ∃ fs F2 bs b2, F = Form.prepend fs F2 ∧ F2.pairs = Q.pairs ∧
          Each (Matches S P) fs bs ∧ Matches S Q F2 b2 ∧
          b = collect (patVars S P) bs ++ b2
      else
        ∃ F1 F2 b1 b2, F = .cons F1 F2 ∧ Matches S P F1 b1 ∧
          Matches S (.cons (.sym e) Q) F2 b2 ∧ b = b1 ++ b2
  | .cons P Q, F, b =>
      ∃ F1 F2 b1 b2, F = .cons F1 F2 ∧ Matches S P F1 b1 ∧ Matches S Q F2 b2 ∧
        b = b1 ++ b2

/-- **When a rule applies to a use of the macro.**  Normally the head of the
pattern and the keyword of the use are ignored, and a pattern that is a sole
identifier applies to every use.  With `head` (Gauche's `head-match` variant)
pattern and use are matched as a whole, and a sole identifier only matches a use
that is a sole identifier. -/
def Applies (S : Syn) (head : Bool) (P use : Form) (b : Binding) : Prop :=
  match head, P with
  | true, .cons _ _ => Matches S P use b
  | true, _ => (∃ x, use = .sym x) ∧ Matches S P use b
  | false, .cons _ Q => ∃ kw F, use = .cons kw F ∧ Matches S Q F b
  | false, _ => b = []

/-- The part of a pattern that is matched. -/
def matched (head : Bool) (P : Form) : Form :=
  match head, P with
  | false, .cons _ Q => Q
  | _, _ => P

/-- Is the last element of a list an ellipsis? -/
def endsEll (S : Syn) : Form → Bool
  | .cons (.sym e) .nil => S.ell e
  | .cons _ d => endsEll S d
  | _ => false

/-- Does an ellipsis come next? -/
def nextEll (S : Syn) : Form → Bool
  | .cons (.sym e) _ => S.ell e
  | _ => false

/-- No vector whose last element is an ellipsis occurs inside a subpattern that
is itself followed by an ellipsis (`below`). -/
def VecOK (S : Syn) : Bool → Form → Prop
  | below, .vec l => (below = true → endsEll S l = false) ∧ VecOK S below l
  | below, .cons a d => VecOK S (below || nextEll S d) a ∧ VecOK S below d
  | _, _ => True

/-! ## Templates -/

/-- Values of the pattern variables; `none` for identifiers that are none. -/
abbrev Env := Nat → Option Tree

/-- Position in a template: at the start of a datum, or in the rest of a list
with `skip` ellipses still to pass over. -/
inductive Pos where
  | start
  | rest (skip : Nat)
deriving DecidableEq

/-- How many ellipses come next. -/
def ells (S : Syn) (on : Bool) : Form → Nat
  | .cons (.sym e) d => if on && S.ell e then ells S on d + 1 else 0
  | _ => 0

/-- Does a list at this position begin with an escape `(... t)`? -/
def escape (S : Syn) (on : Bool) (p : Pos) (a d : Form) : Bool :=
  match p, a, d with
  | .start, .sym e, .cons _ _ => on && S.ell e
  | _, _, _ => false

/-- The identifiers of a template. -/
def tmplIds (S : Syn) (on : Bool) : Form → Pos → List Nat
  | .sym x, _ => [x]
  | .vec l, _ => tmplIds S on l .start
  | .cons a d, p =>
      if escape S on p a d then
        match d with
        | .cons t _ => tmplIds S false t .start
        | _ => []
      else tmplIds S on a .start ++ tmplIds S on d (.rest 0)
  | _, _ => []

/-- The values of the variables in the `i`-th round of a repetition. -/
def Env.round (env : Env) (i : Nat) : Env := fun x =>
  match env x with
  | some (.node ts) => ts[i]?
  | o => o

/-- `Repeat I xs n env rs`: a subtemplate over the identifiers `xs`, whose
instantiation is described by `I`, followed by `n` ellipses produces the
elements `rs`.  Each ellipsis needs a variable to iterate over, and all the
variables it iterates over have the same number of bindings. -/
def Repeat (I : Env → Form → Prop) (xs : List Nat) :
    Nat → Env → List Form → Prop
  | 0, env, rs => ∃ r, I env r ∧ rs = [r]
  | n + 1, env, rs =>
      ∃ k, (∃ x ∈ xs, ∃ ts, env x = some (.node ts)) ∧
        (∀ x ∈ xs, ∀ ts, env x = some (.node ts) → ts.length = k) ∧
        ∃ rss : List (List Form), rss.length = k ∧
          (∀ i rs', rss[i]? = some rs' → Repeat I xs n (env.round i) rs') ∧
          rs = rss.flatten

/-- **The meaning of templates.**  `on` says whether ellipses are special (they
are not inside `(... T)`). -/
def Inst (S : Syn) (ρ : Nat → Nat) (on : Bool) : Form → Pos → Env → Form → Prop
  | .sym x, _, env, R =>
      (on && S.ell x) = false ∧
      match env x with
      | some (.leaf f) => R = f
      | some (.node _) => False
      | none => R = .sym (ρ x)
  | .nil, _, _, R => R = .nil
  | .atom k, _, _, R => R = .atom k
  | .vec T, _, env, R => ∃ R', Inst S ρ on T .start env R' ∧ R = .vec R'
  | .cons _ d, .rest (k + 1), env, R => Inst S ρ on d (.rest k) env R
  | .cons a d, p, env, R =>
      if escape S on p a d then
        match d with
        | .cons t _ => Inst S ρ false t .start env R
        | _ => False
      else
        ∃ rs R2,
          Repeat (Inst S ρ on a .start) (tmplIds S on a .start) (ells S on d)
            env rs ∧
          Inst S ρ on d (.rest (ells S on d)) env R2 ∧ R = Form.prepend rs R2

/-- No two consecutive ellipses (`x ... ...`) in a template. -/
def SingleElls (S : Syn) (on : Bool) : Form → Pos → Prop
  | .vec l, _ => SingleElls S on l .start
  | .cons a d, p =>
      if escape S on p a d then
        match d with
        | .cons t _ => SingleElls S false t .start
        | _ => True
      else ells S on d ≤ 1 ∧ SingleElls S on a .start ∧ SingleElls S on d (.rest 0)
  | _, _ => True

/-- The values a match gives to the pattern variables. -/
def Binding.env (b : Binding) : Env := fun x =>
  match b.find? (fun e => e.1 == x) with
  | some e => some e.2
  | none => none

end Gauche.SynRules

import Verif.Spec.SynRules

/-!
# Model of `syntax-rules` (src/macro.c)

Patterns and templates are compiled (src/macro.c:472-605 `compile_rule1`), inputs are
matched against the compiled pattern with an array of match variables that is
filled in place (src/macro.c:904-977 `match_synrule`), and the compiled template is
walked with an array of loop indices (src/macro.c:984-1062 `realize_template_rec`).

Simplifications common to all definitions: source information attributes are
not modelled (`template_append1`, `template_append` are consing and
appending); comparing an identifier with a literal of the macro, the ellipsis
or the underscore (`Scm__ERCompare`) is a parameter; error messages are not
modelled, an error is `none`.
-/
namespace Gauche.SynRules

/-- A reference to a pattern variable: ellipsis level and serial number.
src/gauche/priv/macroP.h:147-148 `SCM_MAKE_PVREF` -/
abbrev PVRef := Nat × Nat

/-- Compiled patterns and templates: ordinary data in which pattern variables
are replaced by `pv` and subpatterns followed by an ellipsis by `ell`
(ScmSyntaxPattern: level, number of following items, variables, pattern).
`ident x` is a literal in a pattern and an identifier to insert in a template.
src/macro.c:166-175 `make_syntax_pattern` -/
inductive Pat where
  | pv (level count : Nat)
  | under
  | ident (x : Nat)
  | ell (level following : Nat) (vars : List PVRef) (p : Pat)
  | nil
  | cons (a d : Pat)
  | vec (l : Pat)
  | atom (k : Nat)
deriving DecidableEq, Repr

/-- What the identifiers in the definition mean: `isEll`, `isWild` compare with
the ellipsis and the underscore, `lits` is the list of literals and `same`
compares a literal with an input form. -/
structure Cfg where
  isEll : Nat → Bool
  isWild : Nat → Bool
  lits : List Nat
  same : Nat → Form → Bool

/-- compile_rules turns the ellipsis off when it is listed among the literals.
src/macro.c:633-722 `compile_rules` -/
def Cfg.ell (C : Cfg) (x : Nat) : Bool :=
  if C.lits.any C.isEll then false else C.isEll x

/-- PatternContext, the fields that change. src/macro.c:308-327 `PatternContext` -/
structure Ctx where
  pvars : List (Nat × PVRef)
  pvcnt : Nat
  maxlev : Nat
deriving DecidableEq, Repr

/-- Scm_Assq on the list of pattern variables. -/
def lookupPv (x : Nat) : List (Nat × PVRef) → Option PVRef
  | [] => none
  | (y, r) :: l => if x = y then some r else lookupPv x l

/-- ELLIPSIS_FOLLOWING, given the rest of the list.
src/macro.c:420-421 `ELLIPSIS_FOLLOWING` -/
def ellNext (C : Cfg) : Form → Bool
  | .cons (.sym e) _ => C.ell e
  | _ => false

/-- `(... x)` at the start of a list. src/macro.c:472-605 `compile_rule1` -/
def ellHead (C : Cfg) (a d : Form) : Bool :=
  match a, d with
  | .sym e, .cons _ _ => C.ell e
  | _, _ => false

/-- The length of the list after the ellipsis; `d` starts at the ellipsis.
src/macro.c:472-605 `compile_rule1` -/
def trailing : Form → Nat
  | .cons _ d => d.pairs
  | _ => 0

/-- The update of `maxlev` when an ellipsis is met.
src/macro.c:472-605 `compile_rule1` -/
def bumpLev (maxlev n : Nat) : Nat := if maxlev < n then n + 1 else maxlev

/-- Where the compiler is: at the start of a datum, or in the rest of a list;
`seen` tells whether the list had an ellipsis, `skip` how many ellipses are to
be passed over. -/
inductive Mode where
  | head
  | tail (seen : Bool) (skip : Nat)
deriving DecidableEq, Repr

def Mode.seen : Mode → Bool
  | .head => false
  | .tail s _ => s

/-- add_pvar. src/macro.c:308-327 `add_pvar` -/
def addPvar (lev x : Nat) (c : Ctx) (vs : List PVRef) :
    Option (Pat × Ctx × List PVRef) :=
  if lev > 255 then none
  else if c.pvcnt > 255 then none
  else if (lookupPv x c.pvars).isSome then none
  else some (.pv lev c.pvcnt,
    { c with pvars := (x, (lev, c.pvcnt)) :: c.pvars, pvcnt := c.pvcnt + 1 },
    (lev, c.pvcnt) :: vs)

/-- compile_rule1 with patternp = TRUE; the loop over a list is the recursion
in mode `tail`. src/macro.c:472-605 `compile_rule1` -/
def compPat (C : Cfg) : Nat → Form → Mode → Ctx → List PVRef →
    Option (Pat × Ctx × List PVRef)
  | lev, .cons _ d, .tail seen (k + 1), c, vs =>
      compPat C lev d (.tail seen k) c vs
  | lev, .cons a d, m, c, vs =>
      if m = .head ∧ ellHead C a d = true then none
      else if ellNext C d then
        if m.seen then none
        else
          match compPat C (lev + 1) a .head
              { c with maxlev := bumpLev c.maxlev (lev + 1) } [] with
          | none => none
          | some (p, c1, v1) =>
            match compPat C lev d (.tail true 1) c1 (vs ++ v1) with
            | none => none
            | some (q, c2, v2) =>
              some (.cons (.ell (lev + 1) (trailing d) v1 p) q, c2, v2)
      else
        match compPat C lev a .head c vs with
        | none => none
        | some (p, c1, v1) =>
          match compPat C lev d (.tail m.seen 0) c1 v1 with
          | none => none
          | some (q, c2, v2) => some (.cons p q, c2, v2)
  | lev, .vec l, _, c, vs =>
      match compPat C lev l .head c vs with
      | none => none
      | some (p, c1, v1) => some (.vec p, c1, v1)
  | lev, .sym x, _, c, vs =>
      if C.ell x then none
      else if C.lits.contains x then some (.ident x, c, vs)
      else if C.isWild x then some (.under, c, vs)
      else addPvar lev x c vs
  | _, .nil, _, c, vs => some (.nil, c, vs)
  | _, .atom k, _, c, vs => some (.atom k, c, vs)

/-- A proper list (Scm_ListToVector wants one). -/
def Pat.isList : Pat → Bool
  | .nil => true
  | .cons _ d => d.isList
  | _ => false

/-- How many ellipses follow. src/macro.c:472-605 `compile_rule1` -/
def countElls (C : Cfg) (on : Bool) : Form → Nat
  | .cons (.sym e) d => if on && C.ell e then countElls C on d + 1 else 0
  | _ => 0

/-- The chain of SyntaxPatterns for `n` consecutive ellipses; only the outermost
one gets the list of variables. src/macro.c:472-605 `compile_rule1` -/
def nestEll (vs : List PVRef) (p : Pat) : Nat → Nat → Pat
  | _, 0 => p
  | lev, n + 1 => .ell (lev + 1) 0 vs (nestEll [] p (lev + 1) n)

/-- compile_rule1 with patternp = FALSE; `on` is false inside `(... T)`.  The
context consists of `maxlev`; pattern variables are given.
src/macro.c:472-605 `compile_rule1` src/macro.c:394-406 `pvar_to_pvref` -/
def compTmpl (C : Cfg) (pvars : List (Nat × PVRef)) :
    Bool → Nat → Form → Mode → Nat → List PVRef →
    Option (Pat × Nat × List PVRef)
  | on, lev, .cons _ d, .tail seen (k + 1), ml, vs =>
      compTmpl C pvars on lev d (.tail seen k) ml vs
  | on, lev, .cons a d, m, ml, vs =>
      if m = .head ∧ (on && ellHead C a d) = true then
        match d with
        | .cons t _ => compTmpl C pvars false lev t .head ml vs
        | _ => none
      else
        match countElls C on d with
        | 0 =>
          match compTmpl C pvars on lev a .head ml vs with
          | none => none
          | some (p, ml1, v1) =>
            match compTmpl C pvars on lev d (.tail false 0) ml1 v1 with
            | none => none
            | some (q, ml2, v2) => some (.cons p q, ml2, v2)
        | n + 1 =>
          match compTmpl C pvars on (lev + (n + 1)) a .head
              (bumpLev ml (lev + (n + 1))) [] with
          | none => none
          | some (p, ml1, v1) =>
            if v1.any (fun r => lev + 1 ≤ r.1) then
              match compTmpl C pvars on lev d (.tail false (n + 1)) ml1
                  (vs ++ v1) with
              | none => none
              | some (q, ml2, v2) => some (.cons (nestEll v1 p lev (n + 1)) q, ml2, v2)
            else none
  | on, lev, .vec l, _, ml, vs =>
      match compTmpl C pvars on lev l .head ml vs with
      | none => none
      | some (p, ml1, v1) => if p.isList then some (.vec p, ml1, v1) else none
  | on, lev, .sym x, _, ml, vs =>
      if on && C.ell x then none
      else if C.lits.contains x then some (.ident x, ml, vs)
      else
        match lookupPv x pvars with
        | none => some (.ident x, ml, vs)
        | some (l, n) => if l > lev then none else some (.pv l n, ml, (l, n) :: vs)
  | _, _, .nil, _, ml, vs => some (.nil, ml, vs)
  | _, _, .atom k, _, ml, vs => some (.atom k, ml, vs)

/-! ## Matching -/

/-- MatchVar.  `sprout` points at a pair of the tree `root`: the one made last,
which is always the last pair of the list it is in; the model keeps the level
it was made for. src/macro.c:754-757 `MatchVar` -/
structure MatchVar where
  branch : List Form
  sprout : Nat
  root : Form
deriving DecidableEq, Repr

/-- The array of match variables, by serial number. -/
abbrev MVec := Nat → MatchVar

/-- init_matchvec. src/macro.c:759-765 `init_matchvec` -/
def initMvec : MVec := fun _ => ⟨[], 0, .nil⟩

/-- Walk to the last pair and attach a pair holding `v`. -/
def snoc (v : Form) : Form → Form
  | .nil => .cons v .nil
  | .cons a d => .cons a (snoc v d)
  | f => f

/-- Walk to the last pair and change its car; where there is no pair (nor a car)
yet, make one. -/
def onLast (f : Form → Form) : Form → Form
  | .nil => .cons (f .nil) .nil
  | .cons a .nil => .cons (f a) .nil
  | .cons a d => .cons a (onLast f d)
  | g => g

/-- The walk of grow_branch: down the last cars, then a SPROUT is attached.
src/macro.c:808-837 `grow_branch` -/
def growAt : Nat → Form → Form
  | 0, r => snoc .nil r
  | k + 1, r => onLast (growAt k) r

/-- grow_branch. src/macro.c:808-837 `grow_branch` -/
def growBranch (mv : MatchVar) (level : Nat) : MatchVar :=
  if level ≤ 1 then mv
  else { mv with root := growAt (level - 2) mv.root, sprout := level }

/-- SCM_SET_CAR of the sprout. src/macro.c:849-865 `exit_subpattern` -/
def setSprout (v : Form) : Nat → Form → Form
  | 0, r => onLast (fun _ => v) r
  | k + 1, r => onLast (setSprout v k) r

/-- Change one entry of the array. -/
def MVec.upd (m : MVec) (c : Nat) (f : MatchVar → MatchVar) : MVec :=
  fun i => if i = c then f (m i) else m i

/-- enter_subpattern. src/macro.c:839-847 `enter_subpattern` -/
def enterSub (level : Nat) : List PVRef → MVec → MVec
  | [], m => m
  | r :: vs, m => enterSub level vs (m.upd r.2 (fun mv => growBranch mv level))

/-- The loop body of exit_subpattern. src/macro.c:849-865 `exit_subpattern` -/
def exitVar (level : Nat) (r : PVRef) (mv : MatchVar) : MatchVar :=
  if r.1 = level then
    if level = 1 then { mv with root := Form.ofList mv.branch.reverse }
    else { mv with
      root := setSprout (Form.ofList mv.branch.reverse) (mv.sprout - 2) mv.root,
      branch := [] }
  else mv

/-- exit_subpattern. src/macro.c:849-865 `exit_subpattern` -/
def exitSub (level : Nat) : List PVRef → MVec → MVec
  | [], m => m
  | r :: vs, m => exitSub level vs (m.upd r.2 (exitVar level r))

/-- match_insert. src/macro.c:868-876 `match_insert` -/
def matchInsert (level count : Nat) (f : Form) (m : MVec) : MVec :=
  m.upd count (fun mv =>
    if level = 0 then { mv with root := f }
    else { mv with branch := f :: mv.branch })

/-- The loop of match_subpattern: match the first `limit` elements, return the
rest. src/macro.c:878-899 `match_subpattern` -/
def matchLoop (M : Form → MVec → Option MVec) :
    Nat → Form → MVec → Option (Form × MVec)
  | 0, f, m => some (f, m)
  | n + 1, .cons a d, m =>
      match M a m with
      | none => none
      | some m1 => matchLoop M n d m1
  | _ + 1, f, m => some (f, m)

/-- Is this an ScmSyntaxPattern? -/
def Pat.isEll : Pat → Bool
  | .ell .. => true
  | _ => false

/-- Length of the list of elements of a vector pattern. -/
def Pat.len : Pat → Nat
  | .cons _ d => d.len + 1
  | _ => 0

/-- Is there an ellipsis among the elements of a vector pattern? -/
def Pat.hasElli : Pat → Bool
  | .cons a d => a.isEll || d.hasElli
  | _ => false

/-- The length checks on a vector. src/macro.c:904-977 `match_synrule` -/
def vecLenOK (ps : Pat) (flen : Nat) : Bool :=
  if ps.len = 0 then flen == 0
  else if ps.hasElli then decide (ps.len - 1 ≤ flen)
  else ps.len == flen

mutual

/-- match_synrule, with match_subpattern inlined; `none` is FALSE.  The loop over
a list pattern is recursion. src/macro.c:904-977 `match_synrule`
src/macro.c:878-899 `match_subpattern` -/
def matchSyn (C : Cfg) : Pat → Form → MVec → Option MVec
  | .pv l n, f, m => some (matchInsert l n f m)
  | .under, _, m => some m
  | .ident x, f, m => if C.same x f then some m else none
  | .ell l nf vs p, f, m =>
      match matchLoop (matchSyn C p) (f.pairs - nf) f (enterSub l vs m) with
      | none => none
      | some (f', m') => if f' = .nil then some (exitSub l vs m') else none
  | .cons (.ell l nf vs p) q, f, m =>
      match matchLoop (matchSyn C p) (f.pairs - nf) f (enterSub l vs m) with
      | none => none
      | some (f', m') => matchSyn C q f' (exitSub l vs m')
  | .cons p q, f, m =>
      match f with
      | .cons a d =>
        match matchSyn C p a m with
        | none => none
        | some m1 => matchSyn C q d m1
      | _ => none
  | .nil, f, m => if f = .nil then some m else none
  | .vec ps, f, m =>
      match f with
      | .vec g => if vecLenOK ps g.pairs then matchVec C ps g m else none
      | _ => none
  | .atom k, f, m => if f = .atom k then some m else none

/-- The elements of a vector after the length checks: one by one up to the
ellipsis; if elements are left there they are matched as a list, and if none are
left nothing more is done. src/macro.c:904-977 `match_synrule` -/
def matchVec (C : Cfg) : Pat → Form → MVec → Option MVec
  | .cons (.ell l nf vs p) q, f, m =>
      match f with
      | .cons _ _ =>
        match matchLoop (matchSyn C p) (f.pairs - nf) f (enterSub l vs m) with
        | none => none
        | some (f', m') => matchSyn C q f' (exitSub l vs m')
      | _ => some m
  | .cons p q, f, m =>
      match f with
      | .cons a d =>
        match matchSyn C p a m with
        | none => none
        | some m1 => matchVec C q d m1
      | _ => none
  | _, _, m => some m

end

/-! ## Building the expansion -/

/-- Result of realizing a template: a form, "exhausted at this level", or the
loop is not finished within the given number of rounds. -/
inductive Res where
  | ok (f : Form)
  | unbound (level : Nat)
  | more
deriving DecidableEq, Repr

/-- The `i`-th element of a list if there is one. -/
def nth : Nat → Form → Option Form
  | 0, .cons a _ => some a
  | i + 1, .cons _ d => nth i d
  | _, _ => none

/-- get_pvref_value: levels `i`, ..., `i + n - 1` of the tree.
src/macro.c:769-789 `get_pvref_value` -/
def getPv (idx : Nat → Nat) : Nat → Nat → Form → Res
  | _, 0, t => .ok t
  | i, n + 1, t =>
      match nth (idx i) t with
      | none => .unbound i
      | some t' => getPv idx (i + 1) n t'

/-- Set one loop index. -/
def setIdx (idx : Nat → Nat) (i v : Nat) : Nat → Nat :=
  fun j => if j = i then v else idx j

/-- The table of inserted identifiers; `base` is the first identifier that does
not exist yet. -/
structure Ids where
  base : Nat
  tab : List (Nat × Nat)
deriving DecidableEq, Repr

def Ids.find (s : Ids) (x : Nat) : Option Nat :=
  match s.tab.find? (fun e => e.1 == x) with
  | some e => some e.2
  | none => none

/-- rename_variable: a fresh identifier for each identifier of the template.
src/macro.c:447-462 `rename_variable` -/
def rename (s : Ids) (x : Nat) : Nat × Ids :=
  match s.find x with
  | some y => (y, s)
  | none => (s.base + s.tab.length,
      { s with tab := (x, s.base + s.tab.length) :: s.tab })

/-- Elements of a list (SCM_APPEND). -/
def elems : Form → List Form
  | .cons a d => a :: elems d
  | _ => []

/-- The loop over the rounds of an ellipsis; `B i` realizes the body with loop
index `i`, `h` is the list made so far.
src/macro.c:984-1062 `realize_template_rec` -/
def realLoop (B : Nat → Ids → Res × Ids) (level : Nat) (splice : Bool) :
    Nat → Nat → List Form → Ids → Res × Ids
  | 0, _, _, s => (.more, s)
  | n + 1, i, h, s =>
      match B i s with
      | (.more, s1) => (.more, s1)
      | (.unbound e, s1) => (if e < level then .unbound e else .ok (Form.ofList h), s1)
      | (.ok r, s1) =>
        realLoop B level splice n (i + 1)
          (if splice then h ++ elems r else h ++ [r]) s1

/-- realize_template_rec.  A loop is given `fuel` rounds (the code has no bound).
The indices of the loops inside are set before they are read, so that the model
can pass the array down. src/macro.c:984-1062 `realize_template_rec` -/
def realize (fuel : Nat) (m : MVec) : Pat → Nat → (Nat → Nat) → Ids → Res × Ids
  | .cons e d, lev, idx, s =>
      match realize fuel m e lev idx s with
      | (.ok r, s1) =>
        match realize fuel m d lev idx s1 with
        | (.ok r2, s2) =>
          (.ok (if e.isEll then Form.prepend (elems r) r2 else .cons r r2), s2)
        | o => o
      | o => o
  | .pv l n, _, idx, s => (getPv idx 1 l (m n).root, s)
  | .ell l _ _ p, lev, idx, s =>
      realLoop (fun i s' => realize fuel m p (lev + 1) (setIdx idx (lev + 1) i) s')
        l p.isEll fuel 0 [] s
  | .vec l, lev, idx, s =>
      match realize fuel m l lev idx s with
      | (.ok r, s1) => (.ok (.vec r), s1)
      | o => o
  | .ident x, _, _, s => (.ok (.sym (rename s x).1), (rename s x).2)
  | .nil, _, _, s => (.ok .nil, s)
  | .atom k, _, _, s => (.ok (.atom k), s)
  | .under, _, _, s => (.ok .nil, s)

/-! ## Rules -/

/-- A compiled rule. src/gauche/priv/macroP.h:99-104 -/
structure Rule where
  pat : Pat
  tmpl : Pat
  numPvars : Nat
  maxLevel : Nat
deriving DecidableEq, Repr

/-- check_head_pattern: the head is an identifier but not an ellipsis, and no
ellipsis follows. src/macro.c:610-628 `check_head_pattern` -/
def headOK (C : Cfg) (a d : Form) : Bool :=
  match a with
  | .sym e => !C.ell e && !ellNext C d
  | _ => false

/-- Compilation of the pattern of a rule.  `head` is the flag
SCM_SYNTAX_RULES_HEAD_MATCH: the head of the pattern takes part in the match.
Otherwise the head is ignored, and a sole identifier as a pattern matches
anything. src/macro.c:633-722 `compile_rules` -/
def compPattern (C : Cfg) (head : Bool) (pattern : Form) :
    Option (Pat × Ctx × List PVRef) :=
  match head, pattern with
  | true, .cons a d =>
      if headOK C a d then compPat C 0 (.cons a d) .head ⟨[], 0, 0⟩ [] else none
  | true, .sym x => compPat C 0 (.sym x) .head ⟨[], 0, 0⟩ []
  | false, .cons _ d => compPat C 0 d .head ⟨[], 0, 0⟩ []
  | false, .sym _ => some (.under, ⟨[], 0, 0⟩, [])
  | _, _ => none

/-- Compilation of one rule `(pattern template)`. src/macro.c:633-722 `compile_rules` -/
def compRule (C : Cfg) (head : Bool) (pattern template : Form) : Option Rule :=
  match compPattern C head pattern with
  | none => none
  | some (p, c, _) =>
    match compTmpl C c.pvars true 0 template .head c.maxlev [] with
    | none => none
    | some (t, ml, _) => some ⟨p, t, c.pvcnt, ml⟩

/-- compile_rules. src/macro.c:633-722 `compile_rules` -/
def compRules (C : Cfg) (head : Bool) : List (Form × Form) → Option (List Rule)
  | [] => some []
  | (p, t) :: rs =>
    match compRule C head p t with
    | none => none
    | some r =>
      match compRules C head rs with
      | none => none
      | some l => some (r :: l)

/-- SCM_PAIRP of a compiled pattern. -/
def Pat.isPair : Pat → Bool
  | .cons .. => true
  | _ => false

/-- An identifier? -/
def Form.isSym : Form → Bool
  | .sym _ => true
  | _ => false

/-- Does the rule match, and with which variables? src/macro.c:1082-1130 `synrule_expand` -/
def tryRule (C : Cfg) (head : Bool) (r : Rule) (form : Form) : Option MVec :=
  if head then
    if r.pat.isPair || form.isSym then matchSyn C r.pat form initMvec else none
  else if r.pat = .under then some initMvec
  else
    match form with
    | .cons _ d => matchSyn C r.pat d initMvec
    | _ => none

/-- synrule_expand with realize_template; `none` is the error "malformed".
src/macro.c:1082-1130 `synrule_expand` src/macro.c:1066-1080 `realize_template` -/
def expand (C : Cfg) (head : Bool) (fuel base : Nat) : List Rule → Form → Option Res
  | [], _ => none
  | r :: rs, form =>
    match tryRule C head r form with
    | some m => some (realize fuel m r.tmpl 0 (fun _ => 0) ⟨base, []⟩).1
    | none => expand C head fuel base rs form

/-- The number of cells of the array of loop indices; realize_template then
clears the cells 0 to maxLevel. src/macro.c:1066-1080 `realize_template` -/
def indexCells (maxLevel : Nat) : Nat := if maxLevel > 10 then maxLevel + 1 else 10

/-- The cells of the array that expanding a template reads or writes: a loop
uses the cell of its level, reading a variable the cells 1 to its level.
src/macro.c:984-1062 `realize_template_rec` src/macro.c:769-789 `get_pvref_value` -/
def touched : Pat → Nat → List Nat
  | .pv l _, _ => (List.range l).map (· + 1)
  | .ell _ _ _ p, lev => (lev + 1) :: touched p (lev + 1)
  | .cons a d, lev => touched a lev ++ touched d lev
  | .vec l, lev => touched l lev
  | _, _ => []

/-- All cells realize_template uses: it clears the cells 0 to maxLevel first.
src/macro.c:1066-1080 `realize_template` -/
def allTouched (r : Rule) : List Nat := List.range (r.maxLevel + 1) ++ touched r.tmpl 0

end Gauche.SynRules

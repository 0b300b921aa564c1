/-! Model of the search of global bindings (src/module.c) and of the options of `import` (src/compile-1.scm).

A symbol is the list of its characters' codes.  Hash tables are functions, modules are numbers, and the heap gives the contents of each
module.  The depth of the recursion of `search_binding` is bounded by the first argument: `none` means that it was not enough, and
`some none` is NULL.  Mutexes, `sealed` and warnings are not modelled. -/
namespace Gauche.ModSearch

abbrev Sym := List Nat

/-- ScmGloc (src/gauche/priv/glocP.h:40-50): `value` is `none` for SCM_UNBOUND. -/
structure Gloc where
  name : Sym
  value : Option Nat
  hidden : Bool

abbrev Tab := Sym → Option Gloc

/-- ScmModule (src/gauche/module.h). -/
structure Module where
  pre : Option Sym
  internal : Tab
  external : Tab
  imported : List Nat
  mpl : List Nat

abbrev Heap := Nat → Module

/-- `Scm_SymbolSansPrefix` (src/symbol.c:144-156), on a symbol and a prefix. -/
def sans (s p : Sym) : Option Sym := if p.isPrefixOf s then some (s.drop p.length) else none

/-- The loop over the precedence list of one imported module (src/module.c:335-361); the result is the binding, or NULL and the modules
visited so far. -/
def walk (H : Heap) (rec : Nat → Sym → Option (Option Gloc)) : List Nat → Sym → Bool → List Nat → Option (Option Gloc × List Nat)
  | [], _, _, vs => some (none, vs)
  | m :: ms, sym, prefixed, vs =>
    if !prefixed && vs.contains m then walk H rec ms sym prefixed vs
    else
      let look (sym : Sym) (prefixed : Bool) : Option (Option Gloc × List Nat) :=
        match (H m).external sym with
        | none => walk H rec ms sym prefixed (if prefixed then vs else m :: vs)
        | some g =>
          if g.hidden then some (none, vs)
          else match g.value with
            | some _ => some (some g, vs)
            | none =>
              match rec m g.name with
              | none => none
              | some (some g') => some (some g', vs)
              | some none => walk H rec ms sym prefixed (if prefixed then vs else m :: vs)
      match (H m).pre with
      | some p =>
        match sans sym p with
        | none => some (none, vs)
        | some sym' => look sym' true
      | none => look sym prefixed

/-- The loop over the imported modules (src/module.c:329-362). -/
def imports (H : Heap) (rec : Nat → Sym → Option (Option Gloc)) : List Nat → Sym → List Nat → Option (Option Gloc)
  | [], _, _ => some none
  | e :: es, sym, vs =>
    match walk H rec (H e).mpl sym false vs with
    | none => none
    | some (some g, _) => some (some g)
    | some (none, vs') => imports H rec es sym vs'

/-- The loop over the parent modules (src/module.c:366-389). -/
def parents (H : Heap) (rec : Nat → Sym → Option (Option Gloc)) : List Nat → Sym → Bool → Option (Option Gloc)
  | [], _, _ => some none
  | m :: ms, sym, ext =>
    let look (sym : Sym) : Option (Option Gloc) :=
      match (if ext then (H m).external sym else (H m).internal sym) with
      | none => parents H rec ms sym ext
      | some g =>
        match g.value with
        | some _ => some (some g)
        | none =>
          match rec m g.name with
          | none => none
          | some (some g') => some (some g')
          | some none => parents H rec ms g.name false
    match (H m).pre with
    | some p =>
      match sans sym p with
      | none => some none
      | some sym' => look sym'
    | none => look sym

/-- `search_binding` (src/module.c:294-391). -/
def search (H : Heap) : Nat → Nat → Sym → Bool → Bool → Bool → Option (Option Gloc)
  | 0, _, _, _, _, _ => none
  | n + 1, m, sym, stay, ext, exclude =>
    let rest (sym : Sym) (ext : Bool) (vs : List Nat) : Option (Option Gloc) :=
      match imports H (fun m s => search H n m s false false true) (H m).imported sym vs with
      | none => none
      | some (some g) => some (some g)
      | some none => parents H (fun m s => search H n m s false false true) (H m).mpl.tail sym ext
    if exclude then rest sym ext []
    else
      match (if ext then (H m).external sym else (H m).internal sym) with
      | none => if stay then some none else rest sym ext [m]
      | some g =>
        match g.value with
        | some _ => some (some g)
        | none => if stay then some none else rest g.name false [m]

/-- `Scm_FindBinding` without SCM_BINDING_SYNTAX (src/module.c:394-408). -/
def findBinding (H : Heap) (n m : Nat) (sym : Sym) (stay ext : Bool) : Option (Option Gloc) := search H n m sym stay ext false

/-- The heap with one module replaced or added. -/
def set (H : Heap) (i : Nat) (m : Module) : Heap := fun j => if j = i then m else H j

/-- `hash-table-put!`. -/
def put (t : Tab) (s : Sym) (g : Gloc) : Tab := fun x => if x = s then some g else t x

/-- The options of `import`. -/
inductive Opt
  | only (ss : List Sym)
  | except (ss : List Sym)
  | rename (l : List (Sym × Sym))
  | pre (p : Sym)

/-- `process-import:strip-prefix` (src/compile-1.scm:2042-2046); `none` is an error. -/
def strip (s : Sym) (p : Option Sym) : Option Sym :=
  match p with
  | some p => sans s p
  | none => some s

/-- The calls of `%alias-binding` for a list of names with the names to look up (src/compile-1.scm:1998-2003, 2017-2022;
`Scm_AliasBinding`, src/module.c:559-571), giving the table of the new module, of which both tables are the same.  With `keep`, the binding
is inserted under the name that is looked up.  Nothing is looked up in the new module. -/
def aliases (H : Heap) (n I : Nat) (P : Option Sym) (keep : Bool) : List (Sym × Sym) → Tab → Option Tab
  | [], t => some t
  | (s, d) :: l, t =>
    match strip s P with
    | none => none
    | some o =>
      match findBinding H n I o false true with
      | some (some g) => aliases H n I P keep l (put t (if keep then o else d) g)
      | _ => none

/-- A hidden binding (src/module.c:520-522). -/
def hiddenGloc (s : Sym) : Gloc := ⟨s, none, true⟩

/-- The calls of `%hide-binding` of `:except` (src/compile-1.scm:2008-2010). -/
def hides (P : Option Sym) : List Sym → Tab → Option Tab
  | [], t => some t
  | s :: l, t =>
    match strip s P with
    | none => none
    | some o => hides P l (match t o with | some _ => t | none => put t o (hiddenGloc o))

/-- The calls of `%hide-binding` of `:rename` (src/compile-1.scm:2023), where `int` is the internal table of the new module. -/
def hideOld (int : Tab) : List Sym → Tab → Tab
  | [], t => t
  | s :: l, t =>
    match int s with
    | some _ => hideOld int l t
    | none => hideOld int l (match t s with | some _ => t | none => put t s (hiddenGloc s))

/-- `Scm__MakeWrapperModule` (src/module.c:228-240), with its tables. -/
def wrapper (H : Heap) (id I : Nat) (P : Option Sym) (int ext : Tab) : Module := ⟨P, int, ext, [], id :: (H I).mpl⟩

/-- The loop of `process-import` (src/compile-1.scm:1988-2025), with the number of the next new module; `none` is an error.  The result is
the module that is added to the list of imported modules (`Scm_ImportModule`, src/module.c:594-596). -/
def process (n : Nat) : Heap → Nat → Nat → Option Sym → List Opt → Option (Heap × Nat × Nat)
  | H, next, I, P, [] =>
    match P with
    | none => some (H, next, I)
    | some p => some (set H next (wrapper H next I (some p) (fun _ => none) (fun _ => none)), next + 1, next)
  | H, next, I, P, .pre p :: r => process n H next I (some (p ++ P.getD [])) r
  | H, next, I, P, .only ss :: r =>
    match aliases H n I P true (ss.map (fun s => (s, s))) (fun _ => none) with
    | none => none
    | some t => process n (set H next { wrapper H next I P t t with mpl := [next] }) (next + 1) next none r
  | H, next, I, P, .except ss :: r =>
    match hides P ss (fun _ => none) with
    | none => none
    | some t => process n (set H next (wrapper H next I P (fun _ => none) t)) (next + 1) next none r
  | H, next, I, P, .rename l :: r =>
    match aliases H n I P false l (fun _ => none) with
    | none => none
    | some t =>
      let ext := hideOld t (l.map (·.1)) t
      match P with
      | none => process n (set H next (wrapper H next I none t ext)) (next + 1) next none r
      | some p =>
        let H0 := set H next (wrapper H next I (some p) (fun _ => none) (fun _ => none))
        process n (set H0 (next + 1) (wrapper H0 (next + 1) next none t ext)) (next + 2) (next + 1) none r

/-- `Scm_ImportModule` (src/module.c:598-623): the module goes to the front, and is removed from its former place. -/
def addImport (H : Heap) (cur I : Nat) : Heap := set H cur { H cur with imported := I :: (H cur).imported.erase I }

/-- `process-import` (src/compile-1.scm:1988-2025). -/
def importModule (H : Heap) (n next cur M : Nat) (opts : List Opt) : Option (Heap × Nat) :=
  match process n H next M none opts with
  | none => none
  | some (H', next', I) => some (addImport H' cur I, next')

end Gauche.ModSearch

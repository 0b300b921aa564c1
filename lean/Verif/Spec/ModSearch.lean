import Verif.Model.ModSearch
/-! Specification of the visibility of global bindings. -/
namespace Gauche.ModSearch

/-- What a module with the given precedence list exports: the first of its modules with an entry for the name decides; a prefix has to be
there and is taken off for this module and the following ones; a hidden entry ends the search.  An exported binding without value is looked
up from where it is, by `rec`. -/
def exported (H : Heap) (rec : Nat → Sym → Option (Option Gloc)) : List Nat → Sym → Option (Option Gloc)
  | [], _ => some none
  | m :: ms, x =>
    match strip x (H m).pre with
    | none => some none
    | some y =>
      match (H m).external y with
      | none => exported H rec ms y
      | some g =>
        if g.hidden then some none
        else match g.value with
          | some _ => some (some g)
          | none =>
            match rec m g.name with
            | none => none
            | some (some g') => some (some g')
            | some none => exported H rec ms y

/-- The first imported module that exports the name. -/
def firstImport (H : Heap) (rec : Nat → Sym → Option (Option Gloc)) : List Nat → Sym → Option (Option Gloc)
  | [], _ => some none
  | e :: es, x =>
    match exported H rec (H e).mpl x with
    | none => none
    | some (some g) => some (some g)
    | some none => firstImport H rec es x

/-- The same when every exported binding has a value. -/
def chain (H : Heap) : List Nat → Sym → Option Gloc
  | [], _ => none
  | m :: ms, x =>
    match strip x (H m).pre with
    | none => none
    | some y =>
      match (H m).external y with
      | none => chain H ms y
      | some g => if g.hidden then none else some g

/-- What a module exports when every exported binding has a value. -/
def visible (H : Heap) (m : Nat) (x : Sym) : Option Gloc := chain H (H m).mpl x

/-- What a module inherits from its parents: the first one with an entry decides, where a prefix has to be there and is taken off. -/
def inherit (H : Heap) : List Nat → Sym → Option Gloc
  | [], _ => none
  | m :: ms, x =>
    match strip x (H m).pre with
    | none => none
    | some y => ((H m).internal y).or (inherit H ms y)

/-- Every exported binding in these modules is hidden or has a value. -/
def Bound (H : Heap) (ms : List Nat) : Prop := ∀ m ∈ ms, ∀ x g, (H m).external x = some g → g.hidden = true ∨ g.value.isSome

/-- The import sets of R7RS, section 5.2: from the bindings of a set to those of the new one. -/
def Opt.apply (S : Sym → Option Gloc) : Opt → Sym → Option Gloc
  | .only ss, x => if x ∈ ss then S x else none
  | .except ss, x => if x ∈ ss then none else S x
  | .rename l, x =>
    match l.find? (fun q => q.2 = x) with
    | some q => S q.1
    | none => if x ∈ l.map (·.1) then none else S x
  | .pre p, x => if p.isPrefixOf x then S (x.drop p.length) else none

/-- The names in an option have to be in the set, and the new names have to be different. -/
def Opt.Ok (S : Sym → Option Gloc) : Opt → Prop
  | .only ss => ∀ s ∈ ss, (S s).isSome
  | .except ss => ∀ s ∈ ss, (S s).isSome
  | .rename l => (∀ q ∈ l, (S q.1).isSome) ∧ (l.map (·.2)).Nodup
  | .pre _ => True

/-- All options, one after the other. -/
def applyAll (S : Sym → Option Gloc) : List Opt → Sym → Option Gloc
  | [] => S
  | o :: r => applyAll (o.apply S) r

/-- Every option can be applied to the set made by the options before it. -/
def OkAll (S : Sym → Option Gloc) : List Opt → Prop
  | [] => True
  | o :: r => o.Ok S ∧ OkAll (o.apply S) r

/-- No `:only` or `:rename` comes after an `:only` or `:except` with a `:prefix` just before it (`pending`: a prefix was given since the last
other option; `blocked`: the last other option was such an `:only` or `:except`). -/
def Fine : Bool → Bool → List Opt → Prop
  | _, _, [] => True
  | _, blocked, .pre _ :: r => Fine true blocked r
  | pending, blocked, .only _ :: r => blocked = false ∧ Fine false pending r
  | pending, _, .except _ :: r => Fine false pending r
  | _, blocked, .rename _ :: r => blocked = false ∧ Fine false false r

/-- The module `M` before it is imported: it is the first one of its precedence list, has no prefix, the numbers from `next` on are not used,
every binding it exports has a value, and the names it only exports through its parents are not exported by the modules it imports. -/
structure Base (H : Heap) (next M : Nat) : Prop where
  mpl : ∃ parents, (H M).mpl = M :: parents
  lt : ∀ m ∈ (H M).mpl, m < next
  bound : Bound H (H M).mpl
  plain : (H M).pre = none
  apart : ∀ x, visible H M x ≠ none → (H M).external x = none →
    ∀ e ∈ (H M).imported, M ∉ (H e).mpl ∧ Bound H (H e).mpl ∧ visible H e x = none

end Gauche.ModSearch

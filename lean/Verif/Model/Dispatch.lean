import Verif.Spec.Dispatch
/-
Generic functions: src/class.c (method lists, applicability, order of methods), src/vmcall.c (calls), src/dispatch.c (the
method dispatch accelerator).

Simplifications.  A class is a number, and a null class pointer is `none` where one can occur.  One generic function of
class `<generic>` is modelled, without threads: the `generic` field of a method is not (adding a method that belongs to
another generic function is an error there, deleting one that is not in the list changes nothing).  Class redefinition
(`update-direct-method!`) and user-defined metaobject protocol are not modelled.  An argument is represented by its class.
`none` as a result stands for an undefined outcome: memory that was not written is read, memory outside of an array is
written, or an internal assertion fails.
-/
namespace Gauche.Dispatch

/-- src/class.c:951-964 `Scm_SubclassP` -/
def subclassP (w : World) (sub ty : Nat) : Bool := sub == ty || sub == w.bottom || (w.cpl sub).contains ty

/-- The loop of src/class.c:2222-2236 `Scm_MethodApplicableForClasses`: `sp` are the specializers from the `n`-th on. -/
def specsOk (w : World) (types : List Nat) : Nat → List Nat → Option Bool
  | _, [] => some true
  | n, s :: sp =>
    if s = w.top then specsOk w types (n + 1) sp
    else match types[n]? with
      | none => none
      | some c => if subclassP w c s then specsOk w types (n + 1) sp else some false

/-- src/class.c:2222-2236 `Scm_MethodApplicableForClasses` -/
def applicableForClasses (w : World) (m : Method) (types : List Nat) (nargs : Nat) : Option Bool :=
  if nargs < m.specs.length ∨ (m.opt = false ∧ nargs ≠ m.specs.length) then some false
  else specsOk w types 0 m.specs

/-- The search in the class precedence list in src/class.c:2320-2348 `method_more_specific`; the error is `none`. -/
def cplFirst (x y : Nat) : List Nat → Option Bool
  | [] => none
  | c :: l => if x = c then some true else if y = c then some false else cplFirst x y l

/-- The loop over the specializers in src/class.c:2320-2348 `method_more_specific`: `some (some b)` if it returns `b`,
`some none` if it ends. -/
def specsCmp (w : World) (targv : List Nat) : Nat → List Nat → List Nat → Option (Option Bool)
  | i, x :: xs, y :: ys =>
    if x = y then specsCmp w targv (i + 1) xs ys
    else match targv[i]? with
      | none => none
      | some ac =>
        if x = ac then some (some true)
        else if y = ac then some (some false)
        else (cplFirst x y (w.cpl ac)).map some
  | _, _, _ => some none

/-- src/class.c:2320-2348 `method_more_specific` -/
def methodMoreSpecific (w : World) (targv : List Nat) (x y : Method) : Option Bool :=
  match specsCmp w targv 0 x.specs y.specs with
  | none => none
  | some (some b) => some b
  | some none =>
    if x.specs.length > y.specs.length then some true
    else if x.specs.length < y.specs.length then some false
    else some y.opt

/-- The innermost loop of src/class.c:2395-2429 `Scm_SortMethods`. -/
def sortInner (w : World) (targv : List Nat) (step : Nat) : Nat → Nat → List Method → Option (List Method)
  | 0, _, _ => none
  | fuel + 1, j, arr =>
    match arr[j]?, arr[j + step]? with
    | some a, some b =>
      match methodMoreSpecific w targv a b with
      | none => none
      | some true => some arr
      | some false =>
        let arr' := (arr.set (j + step) a).set j b
        if step ≤ j then sortInner w targv step fuel (j - step) arr' else some arr'
    | _, _ => none

/-- The middle loop of src/class.c:2395-2429 `Scm_SortMethods`: `k` more rounds, from `i` on. -/
def sortPass (w : World) (targv : List Nat) (step : Nat) : Nat → Nat → List Method → Option (List Method)
  | 0, _, arr => some arr
  | k + 1, i, arr => (sortInner w targv step (i + 1) (i - step) arr).bind fun arr => sortPass w targv step k (i + 1) arr

/-- The outer loop of src/class.c:2395-2429 `Scm_SortMethods`. -/
def sortSteps (w : World) (targv : List Nat) : Nat → Nat → List Method → Option (List Method)
  | 0, _, _ => none
  | fuel + 1, step, arr =>
    if 0 < step then
      (sortPass w targv step (arr.length - step) step arr).bind fun arr => sortSteps w targv fuel (step / 2) arr
    else some arr

/-- src/class.c:2395-2429 `Scm_SortMethods` -/
def sortMethods (w : World) (methods : List Method) (targv : List Nat) : Option (List Method) :=
  sortSteps w targv (methods.length + 1) (methods.length / 2) methods

/-! ### The method dispatch accelerator -/

/-- src/dispatch.c:122-127 `mhash_entry`; the class may be a null pointer (see `specAt`). -/
structure Entry where
  klass : Option Nat
  nargs : Nat
  leaves : List Method
  nonleaves : List Method
  deriving DecidableEq, Repr

/-- The contents of a bin, src/dispatch.c:129-141: 0, 1 or a pointer to an entry. -/
inductive Bin where
  | free
  | deleted
  | entry (e : Entry)
  deriving DecidableEq, Repr

/-- src/dispatch.c:129-141 `mhash`; `size` is the length of `bins`. -/
structure MHash where
  bins : List Bin
  numEntries : Nat
  deriving Repr

/-- src/dispatch.c:151-158 `make_mhash` -/
def makeMHash (size : Nat) : MHash := { bins := List.replicate size .free, numEntries := 0 }

/-- The hash function src/dispatch.c:146-149 `mhashfn`: it depends on the addresses of the classes, so any function is
allowed. -/
abbrev HashFn := Option Nat → Nat → Nat

/-- The loop of src/dispatch.c:160-184 `mhash_probe`; `n` is the number of rounds left. -/
def probeLoop (h : MHash) (k : Option Nat) (nargs : Nat) : Nat → Nat → Nat → Option (Option (List Method))
  | 0, _, _ => some none
  | n + 1, i, j =>
    match h.bins[j]? with
    | none => none
    | some .free => some none
    | some .deleted => probeLoop h k nargs n (i + 1) ((j + i + 1) % h.bins.length)
    | some (.entry e) =>
      if e.klass = k ∧ e.nargs = nargs then
        (if e.nonleaves = [] then some (some e.leaves) else some none)
      else probeLoop h k nargs n (i + 1) ((j + i + 1) % h.bins.length)

/-- src/dispatch.c:160-184 `mhash_probe`; `some none` is `SCM_FALSE`. -/
def mhashProbe (hf : HashFn) (h : MHash) (k : Option Nat) (nargs : Nat) : Option (Option (List Method)) :=
  probeLoop h k nargs h.bins.length 0 (hf k nargs % h.bins.length)

/-- The loop of src/dispatch.c:186-222 `mhash_insert_1`: the slot to use and the entry found there. -/
def insertLoop (h : MHash) (k : Option Nat) (nargs : Nat) : Nat → Nat → Nat → Option Nat → Option (Option Nat × Option Entry)
  | 0, _, _, slot => some (slot, none)
  | n + 1, i, j, slot =>
    match h.bins[j]? with
    | none => none
    | some .free => some (slot.or (some j), none)
    | some .deleted => insertLoop h k nargs n (i + 1) j (slot.or (some j))
    | some (.entry e) =>
      if e.klass = k ∧ e.nargs = nargs then some (some j, some e)
      else insertLoop h k nargs n (i + 1) ((j + i + 1) % h.bins.length) slot

/-- src/dispatch.c:186-222 `mhash_insert_1` -/
def mhashInsert1 (hf : HashFn) (h : MHash) (k : Option Nat) (nargs : Nat) (m : Method) : Option MHash :=
  match insertLoop h k nargs h.bins.length 0 (hf k nargs % h.bins.length) none with
  | none => none
  | some (none, _) => none
  | some (some slot, found) =>
    let ltail := match found with | some e => e.leaves | none => []
    let ntail := match found with | some e => e.nonleaves | none => []
    let n := match found with | some _ => h.numEntries - 1 | none => h.numEntries
    let e : Entry := { klass := k
                       nargs := nargs
                       leaves := if m.leaf then m :: ltail else ltail
                       nonleaves := if m.leaf then ntail else m :: ntail }
    some { bins := h.bins.set slot (.entry e), numEntries := n + 1 }

/-- The search for a free bin when src/dispatch.c:224-248 `mhash_insert` extends the table. -/
def rehashLoop (bins : List Bin) (e : Entry) : Nat → Nat → Nat → Option (List Bin)
  | 0, _, _ => none
  | n + 1, k, j =>
    match bins[j]? with
    | none => none
    | some .free => some (bins.set j (.entry e))
    | some _ => rehashLoop bins e n (k + 1) ((j + k + 1) % bins.length)

/-- The loop that moves the entries when src/dispatch.c:224-248 `mhash_insert` extends the table. -/
def extendLoop (hf : HashFn) : List Bin → List Bin → Option (List Bin)
  | [], nb => some nb
  | .entry e :: bs, nb =>
    match rehashLoop nb e nb.length 0 (hf e.klass e.nargs % nb.length) with
    | none => none
    | some nb => extendLoop hf bs nb
  | _ :: bs, nb => extendLoop hf bs nb

/-- src/dispatch.c:224-248 `mhash_insert` -/
def mhashInsert (hf : HashFn) (h : MHash) (k : Option Nat) (nargs : Nat) (m : Method) : Option MHash :=
  if h.bins.length ≤ h.numEntries * 2 then
    match extendLoop hf h.bins (makeMHash (h.bins.length * 2)).bins with
    | none => none
    | some nb => mhashInsert1 hf { bins := nb, numEntries := h.numEntries } k nargs m
  else mhashInsert1 hf h k nargs m

/-- The loop of src/dispatch.c:250-290 `mhash_delete`: the slot and the entry found. -/
def deleteLoop (h : MHash) (k : Option Nat) (nargs : Nat) : Nat → Nat → Nat → Option (Option (Nat × Entry))
  | 0, _, _ => some none
  | n + 1, i, j =>
    match h.bins[j]? with
    | none => none
    | some .free => some none
    | some .deleted => deleteLoop h k nargs n (i + 1) j
    | some (.entry e) =>
      if e.klass = k ∧ e.nargs = nargs then some (some (j, e))
      else deleteLoop h k nargs n (i + 1) ((j + i + 1) % h.bins.length)

/-- src/dispatch.c:250-290 `mhash_delete` (a method occurs at most once in a list, so the fast path and `Scm_Delete` agree).
The test for an empty entry looks at the list of the leaf methods only. -/
def mhashDelete (hf : HashFn) (h : MHash) (k : Option Nat) (nargs : Nat) (m : Method) : Option MHash :=
  match deleteLoop h k nargs h.bins.length 0 (hf k nargs % h.bins.length) with
  | none => none
  | some none => some h
  | some (some (j, e)) =>
    let ml := e.leaves.filter fun x => decide (x ≠ m)
    let mn := e.nonleaves.filter fun x => decide (x ≠ m)
    if ml = [] ∧ ml = [] then some { bins := h.bins.set j .deleted, numEntries := h.numEntries - 1 }
    else some { bins := h.bins.set j (.entry { klass := k, nargs := nargs, leaves := ml, nonleaves := mn })
                numEntries := h.numEntries }

/-- src/gauche/priv/dispatchP.h:42 `SCM_DISPATCHER_MAX_NARGS` -/
def maxNargs : Nat := 4

/-- `m->specializers[axis]` for `axis <= req`: the array ends with a null pointer, src/class.c:226-239
`class_list_to_array`. -/
def specAt (m : Method) (axis : Nat) : Option Nat := m.specs[axis]?

/-- `for (int k = req; k < SCM_DISPATCHER_MAX_NARGS; k++)`: `n` more rounds from `k` on. -/
def forNargs (f : MHash → Nat → Option MHash) : Nat → Nat → MHash → Option MHash
  | 0, _, h => some h
  | n + 1, k, h => (f h k).bind fun h => forNargs f n (k + 1) h

/-- src/dispatch.c:312-325 `add_method_to_dispatcher` -/
def addToDispatcher (hf : HashFn) (axis : Nat) (h : MHash) (m : Method) : Option MHash :=
  if axis ≤ m.specs.length then
    (if m.opt then
      forNargs (fun h k => mhashInsert hf h (specAt m axis) k m) (maxNargs - m.specs.length) m.specs.length h
     else mhashInsert hf h (specAt m axis) m.specs.length m)
  else some h

/-- src/dispatch.c:327-340 `delete_method_from_dispatcher` -/
def deleteFromDispatcher (hf : HashFn) (axis : Nat) (h : MHash) (m : Method) : Option MHash :=
  if axis ≤ m.specs.length then
    (if m.opt then
      forNargs (fun h k => mhashDelete hf h (specAt m axis) k m) (maxNargs - m.specs.length) m.specs.length h
     else mhashDelete hf h (specAt m axis) m.specs.length m)
  else some h

/-- The loop of src/dispatch.c:347-364 `Scm__BuildMethodDispatcher` over the methods. -/
def addAll (hf : HashFn) (axis : Nat) : List Method → MHash → Option MHash
  | [], h => some h
  | m :: ms, h => (addToDispatcher hf axis h m).bind fun h => addAll hf axis ms h

/-- The dispatcher of a generic function, src/dispatch.c:115-120. -/
structure Disp where
  axis : Nat
  hash : MHash
  deriving Repr

/-- src/dispatch.c:347-364 `Scm__BuildMethodDispatcher` -/
def buildDispatcher (hf : HashFn) (methods : List Method) (axis : Nat) : Option Disp :=
  ((addAll hf axis (methods.filter fun m => m.leaf) (makeMHash 32)).bind fun h =>
    addAll hf axis (methods.filter fun m => !m.leaf) h).map fun h => { axis := axis, hash := h }

/-- src/dispatch.c:380-390 `Scm__MethodDispatcherLookup`; `typev` holds what has been written to the array. -/
def dispatcherLookup (hf : HashFn) (dis : Disp) (typev : List Nat) (argc : Nat) : Option (Option (List Method)) :=
  if dis.axis ≤ argc then
    match typev[dis.axis]? with
    | none => none
    | some selector => mhashProbe hf dis.hash (some selector) argc
  else some none

/-! ### Generic functions -/

/-- The fields `methods`, `maxReqargs` and `dispatcher` of a generic function. -/
structure GF where
  methods : List Method := []
  maxReqargs : Nat := 0
  dispatcher : Option Disp := none
  deriving Repr

/-- The loop of src/class.c:2760-2830 `Scm_AddMethod` over the methods: the first method of the same signature. -/
def findSameSig (m : Method) : List Method → Option Method
  | [] => none
  | mm :: l => if m.specs.length = mm.specs.length ∧ m.opt = mm.opt ∧ m.specs = mm.specs then some mm else findSameSig m l

/-- `Scm_SetCar(mp, method)` in src/class.c:2760-2830 `Scm_AddMethod`. -/
def replaceFirst (old new : Method) : List Method → List Method
  | [] => []
  | mm :: l => if mm = old then new :: l else mm :: replaceFirst old new l

/-- src/class.c:2760-2830 `Scm_AddMethod`; the errors leave the generic function as it is. -/
def addMethod (hf : HashFn) (gf : GF) (m : Method) : Option GF :=
  if m ∈ gf.methods then some gf
  else
    match findSameSig m gf.methods with
    | some old =>
      if old.locked then some gf
      else
        let gf' := { gf with methods := replaceFirst old m gf.methods }
        (match gf.dispatcher with
         | none => some gf'
         | some d =>
           ((deleteFromDispatcher hf d.axis d.hash old).bind fun h => addToDispatcher hf d.axis h m).map fun h =>
             { gf' with dispatcher := some { d with hash := h } })
    | none =>
      let gf' := { gf with
                     methods := m :: gf.methods
                     maxReqargs := if m.specs.length > gf.maxReqargs then m.specs.length else gf.maxReqargs }
      (match gf.dispatcher with
       | none => some gf'
       | some d => (addToDispatcher hf d.axis d.hash m).map fun h => { gf' with dispatcher := some { d with hash := h } })

/-- The loop that removes the method in src/class.c:2852-2885 `Scm_DeleteMethod`. -/
def removeFirst (m : Method) : List Method → List Method
  | [] => []
  | mm :: l => if mm = m then l else mm :: removeFirst m l

/-- The last loop of src/class.c:2852-2885 `Scm_DeleteMethod`. -/
def syncReqargs : List Method → Nat → Nat
  | [], n => n
  | m :: l, n => syncReqargs l (if m.specs.length > n then m.specs.length else n)

/-- src/class.c:2852-2885 `Scm_DeleteMethod` -/
def deleteMethod (hf : HashFn) (gf : GF) (m : Method) : Option GF :=
  if m ∈ gf.methods then
    let ms := removeFirst m gf.methods
    (match gf.dispatcher with
     | none => some none
     | some d => (deleteFromDispatcher hf d.axis d.hash m).map fun h => some { d with hash := h }).map fun d =>
      { methods := ms, maxReqargs := syncReqargs ms gf.maxReqargs, dispatcher := d }
  else some gf

/-- `Scm__GenericBuildDispatcher` (generic-build-dispatcher!), src/class.c:2435-2447. -/
def genericBuildDispatcher (hf : HashFn) (gf : GF) (axis : Nat) : Option GF :=
  if axis < maxNargs then
    (buildDispatcher hf gf.methods axis).map fun d => { gf with dispatcher := some d }
  else some gf

/-- src/class.c:54 `PREALLOC_SIZE` -/
def preallocSize : Nat := 32

/-- The number of elements of `typev` in src/class.c:2239-2295 `Scm_ComputeApplicableMethods`. -/
def typevCap (gf : GF) : Nat := if gf.maxReqargs > preallocSize then gf.maxReqargs else preallocSize

/-- The first loop that fills `typev` in src/class.c:2239-2295 `Scm_ComputeApplicableMethods`: returns what has been written
and the value of `nsel`. -/
def fillTypev (cap : Nat) : List Nat → Int → List Nat → Option (List Nat × Int)
  | [], nsel, acc => some (acc, nsel)
  | c :: args, nsel, acc =>
    if 0 ≤ nsel then (if acc.length < cap then fillTypev cap args (nsel - 1) (acc ++ [c]) else none)
    else some (acc, nsel)

/-- The loop over the list of the remaining arguments in src/class.c:2239-2295 `Scm_ComputeApplicableMethods`. -/
def fillApply (cap : Nat) : List Nat → Int → List Nat → Option (List Nat)
  | [], _, acc => some acc
  | c :: args, nsel, acc =>
    if 0 ≤ nsel - 1 then (if acc.length < cap then fillApply cap args (nsel - 1) (acc ++ [c]) else none)
    else fillApply cap args (nsel - 1) acc

/-- The part of src/class.c:2239-2295 `Scm_ComputeApplicableMethods` that computes `typev` and `argc`: the arguments `args`,
and, for `apply`, the list of the remaining ones. -/
def typevArgc (gf : GF) (args : List Nat) (rest : Option (List Nat)) : Option (List Nat × Nat) :=
  (fillTypev (typevCap gf) args gf.maxReqargs []).bind fun (typev, nsel) =>
    match rest with
    | none => some (typev, args.length)
    | some l =>
      if nsel ≠ 0 then (fillApply (typevCap gf) l nsel typev).map fun t => (t, args.length + l.length)
      else some (typev, args.length)

/-- The loop of src/class.c:2239-2295 `Scm_ComputeApplicableMethods` over the methods. -/
def selectMethods (w : World) (typev : List Nat) (argc : Nat) : List Method → Option (List Method)
  | [] => some []
  | m :: ms =>
    if m.placeholder then selectMethods w typev argc ms
    else match applicableForClasses w m typev argc with
      | none => none
      | some b => (selectMethods w typev argc ms).map fun l => if b then m :: l else l

/-- src/class.c:2239-2295 `Scm_ComputeApplicableMethods`; the case of a single method differs from the loop in allocation only. -/
def computeApplicable (hf : HashFn) (w : World) (gf : GF) (args : List Nat) (rest : Option (List Nat)) :
    Option (List Method) :=
  if gf.methods = [] then some []
  else
    (typevArgc gf args rest).bind fun (typev, argc) =>
      (match gf.dispatcher with
       | none => some gf.methods
       | some dis =>
         if argc ≤ maxNargs ∧ 1 ≤ argc then
           (dispatcherLookup hf dis typev argc).map fun p =>
             match p with
             | some (m :: ms) => m :: ms
             | _ => gf.methods
         else some gf.methods).bind fun methods =>
      selectMethods w typev argc methods

/-- What a call does: it runs a method, giving it a `next-method` object (`none`: the dummy for a leaf method) or it
calls the fallback (which signals "no applicable method"), or it signals a wrong number of arguments. -/
inductive Outcome where
  | invoke (m : Method) (nm : Option (List Method))
  | fallback
  | wrongArgs
  deriving DecidableEq, Repr

/-- The check of `ADJUST_ARGUMENT_FRAME`, src/vmcall.c:48-127: `n` is the number of actual arguments. -/
def adjustArgs (m : Method) (n : Nat) (nm : Option (List Method)) : Outcome :=
  if m.opt then (if n < m.specs.length then .wrongArgs else .invoke m nm)
  else (if n ≠ m.specs.length then .wrongArgs else .invoke m nm)

/-- `nm` of a method with `rest` after it in the order, src/vmcall.c:291-297 and 322-327. -/
def makeNext (m : Method) (rest : List Method) : Option (List Method) := if m.leaf then none else some rest

/-- The call of a generic function, src/vmcall.c:218-402, from `GENERIC_ENTRY` on.  The arguments are all given (`rest` is
`none`), or some of them are in a list (`apply`); as many of these as `maxReqargs` are unfolded before the methods
are sorted, which needs no more. -/
def callGeneric (hf : HashFn) (w : World) (gf : GF) (args : List Nat) (rest : Option (List Nat)) : Option Outcome :=
  (computeApplicable hf w gf args rest).bind fun mm =>
    match mm with
    | [] => some .fallback
    | [m] => some (adjustArgs m (args ++ rest.getD []).length (makeNext m []))
    | mm =>
      (sortMethods w mm (args ++ rest.getD [])).bind fun l =>
        match l with
        | [] => none
        | m :: l => some (adjustArgs m (args ++ rest.getD []).length (makeNext m l))

/-- The call `(next-method)` without arguments, src/vmcall.c:303-336 and `DO_METHOD_CALL`: the arguments (`n` of them) are
those of the present call. -/
def callNext (n : Nat) : Option (List Method) → Option Outcome
  | none => none
  | some [] => some .fallback
  | some (m :: l) => some (adjustArgs m n (makeNext m l))

/-- What happens when the methods called so far have called `(next-method)` `i` times. -/
def callChain (hf : HashFn) (w : World) (gf : GF) (args : List Nat) : Nat → Option Outcome
  | 0 => callGeneric hf w gf args none
  | i + 1 =>
    match callChain hf w gf args i with
    | some (.invoke _ nm) => callNext args.length nm
    | _ => none

/-- A history of `add-method!` and `delete-method!`. -/
def runOps (hf : HashFn) : List Spec.Op → GF → Option GF
  | [], gf => some gf
  | .add m :: ops, gf => (addMethod hf gf m).bind fun gf => runOps hf ops gf
  | .del m :: ops, gf => (deleteMethod hf gf m).bind fun gf => runOps hf ops gf

end Gauche.Dispatch

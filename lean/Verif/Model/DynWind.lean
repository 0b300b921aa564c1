/-!
# dynamic-wind, full continuations and prompts (`src/vm.c`)

A program is a term of a small call-by-value language with closures,
multiple values, boxes, `dynamic-wind`, `call/cc`,
`call-with-continuation-prompt`, `abort-current-continuation` and
continuation marks.  The VM registers that matter for control are modelled
one by one: `vm->cont` (a list of frames, each with the `denv` it restores),
`vm->denv`, `vm->dynamicHandlers`, the values registers, and the heap of
escape points.

Simplifications, for the whole file:
* compiled code is replaced by terms and an `eval` mode of the machine; the
  inlined expansion of dynamic-wind (src/compile-i.scm:304-333) performs the
  same pushes, pops and calls as the C function `Scm_VMDynamicWind` and is
  modelled by it (except that a constant `after` is not called there);
* one C stack: continuations never cross `user_eval_inner`, so the rewinding
  of the C stack in `throw_continuation` and ghost continuations do not
  occur; reset/shift and the C-level error handlers are not in this machine;
* raising an error (unbound index, wrong argument) stops the machine;
* `push_dynamic_env` does not drop duplicate marks of the same frame.

`vm.trace` and `Entry.id` are history: the trace records every change of the
handler chain, and `id` stands for the address of the entry object.
-/

namespace Gauche.DynWind

/-- The primitive procedures of the modelled language. -/
inductive Prim where
  | values | dynamicWind | callcc
  | callPrompt | abort
  | withMark | markRef
  | newBox | boxRef | boxSet
  | emit | numEq
  deriving DecidableEq, Repr

/-- Source terms (de Bruijn indices into the local environment). -/
inductive Term where
  | var (n : Nat)
  | num (n : Nat)
  | fls
  | prim (p : Prim)
  | lam (body : Term)
  | ite (c t e : Term)
  | app (f : Term) (args : List Term)

/-- Run-time values.  `kont i` is the procedure made by `Scm_VMCallCC`: its
    `data` pointer is the escape point at heap address `i`. -/
inductive Val where
  | undef
  | fls
  | num (n : Nat)
  | prim (p : Prim)
  | clo (body : Term) (env : List Val)
  | kont (ep : Nat)
  | box (addr : Nat)

/-- `ScmDynamicHandler` (src/vm.c:2518-2527 `make_dynamic_handler`).  `id` is the
    address of the object.  `args` is always `()` for dynamic-wind. -/
structure Entry where
  id : Nat
  before : Val
  after : Val
  denv : List (Val × Val)

/-- `<handler-chain>`. The cell of an entry is allocated together with the
    entry by `push_dynamic_handlers`, and the cells are never copied here. -/
abbrev Chain := List Entry

/-- One `(flag . <handler-chain>)` of an `<hdlist>`. -/
abbrev Act := Bool × Chain

/-- Continuation frames (src/vm.c:741-755 `PUSH_CONT` and src/vm.c:1896-1913 `new_ccont`).
    The first argument is `cont->denv`.
    `arg`, `br`: frames of ordinary evaluation.  `dwBefore`, `dwBody`,
    `dwAfter`: `dynwind_before_cc`, `dynwind_body_cc` (with the entry in
    `cpc`), `dynwind_after_cc`.  `prompt`: src/vm.c:2162-2188 `push_prompt_cont`.
    `throwCC`: `throw_cont_cc`.  `abortCC`: `vm_abort_cc`, whose `data[0]`
    is the pointer to the prompt frame, i.e. the continuation starting
    there. -/
inductive Frame where
  | arg (denv : List (Val × Val)) (done : List Val) (rest : List Term)
        (env : List Val)
  | br (denv : List (Val × Val)) (t e : Term) (env : List Val)
  | dwBefore (denv : List (Val × Val)) (before body after : Val)
  | dwBody (denv : List (Val × Val)) (entry : Entry) (after : Val)
  | dwAfter (denv : List (Val × Val)) (vals : List Val)
  | prompt (denv : List (Val × Val)) (tag : Nat) (handler : Val)
        (handlers : Chain)
  | throwCC (denv : List (Val × Val)) (rest : List Act) (ep : Nat)
        (args : List Val) (chain : Option Chain)
  | abortCC (denv : List (Val × Val)) (abortTo : List Frame)
        (args : List Val)

/-- `ScmEscapePoint`, the fields set by src/vm.c:1984-2007 `new_ep` that a full
    continuation uses. -/
structure EP where
  cont : List Frame
  denv : List (Val × Val)
  handlers : Chain

/-- What the VM does next: evaluate a term, apply a procedure, or return
    the values in `val0`/`vals` to the topmost frame. -/
inductive Ctl where
  | eval (t : Term) (env : List Val)
  | apply (f : Val) (args : List Val)
  | ret (vals : List Val)

/-- A change of the handler chain.  `enter`: the extent of a dynamic-wind
    body is entered (its before thunk has just returned); `leave`: it is left
    (its after thunk is about to be called). -/
inductive Ev where
  | enter (e : Entry)
  | leave (e : Entry)

/-- The VM. -/
structure Vm where
  ctl : Ctl
  cont : List Frame
  denv : List (Val × Val)
  handlers : Chain
  eps : List EP
  store : List Val
  next : Nat
  out : List Val
  trace : List Ev

/-- The machine at the start of a program. -/
def Vm.init (t : Term) : Vm :=
  ⟨.eval t [], [], [], [], [], [], 0, [], []⟩

/-! ## The handler chain -/

/-- src/vm.c:2540-2546 `push_dynamic_handlers` (and `make_dynamic_handler`); used by
    `dynwind_before_cc` and the PUSH-HANDLERS instruction. -/
def pushDynamicHandlers (vm : Vm) (before after : Val) : Vm × Entry :=
  let e : Entry := ⟨vm.next, before, after, vm.denv⟩
  ({ vm with handlers := e :: vm.handlers, next := vm.next + 1,
             trace := vm.trace ++ [.enter e] }, e)

/-- src/vm.c:2548-2554 `pop_dynamic_handlers`; `none` is the failed assertion on an
    empty chain. -/
def popDynamicHandlers (vm : Vm) : Option (Vm × Entry) :=
  match vm.handlers with
  | [] => none
  | e :: tl =>
    some ({ vm with handlers := tl, trace := vm.trace ++ [.leave e] }, e)

/-- src/vm.c:2574-2584 `vm_call_before_thunk`. -/
def vmCallBefore (vm : Vm) (e : Entry) : Vm :=
  match e.before with
  | .fls => { vm with denv := e.denv, ctl := .ret [.undef] }
  | b => { vm with denv := e.denv, ctl := .apply b [] }

/-- src/vm.c:2586-2592 `vm_call_after_thunk`. -/
def vmCallAfter (vm : Vm) (e : Entry) : Vm :=
  { vm with denv := e.denv, ctl := .apply e.after [] }

/-- src/list.c:560-564 `Scm_Memq` on handler entries. -/
def memq (e : Entry) : Chain → Bool
  | [] => false
  | x :: xs => if x.id = e.id then true else memq e xs

/-- First loop of src/vm.c:3411-3433 `throw_cont_calculate_handlers`: the entries of
    the current chain up to the first one that is also in the target. -/
def calcAfters (target : Chain) : Chain → List Act
  | [] => []
  | e :: tl =>
    if memq e target then [] else (false, e :: tl) :: calcAfters target tl

/-- Second loop of src/vm.c:3411-3433 `throw_cont_calculate_handlers`; `h2` is the
    accumulated list. -/
def calcBefores (current : Chain) (h2 : List Act) : Chain → List Act
  | [] => h2
  | e :: tl =>
    if memq e current then h2 else calcBefores current ((true, e :: tl) :: h2) tl

/-- `target == current`: the same cell, i.e. both empty or with the same
    first entry. -/
def sameCell : Chain → Chain → Bool
  | [], [] => true
  | a :: _, b :: _ => a.id = b.id
  | _, _ => false

/-- src/vm.c:3411-3433 `throw_cont_calculate_handlers`. -/
def calculateHandlers (target current : Chain) : List Act :=
  if sameCell target current then []
  else calcAfters target current ++ calcBefores current [] target

/-! ## dynamic-wind -/

/-- src/vm.c:2648-2660 `dynwind_before_cc`. -/
def dynwindBeforeCC (vm : Vm) (before body after : Val) : Vm :=
  let (vm, e) := pushDynamicHandlers vm before after
  { vm with cont := .dwBody vm.denv e after :: vm.cont,
            ctl := .apply body [] }

/-- src/vm.c:2626-2646 `Scm_VMDynamicWind`. -/
def dynamicWind (vm : Vm) (before body after : Val) : Vm :=
  match before with
  | .fls => dynwindBeforeCC vm before body after
  | b => { vm with cont := .dwBefore vm.denv before body after :: vm.cont,
                   ctl := .apply b [] }

/-- src/vm.c:2662-2688 `dynwind_body_cc`. -/
def dynwindBodyCC (vm : Vm) (vals : List Val) (after : Val) : Option Vm :=
  match popDynamicHandlers vm with
  | none => none
  | some (vm, _) =>
    some { vm with cont := .dwAfter vm.denv vals :: vm.cont,
                   ctl := .apply after [] }

/-! ## full continuations -/

/-- src/vm.c:3475-3550 `throw_cont_body`.  `none`: the escape point does not exist
    (never happens) or an `<hdlist>` item without entry. -/
def throwContBody (vm : Vm) (hdlist : List Act) (ep : Nat)
    (args : List Val) : Option Vm :=
  match hdlist with
  | (_, []) :: _ => none
  | (false, e :: tl) :: rest =>
    let vm := { vm with cont := .throwCC vm.denv rest ep args none :: vm.cont }
    let vm := { vm with handlers := tl, trace := vm.trace ++ [.leave e] }
    some (vmCallAfter vm e)
  | (true, e :: tl) :: rest =>
    let vm := { vm with
      cont := .throwCC vm.denv rest ep args (some (e :: tl)) :: vm.cont }
    some (vmCallBefore vm e)
  | [] =>
    match vm.eps[ep]? with
    | none => none
    | some p => some { vm with cont := p.cont, denv := p.denv, ctl := .ret args }

/-- src/vm.c:3552-3565 `throw_cont_cc`. -/
def throwContCC (vm : Vm) (rest : List Act) (ep : Nat) (args : List Val)
    (chain : Option Chain) : Option Vm :=
  match chain with
  | none => throwContBody vm rest ep args
  | some [] => none
  | some (e :: tl) =>
    throwContBody { vm with handlers := e :: tl,
                            trace := vm.trace ++ [.enter e] } rest ep args

/-- src/vm.c:3568-3629 `throw_continuation` for a full continuation captured on the
    current C stack. -/
def throwContinuation (vm : Vm) (ep : Nat) (args : List Val) : Option Vm :=
  match vm.eps[ep]? with
  | none => none
  | some p =>
    throwContBody vm (calculateHandlers p.handlers vm.handlers) ep args

/-- src/vm.c:3631-3641 `Scm_VMCallCC` with src/vm.c:1984-2007 `new_ep`. -/
def callCC (vm : Vm) (proc : Val) : Vm :=
  { vm with eps := vm.eps ++ [⟨vm.cont, vm.denv, vm.handlers⟩],
            ctl := .apply proc [.kont vm.eps.length] }

/-! ## prompts -/

/-- src/vm.c:3173-3184 `Scm_VMCallWithContinuationPrompt`. -/
def callWithPrompt (vm : Vm) (thunk : Val) (tag : Nat) (handler : Val) : Vm :=
  { vm with cont := .prompt vm.denv tag handler vm.handlers :: vm.cont,
            ctl := .apply thunk [] }

/-- src/vm.c:3186-3196 `find_prompt_frame`: the rest of the continuation from the
    prompt frame on. -/
def findPrompt (tag : Nat) : List Frame → Option (List Frame)
  | [] => none
  | .prompt d t h hs :: k =>
    if t = tag then some (.prompt d t h hs :: k) else findPrompt tag k
  | _ :: k => findPrompt tag k

/-- src/vm.c:3201-3220 `vm_abort_body`.  (The check that the argument of the default
    handler is a thunk is left to the application.) -/
def vmAbortBody (vm : Vm) (handler : Val) (args : List Val) : Option Vm :=
  match handler, args with
  | .fls, [t] => some { vm with ctl := .apply t [] }
  | .fls, _ => none
  | h, _ => some { vm with ctl := .apply h args }

/-- src/vm.c:3222-3237 `vm_abort_cc`; also the second half of
    src/vm.c:3240-3277 `Scm_VMAbortCurrentContinuation`, which is the same code. -/
def vmAbortCC (vm : Vm) (abortTo : List Frame) (args : List Val) : Option Vm :=
  match abortTo with
  | .prompt _ _ handler target :: _ =>
    match vm.handlers with
    | [] => vmAbortBody vm handler args
    | c :: tl =>
      if sameCell target (c :: tl) then vmAbortBody vm handler args
      else
        let vm := { vm with cont := .abortCC vm.denv abortTo args :: vm.cont }
        match popDynamicHandlers vm with
        | none => none
        | some (vm, e) => some (vmCallAfter vm e)
  | _ => none

/-- The `denv` a frame restores when it is popped. -/
def Frame.denv : Frame → List (Val × Val)
  | .arg d _ _ _ => d | .br d _ _ _ => d | .dwBefore d _ _ _ => d
  | .dwBody d _ _ => d | .dwAfter d _ => d | .prompt d _ _ _ => d
  | .throwCC d _ _ _ _ => d | .abortCC d _ _ => d

/-- src/vm.c:3240-3277 `Scm_VMAbortCurrentContinuation`. -/
def abortCurrent (vm : Vm) (tag : Nat) (args : List Val) : Option Vm :=
  match findPrompt tag vm.cont with
  | none => none
  | some [] => none
  | some (f :: k) =>
    vmAbortCC { vm with cont := f :: k, denv := f.denv } (f :: k) args

/-! ## the machine -/

/-- src/vm.c:1612-1617 `find_dynamic_env`, on number keys. -/
def findMark (k : Nat) : List (Val × Val) → Val
  | [] => .undef
  | (.num i, v) :: tl => if i = k then v else findMark k tl
  | _ :: tl => findMark k tl

/-- `(if c ...)`: only `#f` is false. -/
def truthy : Val → Bool
  | .fls => false
  | _ => true

/-- Application of a primitive. -/
def applyPrim (vm : Vm) (p : Prim) (args : List Val) : Option Vm :=
  match p, args with
  | .values, vs => some { vm with ctl := .ret vs }
  | .dynamicWind, [b, t, a] => some (dynamicWind vm b t a)
  | .callcc, [f] => some (callCC vm f)
  | .callPrompt, [t, .num tag, h] => some (callWithPrompt vm t tag h)
  | .abort, .num tag :: vs => abortCurrent vm tag vs
  | .withMark, [k, v, t] =>
    some { vm with denv := (k, v) :: vm.denv, ctl := .apply t [] }
  | .markRef, [.num k] => some { vm with ctl := .ret [findMark k vm.denv] }
  | .newBox, [v] =>
    some { vm with store := vm.store ++ [v], ctl := .ret [.box vm.store.length] }
  | .boxRef, [.box i] => some { vm with ctl := .ret [vm.store.getD i .undef] }
  | .boxSet, [.box i, v] =>
    some { vm with store := vm.store.set i v, ctl := .ret [.undef] }
  | .emit, [v] => some { vm with out := vm.out ++ [v], ctl := .ret [.undef] }
  | .numEq, [.num a, .num b] =>
    some { vm with ctl := .ret [if a = b then .num 1 else .fls] }
  | _, _ => none

/-- Application of a procedure (closures take any number of arguments, put in
    front of their environment). -/
def applyProc (vm : Vm) (f : Val) (args : List Val) : Option Vm :=
  match f with
  | .clo b env => some { vm with ctl := .eval b (args ++ env) }
  | .prim p => applyPrim vm p args
  | .kont i => throwContinuation vm i args
  | _ => none

/-- Evaluation of a term: the operator and the operands are evaluated from
    left to right, and the last application is a tail call. -/
def evalTerm (vm : Vm) (t : Term) (env : List Val) : Option Vm :=
  match t with
  | .var n => some { vm with ctl := .ret [env.getD n .undef] }
  | .num n => some { vm with ctl := .ret [.num n] }
  | .fls => some { vm with ctl := .ret [.fls] }
  | .prim p => some { vm with ctl := .ret [.prim p] }
  | .lam b => some { vm with ctl := .ret [.clo b env] }
  | .ite c t e =>
    some { vm with cont := .br vm.denv t e env :: vm.cont, ctl := .eval c env }
  | .app f args =>
    some { vm with cont := .arg vm.denv [] args env :: vm.cont,
                   ctl := .eval f env }

/-- Delivering values to the frame just popped (src/vm.c:758-807 `POP_CONT`); `vm`
    has `cont` and `denv` already restored. -/
def returnTo (vm : Vm) (f : Frame) (vals : List Val) : Option Vm :=
  match f with
  | .arg _ done rest env =>
    let done := done ++ [vals.headD .undef]
    match rest, done with
    | t :: ts, _ =>
      some { vm with cont := .arg vm.denv done ts env :: vm.cont,
                     ctl := .eval t env }
    | [], g :: args => some { vm with ctl := .apply g args }
    | [], [] => none
  | .br _ t e env =>
    some { vm with ctl := .eval (if truthy (vals.headD .undef) then t else e) env }
  | .dwBefore _ b t a => some (dynwindBeforeCC vm b t a)
  | .dwBody _ _ a => dynwindBodyCC vm vals a
  | .dwAfter _ vs => some { vm with ctl := .ret vs }
  | .prompt _ _ _ _ => some { vm with ctl := .ret vals }
  | .throwCC _ rest ep args chain => throwContCC vm rest ep args chain
  | .abortCC _ k args => vmAbortCC vm k args

/-- One step of the VM; `none` when the program has returned or an error is
    raised. -/
def step (vm : Vm) : Option Vm :=
  match vm.ctl with
  | .eval t env => evalTerm vm t env
  | .apply f args => applyProc vm f args
  | .ret vals =>
    match vm.cont with
    | [] => none
    | f :: k => returnTo { vm with cont := k, denv := f.denv } f vals

/-! ## C-level chain walks -/

/-- One call made by a chain walk: the thunk, and the registers `denv` and
    `dynamicHandlers` while it runs. -/
structure Call where
  thunk : Val
  denv : List (Val × Val)
  chain : Chain

/-- src/vm.c:3435-3451 `call_dynamic_handlers` when every thunk returns: the calls it
    makes and the final handler chain (used by the error escape, by
    reset/shift and by `user_eval_inner`).  The thunks run by `Scm_ApplyRec`
    and leave `vm->dynamicHandlers` as they found it. -/
def callHandlers : List Act → Chain → List Call × Chain
  | [], cur => ([], cur)
  | (_, []) :: rest, cur => callHandlers rest cur
  | (false, e :: tl) :: rest, _ =>
    let r := callHandlers rest tl
    (⟨e.after, e.denv, tl⟩ :: r.1, r.2)
  | (true, e :: tl) :: rest, cur =>
    let r := callHandlers rest (e :: tl)
    match e.before with
    | .fls => r
    | b => (⟨b, e.denv, cur⟩ :: r.1, r.2)

/-- src/vm.c:3435-3451 `call_dynamic_handlers`. -/
def callDynamicHandlers (target current : Chain) : List Call × Chain :=
  callHandlers (calculateHandlers target current) current

/-- src/vm.c:3458-3470 `Scm_VMFlushDynamicHandlers` (and the unwinding loop of
    src/vm.c:2904-2924 `Scm_VMDefaultExceptionHandler`): the calls made. -/
def flushHandlers : Chain → List Call × Chain
  | [] => ([], [])
  | e :: tl =>
    let r := flushHandlers tl
    (⟨e.after, e.denv, tl⟩ :: r.1, r.2)

end Gauche.DynWind

import Verif.Spec.Prog

/-!
# The back end of the compiler (pass 5) and the VM

Modelled: `$CONST $LREF $LSET $GREF $GSET $IF $IT $LET (let, rec) $LAMBDA $SEQ
$CALL (normal and head-heavy) $ASM/$EQ? ...` and the instructions they are
compiled to.

Simplifications.
* An instruction has one address, whatever its operands; labels are given as
  absolute addresses (code.c resolves them when the code is complete).
* `LREF`/`LSET` also stand for `XLREF`/`XLSET`.  Of the combined instructions only
  `CONST-PUSH` and `LREF-PUSH` are used, and only where it matters (head-heavy
  calls): everywhere else the value register is dead after the `PUSH`.
* An environment frame has an address in `frames`, whether it is on the stack or
  was moved to the heap; `get_env` is the identity then.
* Continuation frames are a list; each one has the argument frame that was
  below it.
* `sp` is the stack pointer as a number of words, when frames are never moved to
  the heap; `lim` is how far the stack was checked when the running procedure was
  entered.
* The `NOT` of a test, the numerical branch instructions, `pass5/flatten-let*!`,
  `$LABEL`, `$RECEIVE`, `$CLAMBDA`, `$DYNENV`, and local, embedded and jump calls
  are not modelled.  Neither are generic functions, `apply`, and multiple values.
-/
namespace Gauche.Prog

/-- An object in a register or in the stack: boxes are not visible to programs.
src/gauche/box.h:41-46 -/
inductive Slot where
  | val (v : Val)
  | box (b : Nat)
deriving DecidableEq, Repr, Inhabited

/-- VM instructions.  src/vminsn.scm:394-398 `CONST` and following. -/
inductive Instr where
  | const (k : Nat)
  | lref (depth off : Nat)
  | unbox
  | lset (depth off : Nat)
  | gref (g : Nat)
  | gset (g : Nat)
  | push
  | constPush (k : Nat)
  | lrefPush (depth off : Nat)
  | bf (pc : Nat)
  | bnnull (pc : Nat)
  | bneq (pc : Nat)
  | bneqc (k : Nat) (pc : Nat)
  | jump (pc : Nat)
  | ret
  | rf
  | rt
  | localEnv (n : Nat)
  | popLocalEnv
  | box (k : Nat)
  | closure (req : Nat) (opt : Bool) (maxstack : Nat) (code : List Instr)
  | localEnvClosures (n : Nat) (codes : List Instr)
  | envSet (off : Nat)
  | preCall (pc : Nat)
  | call (n : Nat)
  | tailCall (n : Nat)
  | asm (op : Op) (n : Nat)
deriving Repr

/-- src/compile-5.scm:65-66 `normal-context?` and the comment above. -/
inductive Ctx where
  | normalBottom | normalTop | stmtBottom | stmtTop | tail
deriving DecidableEq, Repr

namespace Ctx
/-- src/compile-5.scm:71-72 `bottom-context?` -/
def bottom : Ctx → Bool
  | normalBottom | stmtBottom | tail => true
  | _ => false
/-- src/compile-5.scm:67-68 `stmt-context?` -/
def isStmt : Ctx → Bool
  | stmtBottom | stmtTop => true
  | _ => false
/-- src/compile-5.scm:77-78 `normal-context` -/
def normal (c : Ctx) : Ctx := if c.bottom then normalBottom else normalTop
/-- src/compile-5.scm:79-80 `stmt-context` -/
def stmt (c : Ctx) : Ctx := if c.bottom then stmtBottom else stmtTop
end Ctx

abbrev Renv := List (List Nat)

/-- Position of a variable in a frame, from 0. -/
def posIn (x : Nat) : List Nat → Option Nat
  | [] => none
  | y :: ys => if x = y then some 0 else (posIn x ys).map (· + 1)

/-- src/compile-5.scm:1204-1215 `renv-lookup` `(0, 0)` stands for the internal error. -/
def renvLookup (x : Nat) : Renv → Nat × Nat
  | [] => (0, 0)
  | f :: r =>
    match posIn x f with
    | some j => (0, f.length - (j + 1))
    | none => let q := renvLookup x r; (q.1 + 1, q.2)

/-- The words of a continuation frame (64 bit). src/gauche/vm.h:216 `CONT_FRAME_SIZE` -/
def contSize : Nat := 7
/-- src/gauche/vm.h:104 `ENV_HDR_SIZE` -/
def envHdr : Nat := 3

/-- src/compile-5.scm:1244-1251 `pass5/box-mutable-lvars`, src/compile-5.scm:551-556 `emit-letrec-boxers`
and the loop in src/compile-5.scm:608-638 `pass5/lambda` -/
def boxers (M : Nat → Bool) : List Nat → List Instr
  | [] => []
  | x :: xs => (if M x then [.box (xs.length + 1)] else []) ++ boxers M xs

/-- src/compile-5.scm:900-904 `all-args-simple?` -/
def allSimple : List Term → Bool
  | [] => true
  | .lref _ :: es => allSimple es
  | .const _ :: es => allSimple es
  | _ => false

/-- The arguments of a head-heavy call, `pass5/prepare-args` with combined
instructions.  src/compile-5.scm:861-879 `pass5/head-heavy-call`,
src/compile-5.scm:123-132 `pass5/$LREF`: a mutable variable needs `LREF-UNBOX` and
`PUSH`, which are not combined. -/
def simpleArgs (M : Nat → Bool) (renv : Renv) : List Term → List Instr
  | .lref x :: es =>
    let q := renvLookup x renv
    (if M x then [.lref q.1 q.2, .unbox, .push] else [.lrefPush q.1 q.2]) ++ simpleArgs M renv es
  | .const k :: es => .constPush k :: simpleArgs M renv es
  | _ => []

def isIt : Term → Bool
  | .it => true
  | _ => false

def constOf : Term → Option Nat
  | .const k => some k
  | _ => none

def isLet : Term → Bool
  | .letv _ _ _ => true
  | .letrec _ _ _ => true
  | _ => false

def isLam : Term → Bool
  | .lam _ _ _ => true
  | _ => false

/-- Is this call compiled as a head-heavy one?  src/compile-5.scm:751-762 `pass5/$CALL` -/
def headHeavy (ctx : Ctx) (f : Term) (args : List Term) : Bool :=
  ctx.bottom && isLet f && allSimple args

/-- `pass5/if-final` after the test, given the code of the branches as functions of
their address; `br` is the branch instruction.  src/compile-5.scm:369-414 `pass5/if-final` -/
def ifFinal (ctx : Ctx) (plain : Bool) (b c : Term) (br : Nat → Instr)
    (cb cc : Nat → List Instr) (pc : Nat) : List Instr :=
  if ctx = .tail then
    if plain && isIt b then .rt :: cc (pc + 1)
    else if plain && isIt c then .rf :: cb (pc + 1)
    else
      let tb := cb (pc + 1)
      let l := pc + 1 + tb.length + 1
      br l :: tb ++ .ret :: cc l
  else
    let tb := cb (pc + 1)
    if isIt c then
      br (pc + 1 + tb.length) :: tb
    else
      let l := pc + 1 + tb.length + 1
      let tc := cc l
      br l :: tb ++ .jump (l + tc.length) :: tc

/-- The stack that is announced for the arguments.
src/compile-5.scm:1222-1241 `pass5/prepare-args`, given the depths of the arguments. -/
def argsDepthLoop : Nat → Nat → List Nat → Nat
  | depth, _, [] => depth
  | depth, _, [d] => max depth d
  | depth, cnt, d :: ds => argsDepthLoop (max depth (d + cnt + 1)) (cnt + 1) ds

def argsDepth : List Nat → Nat
  | [] => 0
  | [d] => d
  | d :: ds => argsDepthLoop (d + 1) 1 ds

/-- src/compile-5.scm:991-1013 `pass5/asm-generic`, src/compile-5.scm:1023-1032 `pass5/builtin-twoargs` -/
def primDepthLoop : Nat → Nat → List Nat → Nat
  | depth, _, [] => depth
  | depth, cnt, d :: ds => primDepthLoop (max depth (cnt + d)) (cnt + 1) ds

mutual
/-- The maximum stack depth that the handlers return, `pass5/$CONST` etc. in
src/compile-5.scm (the same functions that emit the code: `comp`). -/
def depth (ctx : Ctx) : Term → Nat
  | .const _ => 0
  | .lref _ => 0
  | .lset _ e => depth ctx.normal e
  | .gref _ => 0
  | .gset _ e => depth ctx.normal e
  | .it => 0
  | .lam _ _ _ => 0
  | .seq es => depthSeq ctx es
  | .prim op es => primDepthLoop 0 0 (depths (if op = .eq then ctx.normal else .normalTop) es)
  | .call f es =>
    let ds := depths (if headHeavy ctx f es then .normalTop else ctx.normal) es
    let df := depth (if headHeavy ctx f es then ctx.normal else .normalTop) f
    (if ctx = .tail then 0 else contSize) + max (argsDepth ds) (es.length + df + envHdr)
  | .letv xs es b =>
    if ctx.bottom then max (argsDepth (depths ctx.normal es)) (depth ctx b + envHdr + xs.length)
    else max (argsDepth (depths ctx.normal es)) (depth .tail b + contSize + envHdr + xs.length)
  | .letrec xs es b =>
    if ctx.bottom then envHdr + xs.length + max (depthInits es) (depth ctx b)
    else contSize + envHdr + xs.length + max (depthInits es) (depth .tail b)
  | .ite (.const k) b c =>
    if k = 0 then (if isIt c then 0 else depth ctx c) else (if isIt b then 0 else depth ctx b)
  | .ite (.prim .nullp [x]) b c => max (depth ctx b) (max (depth ctx c) (depth ctx.normal x))
  | .ite (.prim .eq [x, y]) b c =>
    let d :=
      match constOf x, constOf y with
      | some _, _ => depth ctx.normal y
      | none, some _ => depth ctx.normal x
      | none, none => max (depth .normalTop y) (max (depth ctx.normal x) 1)
    max (depth ctx b) (max (depth ctx c) d)
  | .ite a b c => max (depth ctx b) (max (depth ctx c) (depth ctx.normal a))

def depths (ctx : Ctx) : List Term → List Nat
  | [] => []
  | e :: es => depth ctx e :: depths .normalTop es

/-- src/compile-5.scm:686-697 `pass5/$SEQ` -/
def depthSeq (ctx : Ctx) : List Term → Nat
  | [] => 0
  | [e] => depth ctx e
  | e :: es => max (depth ctx.stmt e) (depthSeq ctx es)

/-- src/compile-5.scm:561-572 `emit-letrec-inits` -/
def depthInits : List Term → Nat
  | [] => 0
  | e :: es => if known e then depthInits es else max (depth .normalBottom e) (depthInits es)
end

/-- src/compile-5.scm:608-638 `pass5/lambda`, given the code of the body. -/
def lamInstr (M : Nat → Bool) (xs : List Nat) (opt : Bool) (maxstack : Nat)
    (body : List Instr) : Instr :=
  .closure (if opt then xs.length - 1 else xs.length) opt maxstack (boxers M xs ++ body ++ [.ret])

/-- A frame without variables is not made. -/
def extRenv (xs : List Nat) (renv : Renv) : Renv := if xs.isEmpty then renv else xs :: renv

mutual
/-- The code generator, `pass5/rec`: the code of a form at address `pc`.
src/compile-5.scm:123-132 `pass5/$LREF` -/
def comp (M : Nat → Bool) (renv : Renv) (ctx : Ctx) (pc : Nat) : Term → List Instr
  -- src/compile-5.scm:153-157 `pass5/$CONST`
  | .const k => if ctx.isStmt then [] else [.const k]
  | .lref x =>
    let q := renvLookup x renv
    .lref q.1 q.2 :: (if M x then [.unbox] else [])
  -- src/compile-5.scm:134-141 `pass5/$LSET`
  | .lset x e =>
    let q := renvLookup x renv
    comp M renv ctx.normal pc e ++ [.lset q.1 q.2]
  -- src/compile-5.scm:143-146 `pass5/$GREF`
  | .gref g => [.gref g]
  -- src/compile-5.scm:148-151 `pass5/$GSET`
  | .gset g e => comp M renv ctx.normal pc e ++ [.gset g]
  -- src/compile-5.scm:416 `pass5/$IT`
  | .it => []
  -- src/compile-5.scm:602-606 `pass5/$LAMBDA`
  | .lam xs opt b => [lamInstr M xs opt (depth .tail b)
      (comp M (extRenv xs renv) .tail (boxers M xs).length b)]
  -- src/compile-5.scm:686-697 `pass5/$SEQ`
  | .seq es => compSeq M renv ctx pc es
  -- src/compile-5.scm:946-989 `pass5/$ASM`
  | .prim op es =>
    compPrim M renv (if op = .eq then ctx.normal else .normalTop) pc es ++ [.asm op es.length]
  -- src/compile-5.scm:751-762 `pass5/$CALL`
  | .call f es =>
    let n := es.length
    if headHeavy ctx f es then
      -- src/compile-5.scm:861-879 `pass5/head-heavy-call`
      if ctx = .tail then comp M renv ctx.normal pc f ++ simpleArgs M renv es ++ [.tailCall n]
      else
        let c := comp M renv ctx.normal (pc + 1) f ++ simpleArgs M renv es ++ [.call n]
        .preCall (pc + 1 + c.length) :: c
    else
      -- src/compile-5.scm:882-898 `pass5/normal-call`
      if ctx = .tail then
        let ca := compArgs M renv ctx.normal pc es
        ca ++ comp M renv .normalTop (pc + ca.length) f ++ [.tailCall n]
      else
        let ca := compArgs M renv ctx.normal (pc + 1) es
        let c := ca ++ comp M renv .normalTop (pc + 1 + ca.length) f ++ [.call n]
        .preCall (pc + 1 + c.length) :: c
  -- src/compile-5.scm:429-495 `pass5/$LET`
  | .letv xs es b =>
    if ctx.bottom then
      let ca := compArgs M renv ctx.normal pc es
      let hd := ca ++ .localEnv xs.length :: boxers M xs
      hd ++ comp M (xs :: renv) ctx (pc + hd.length) b ++
        (if ctx = .tail then [] else [.popLocalEnv])
    else
      let ca := compArgs M renv ctx.normal (pc + 1) es
      let hd := ca ++ .localEnv xs.length :: boxers M xs
      let c := hd ++ comp M (xs :: renv) .tail (pc + 1 + hd.length) b ++ [.ret]
      .preCall (pc + 1 + c.length) :: c
  | .letrec xs es b =>
    let hd := .localEnvClosures xs.length (recCodes M (xs :: renv) es) :: boxers M xs
    if ctx.bottom then
      let ci := compInits M (xs :: renv) (pc + hd.length) xs es
      hd ++ ci ++ comp M (xs :: renv) ctx (pc + hd.length + ci.length) b ++
        (if ctx = .tail then [] else [.popLocalEnv])
    else
      let ci := compInits M (xs :: renv) (pc + 1 + hd.length) xs es
      let c := hd ++ ci ++ comp M (xs :: renv) .tail (pc + 1 + hd.length + ci.length) b ++ [.ret]
      .preCall (pc + 1 + c.length) :: c
  -- src/compile-5.scm:181-229 `pass5/branch-core`
  | .ite (.const k) b c =>
    if k = 0 then
      (if isIt c then (if ctx.isStmt then [] else [.const k]) else comp M renv ctx pc c)
    else
      (if isIt b then (if ctx.isStmt then [] else [.const k]) else comp M renv ctx pc b)
  | .ite (.prim .nullp [x]) b c =>
    let ca := comp M renv ctx.normal pc x
    ca ++ ifFinal ctx false b c .bnnull (fun p => comp M renv ctx p b)
      (fun p => comp M renv ctx p c) (pc + ca.length)
  -- src/compile-5.scm:232-243 `pass5/if-eq`
  | .ite (.prim .eq [x, y]) b c =>
    match constOf x, constOf y with
    | some k, _ =>
      let ca := comp M renv ctx.normal pc y
      ca ++ ifFinal ctx false b c (.bneqc k) (fun p => comp M renv ctx p b)
        (fun p => comp M renv ctx p c) (pc + ca.length)
    | none, some k =>
      let ca := comp M renv ctx.normal pc x
      ca ++ ifFinal ctx false b c (.bneqc k) (fun p => comp M renv ctx p b)
        (fun p => comp M renv ctx p c) (pc + ca.length)
    | none, none =>
      let cx := comp M renv ctx.normal pc x
      let ca := cx ++ .push :: comp M renv .normalTop (pc + cx.length + 1) y
      ca ++ ifFinal ctx false b c .bneq (fun p => comp M renv ctx p b)
        (fun p => comp M renv ctx p c) (pc + ca.length)
  | .ite a b c =>
    let ca := comp M renv ctx.normal pc a
    ca ++ ifFinal ctx true b c .bf (fun p => comp M renv ctx p b)
      (fun p => comp M renv ctx p c) (pc + ca.length)

/-- src/compile-5.scm:1222-1241 `pass5/prepare-args`; `ctx` is for the first argument. -/
def compArgs (M : Nat → Bool) (renv : Renv) (ctx : Ctx) (pc : Nat) : List Term → List Instr
  | [] => []
  | e :: es =>
    let c := comp M renv ctx pc e
    c ++ .push :: compArgs M renv .normalTop (pc + c.length + 1) es

/-- src/compile-5.scm:991-1013 `pass5/asm-generic`, src/compile-5.scm:1051-1062 `%pass5/builtin-nargs`:
like `compArgs`, but the last one stays in the register. -/
def compPrim (M : Nat → Bool) (renv : Renv) (ctx : Ctx) (pc : Nat) : List Term → List Instr
  | [] => []
  | [e] => comp M renv ctx pc e
  | e :: es =>
    let c := comp M renv ctx pc e
    c ++ .push :: compPrim M renv .normalTop (pc + c.length + 1) es

/-- src/compile-5.scm:686-697 `pass5/$SEQ` -/
def compSeq (M : Nat → Bool) (renv : Renv) (ctx : Ctx) (pc : Nat) : List Term → List Instr
  | [] => []
  | [e] => comp M renv ctx pc e
  | e :: es =>
    let c := comp M renv ctx.stmt pc e
    c ++ compSeq M renv ctx (pc + c.length) es

/-- src/compile-5.scm:531-547 `partition-letrec-inits`: `CONST` instructions stand for values
in the list (undefined for expressions). -/
def recCodes (M : Nat → Bool) (renv : Renv) : List Term → List Instr
  | [] => []
  | .lam xs opt b :: es => lamInstr M xs opt (depth .tail b)
      (comp M (extRenv xs renv) .tail (boxers M xs).length b) :: recCodes M renv es
  | .const k :: es => .const k :: recCodes M renv es
  | _ :: es => .const 3 :: recCodes M renv es

/-- src/compile-5.scm:561-572 `emit-letrec-inits` -/
def compInits (M : Nat → Bool) (renv : Renv) (pc : Nat) : List Nat → List Term → List Instr
  | x :: xs, e :: es =>
    if known e then compInits M renv pc xs es
    else
      let c := comp M renv .normalBottom pc e
      c ++ (if M x then .lset 0 xs.length else .envSet xs.length) ::
        compInits M renv (pc + c.length + 1) xs es
  | _, _ => []
end

/-! ## The machine -/

/-- src/gauche/vm.h:98-102 `ScmEnvFrameRec` -/
structure Frame where
  slots : List Slot
  up : Option Nat

structure VClos where
  req : Nat
  opt : Bool
  maxstack : Nat
  code : List Instr
  env : Option Nat

/-- src/gauche/vm.h:200-214 `ScmContFrameRec` -/
structure Cont where
  env : Option Nat
  args : List Slot
  pc : Nat
  code : List Instr
  sp : Nat
  lim : Nat

/-- src/gauche/vm.h:436-588 `ScmVMRec` -/
structure VM where
  val0 : Slot
  args : List Slot
  env : Option Nat
  conts : List Cont
  code : List Instr
  pc : Nat
  frames : List Frame
  boxes : List Val
  clos : List VClos
  globals : Nat → Option Val
  sp : Nat
  lim : Nat

/-- Follow `up` pointers.  src/vminsn.scm:314-324 `$lref` -/
def walk (fs : List Frame) : Option Nat → Nat → Option Nat
  | some a, 0 => some a
  | some a, d + 1 =>
    match fs[a]? with
    | some f => walk fs f.up d
    | none => none
  | none, _ => none

/-- Index of a slot in the order in which the slots were pushed.
src/gauche/vm.h:107 `ENV_DATA` -/
def slotIx (f : Frame) (off : Nat) : Nat := f.slots.length - (off + 1)

def envData (fs : List Frame) (env : Option Nat) (d off : Nat) : Option Slot :=
  match walk fs env d with
  | some a =>
    match fs[a]? with
    | some f => if off < f.slots.length then f.slots[slotIx f off]? else none
    | none => none
  | none => none

/-- src/vm.c:758-807 `POP_CONT`, src/vm.c:810-821 `RETURN_OP`; `none` at the end of the program. -/
def ret (s : VM) : Option VM :=
  match s.conts with
  | [] => none
  | k :: ks => some { s with env := k.env, args := k.args, pc := k.pc, code := k.code,
                             conts := ks, sp := k.sp, lim := k.lim }

/-- src/vm.c:825-834 `FINISH_ENV` -/
def finishEnv (s : VM) (slots : List Slot) (up : Option Nat) : VM :=
  { s with frames := s.frames ++ [⟨slots, up⟩], env := some s.frames.length,
           sp := s.sp + envHdr, args := [] }

def slotVal : Slot → Option Val
  | .val v => some v
  | .box _ => none

def slotVals : List Slot → Option (List Val)
  | [] => some []
  | s :: ss =>
    match slotVal s, slotVals ss with
    | some v, some vs => some (v :: vs)
    | _, _ => none

/-- src/vmcall.c:47-70 `ADJUST_ARGUMENT_FRAME` without `APPLY_CALL`; `none`: wrong number
of arguments. -/
def adjust (req : Nat) (opt : Bool) (vs : List Val) : Option (List Val) :=
  if opt then
    if vs.length < req then none
    else some (vs.take req ++ [Val.list (vs.drop req)])
  else if vs.length = req then some vs else none

/-- The body of `CALL`.  src/vmcall.c:47-70 `ADJUST_ARGUMENT_FRAME` and below: built-in
procedures and closures. -/
def doCall (P : Builtin) (s : VM) : Option VM :=
  match slotVals s.args with
  | none => none
  | some vs =>
    match s.val0 with
    | .val (.subr n) =>
      match P n vs with
      | some v => some { s with val0 := .val v, sp := s.sp - s.args.length, args := [],
                                code := [.ret], pc := 0 }
      | none => none
    | .val (.clos n) =>
      match s.clos[n]? with
      | some c =>
        match adjust c.req c.opt vs with
        | some ws =>
          let s0 := { s with sp := s.sp - vs.length + ws.length }
          let s1 := if ws.isEmpty then { s0 with env := c.env, args := [] }
            else finishEnv s0 (ws.map .val) c.env
          some { s1 with code := c.code, pc := 0, lim := s1.sp + c.maxstack }
        | none => none
      | none => none
    | _ => none

/-- src/vminsn.scm:558-573 `LOCAL-ENV-CLOSURES`: the closures have the address `a` of the
new frame as their environment. -/
def fillCodes (a : Nat) : List Instr → List VClos → List Slot × List VClos
  | [], cs => ([], cs)
  | .closure req opt m code :: is, cs =>
    let r := fillCodes a is (cs ++ [⟨req, opt, m, code, some a⟩])
    (.val (.clos cs.length) :: r.1, r.2)
  | .const k :: is, cs => let r := fillCodes a is cs; (.val (.atom k) :: r.1, r.2)
  | _ :: is, cs => let r := fillCodes a is cs; (.val .undef :: r.1, r.2)

/-- Where the frame of a tail call goes.  src/vm.c:908-925 `DISCARD_ENV` -/
def contEnd (s : VM) : Nat :=
  match s.conts with
  | [] => 0
  | k :: _ => k.sp + contSize

/-- `$branch*`.  src/vminsn.scm:252-259 `$branch*` -/
def branchStar (s : VM) (taken : Bool) (l : Nat) : VM :=
  if taken then { s with val0 := .val .false, pc := l }
  else { s with val0 := .val (.bool true), pc := s.pc + 1 }

/-- One instruction.  src/vminsn.scm: `define-insn` of each one. -/
def exec (P : Builtin) (s : VM) : Instr → Option VM
  | .const k => some { s with val0 := .val (.atom k), pc := s.pc + 1 }
  | .lref d off =>
    match envData s.frames s.env d off with
    | some w => some { s with val0 := w, pc := s.pc + 1 }
    | none => none
  | .unbox =>
    match s.val0 with
    | .box b =>
      match s.boxes[b]? with
      | some v => some { s with val0 := .val v, pc := s.pc + 1 }
      | none => none
    | _ => none
  | .lset d off =>
    match envData s.frames s.env d off, s.val0 with
    | some (.box b), .val v => some { s with boxes := s.boxes.set b v, pc := s.pc + 1 }
    | _, _ => none
  | .gref g =>
    match s.globals g with
    | some v => some { s with val0 := .val v, pc := s.pc + 1 }
    | none => none
  | .gset g =>
    match s.val0 with
    | .val v => some { s with globals := setGlobal s.globals g v, pc := s.pc + 1 }
    | _ => none
  | .push => some { s with args := s.args ++ [s.val0], sp := s.sp + 1, pc := s.pc + 1 }
  | .constPush k =>
    some { s with args := s.args ++ [.val (.atom k)], sp := s.sp + 1, pc := s.pc + 1 }
  | .lrefPush d off =>
    match envData s.frames s.env d off with
    | some w => some { s with args := s.args ++ [w], sp := s.sp + 1, pc := s.pc + 1 }
    | none => none
  | .bf l => some (if s.val0 = .val .false then { s with pc := l } else { s with pc := s.pc + 1 })
  | .bnnull l => some (branchStar s (s.val0 != .val .nil) l)
  | .bneqc k l => some (branchStar s (s.val0 != .val (.atom k)) l)
  | .bneq l =>
    match s.args.getLast? with
    | some w => some (branchStar { s with args := s.args.dropLast, sp := s.sp - 1 } (s.val0 != w) l)
    | none => none
  | .jump l => some { s with pc := l }
  | .ret => ret s
  | .rf => if s.val0 = .val .false then ret s else some { s with pc := s.pc + 1 }
  | .rt => if s.val0 = .val .false then some { s with pc := s.pc + 1 } else ret s
  | .localEnv _ =>
    let s1 := finishEnv s s.args s.env
    some { s1 with pc := s.pc + 1 }
  | .popLocalEnv =>
    match s.env with
    | some a =>
      match s.frames[a]? with
      | some f => some { s with env := f.up, pc := s.pc + 1 }
      | none => none
    | none => none
  | .box k =>
    match s.env with
    | some a =>
      match s.frames[a]? with
      | some f =>
        match f.slots[slotIx f (k - 1)]? with
        | some (.val v) =>
          let f1 : Frame := ⟨f.slots.set (slotIx f (k - 1)) (.box s.boxes.length), f.up⟩
          some { s with frames := s.frames.set a f1, boxes := s.boxes ++ [v], pc := s.pc + 1 }
        | _ => none
      | none => none
    | none => none
  | .closure req opt m code =>
    some { s with val0 := .val (.clos s.clos.length),
                  clos := s.clos ++ [⟨req, opt, m, code, s.env⟩], pc := s.pc + 1 }
  | .localEnvClosures n codes =>
    let r := fillCodes s.frames.length codes s.clos
    let s1 := finishEnv { s with sp := s.sp + n } r.1 s.env
    some { s1 with clos := r.2, pc := s.pc + 1 }
  | .envSet off =>
    match s.env with
    | some a =>
      match s.frames[a]? with
      | some f =>
        let f1 : Frame := ⟨f.slots.set (slotIx f off) s.val0, f.up⟩
        some { s with frames := s.frames.set a f1, pc := s.pc + 1 }
      | none => none
    | none => none
  | .preCall l => some { s with conts := ⟨s.env, s.args, l, s.code, s.sp, s.lim⟩ :: s.conts,
                                args := [], sp := s.sp + contSize, pc := s.pc + 1 }
  | .call _ => doCall P s
  | .tailCall _ => doCall P { s with sp := contEnd s + s.args.length }
  | .asm op n =>
    match slotVals (s.args.drop (s.args.length - (n - 1)) ++ [s.val0]) with
    | some vs =>
      match primVal P op vs with
      | some v => some { s with val0 := .val v, args := s.args.take (s.args.length - (n - 1)),
                                sp := s.sp - (n - 1), pc := s.pc + 1 }
      | none => none
    | none => none

/-- Fetch and execute. src/vm.c:971-975 `NEXT` -/
def step (P : Builtin) (s : VM) : Option VM :=
  match s.code[s.pc]? with
  | some i => exec P s i
  | none => none

/-- Any number of steps. -/
inductive Steps (P : Builtin) : VM → VM → Prop where
  | refl {s} : Steps P s s
  | step {s s1 s2} : step P s = some s1 → Steps P s1 s2 → Steps P s s2

/-- The machine is about to return from everything. -/
def Done (s : VM) (v : Val) : Prop :=
  s.conts = [] ∧ s.val0 = .val v ∧
    (s.code[s.pc]? = some .ret ∨ (s.code[s.pc]? = some .rf ∧ v = .false) ∨
      (s.code[s.pc]? = some .rt ∧ v ≠ .false))

/-- Running a program from the beginning.  src/compile-5.scm:104-108 `pass5`, src/vm.c:2416-2419 `Scm_Apply` -/
def start (M : Nat → Bool) (e : Term) (G : Nat → Option Val) : VM :=
  { val0 := .val .undef, args := [], env := none, conts := [],
    code := comp M [] .tail 0 e ++ [.ret], pc := 0, frames := [], boxes := [], clos := [],
    globals := G, sp := 0, lim := depth .tail e }

end Gauche.Prog

import Verif.Model.Utf8

/-!
# Regular expressions

Models `src/regexp.c` from the syntax tree on: the optimizer (pass 2), the code
generator (pass 3), the matcher and the search.

* Pass 1 (the parser) is not modelled; trees are given.
* Lookbehind assertions, conditional patterns and grapheme boundaries are left out
  of the trees, and so are the right-to-left instructions, `CPAT`, `CPATA`, `BOG` and
  `EOG` of the matcher (executing one is `Res.err`).
* A character set is a list of ranges; `Scm_CharSetContains` and the comparison
  of two sets are given by what they compute.
* The array of submatches is a pair of functions from the group number; its bounds
  are not modelled.  A pointer into the input is an offset from the position where the
  search began (`orig_start`), which is also `ctx->input`; bytes from `stop` on can be
  read, and hold anything.
* The matcher recurses on the C stack and gives up with an error when it has used
  too much of it; here `fuel` bounds the number of instructions instead, and
  running out is `Res.out`.
-/

namespace Gauche.Regex

open Gauche.Utf8

/-- A character set, as ranges. -/
abbrev CSet := List (Nat × Nat)

/-- `Scm_CharSetContains` -/
def CSet.has (s : CSet) (c : Nat) : Bool := s.any fun r => decide (r.1 ≤ c) && decide (c ≤ r.2)

/-- `SCM_CHAR_SET_LARGE_P`: there is something above ASCII. -/
def CSet.large (s : CSet) : Bool := s.any fun r => decide (128 ≤ r.2)

/-- `Scm_CharSetLE(x, complement of y)` -/
def CSet.disjoint (x y : CSet) : Bool :=
  x.all fun r => y.all fun q =>
    decide (r.2 < r.1) || decide (q.2 < q.1) || decide (r.2 < q.1) || decide (q.2 < r.1)

/-- The symbols `rep`, `rep-min` and `rep-while`. -/
inductive RepKind where
  | greedy | min | while_
deriving DecidableEq, Repr

/-- The syntax tree, src/regexp.c:53-153 (the comment on the AST).  `rep k m none l` has no upper
bound. -/
inductive Ast where
  | char (c : Nat)
  | cset (s : CSet)
  | comp (s : CSet)
  | any | bos | eos | bol | eol | wb | nwb | bow | eow
  | seq (l : List Ast)
  | uncase (l : List Ast)
  | case_ (l : List Ast)
  | alt (l : List Ast)
  | rep (k : RepKind) (m : Nat) (n : Option Nat) (l : List Ast)
  | group (g : Nat) (l : List Ast)
  | backref (g : Nat)
  | once (l : List Ast)
  | assert (l : List Ast)
  | nassert (l : List Ast)

/-! ## Pass 2 -/

/-- What src/regexp.c:1103-1143 `is_distinct` does with two items of which the first is not
a pair; `false` for all that is not a character or a set. -/
def distinctAtom : Ast → Ast → Bool
  | .char c, .char d => decide (c ≠ d)
  | .char c, .cset s => !s.has c
  | .cset s, .char c => !s.has c
  | .cset s, .cset t => s.disjoint t
  | _, _ => false

/-- `(comp . s)` against an item. -/
def distinctComp (s : CSet) : Ast → Bool
  | .char c => !distinctAtom (.cset s) (.char c)
  | .cset t => !distinctAtom (.cset s) (.cset t)
  | _ => false

/-- The item a pair stands for in src/regexp.c:1103-1143 `is_distinct`: the first of a
group or of `seq-uncase`, `seq-case`. -/
def headOf : Ast → Option Ast
  | .group _ (x :: _) => headOf x
  | .uncase (x :: _) => headOf x
  | .case_ (x :: _) => headOf x
  | .group _ [] => none
  | .uncase [] => none
  | .case_ [] => none
  | .char c => some (.char c)
  | .cset s => some (.cset s)
  | .comp s => some (.comp s)
  | _ => none

/-- src/regexp.c:1103-1143 `is_distinct` on the items both sides stand for.  The C function
reaches them by alternating between the two arguments. -/
def distinctHeads : Ast → Ast → Bool
  | .comp s, y => distinctComp s y
  | x, .comp s => distinctComp s x
  | x, y => distinctAtom x y

/-- src/regexp.c:1103-1143 `is_distinct` -/
def isDistinct (x y : Ast) : Bool :=
  match headOf x, headOf y with
  | some a, some b => distinctHeads a b
  | _, _ => false

mutual
/-- src/regexp.c:1064-1101 `rc2_optimize`; `rest` is what follows. -/
def optimize (rest : List Ast) : Ast → Ast
  | .alt l => .alt (optimizeAlt rest l)
  | .seq l => .seq (optimizeSeq rest l)
  | .uncase l => .uncase (optimizeSeq rest l)
  | .case_ l => .case_ (optimizeSeq rest l)
  | .group g l => .group g (optimizeSeq rest l)
  | .once l => .once (optimizeSeq rest l)
  | .assert l => .assert (optimizeSeq rest l)
  | .nassert l => .nassert (optimizeSeq rest l)
  | .rep k m n l => .rep k m n (optimizeRepBody rest l)
  | a => a
/-- The alternatives in src/regexp.c:1064-1101 `rc2_optimize`. -/
def optimizeAlt (rest : List Ast) : List Ast → List Ast
  | [] => []
  | a :: l => optimize rest a :: optimizeAlt rest l
/-- `SCM_CADR(SCM_CDDR(ast))` in src/regexp.c:1064-1101 `rc2_optimize`: the first element of
the body is taken for the list of its elements.  The parser makes bodies of one
element; if that is an atom or a `comp` it stays, else its head is a symbol or a
group number and its elements are optimized in place, as they are when the element
is optimized.  (Reached for `rep-min` and `rep-while` only; `rep` is handled
in `rc2_optimize_seq`, but for an alternative that is a single `rep`.) -/
def optimizeRepBody (rest : List Ast) : List Ast → List Ast
  | [] => []
  | .alt l :: r => .alt (optimizeSeq rest l) :: r
  | .seq l :: r => .seq (optimizeSeq rest l) :: r
  | .uncase l :: r => .uncase (optimizeSeq rest l) :: r
  | .case_ l :: r => .case_ (optimizeSeq rest l) :: r
  | .group g l :: r => .group g (optimizeSeq rest l) :: r
  | .once l :: r => .once (optimizeSeq rest l) :: r
  | .assert l :: r => .assert (optimizeSeq rest l) :: r
  | .nassert l :: r => .nassert (optimizeSeq rest l) :: r
  | .rep k m n l :: r => .rep k m n (optimizeSeq rest l) :: r
  | a :: r => a :: r
/-- src/regexp.c:1022-1062 `rc2_optimize_seq` -/
def optimizeSeq (rest : List Ast) : List Ast → List Ast
  | [] => []
  | .seq l :: s =>
    let tail := optimizeSeq rest s
    optimizeSeq (if tail.isEmpty then rest else tail) l ++ tail
  | .rep .greedy m n l :: s =>
    let tail := optimizeSeq rest s
    let rest' := if tail.isEmpty then rest else tail
    let body := optimizeSeq rest' l
    match body, rest' with
    | [], _ => tail
    | _, [] => .rep .while_ m n body :: tail
    | x :: _, y :: _ =>
      if isDistinct x y then .rep .while_ m n body :: tail
      else .rep .greedy m n body :: tail
  | a :: s =>
    let tail := optimizeSeq rest s
    optimize (if tail.isEmpty then rest else tail) a :: tail
end

/-- src/regexp.c:1145-1148 `Scm_RegOptimizeAST` -/
def regOptimize (a : Ast) : Ast := optimize [] a

/-! ## Pass 3 -/

/-- The instructions, src/gauche/regexp_insn.h:22-165, in the order of that file. -/
inductive Op where
  | match1 | match1RL | match_ | matchRL | match1CI | match1CIRL | matchCI | matchCIRL
  | any | anyRL | try_ | set | setRL | nset | nsetRL | set1 | set1RL | nset1 | nset1RL
  | jump | fail | success | begin_ | beginRL | end_ | endRL
  | bos | eos | bol | eol | bow | eow | wb | nwb | bog | eog
  | backref | backrefRL | backrefCI | backrefCIRL | cpat | cpata | once | assert | nassert
  | set1r | set1rRL | nset1r | nset1rRL | setr | setrRL | nsetr | nsetrRL
  | match1r | matchr | anyr
deriving DecidableEq, Repr

/-- The enumeration made from src/gauche/regexp_insn.h:22-165. -/
def opTable : List Op :=
  [.match1, .match1RL, .match_, .matchRL, .match1CI, .match1CIRL, .matchCI, .matchCIRL,
   .any, .anyRL, .try_, .set, .setRL, .nset, .nsetRL, .set1, .set1RL, .nset1, .nset1RL,
   .jump, .fail, .success, .begin_, .beginRL, .end_, .endRL,
   .bos, .eos, .bol, .eol, .bow, .eow, .wb, .nwb, .bog, .eog,
   .backref, .backrefRL, .backrefCI, .backrefCIRL, .cpat, .cpata, .once, .assert, .nassert,
   .set1r, .set1rRL, .nset1r, .nset1rRL, .setr, .setrRL, .nsetr, .nsetrRL,
   .match1r, .matchr, .anyr]

/-- The value of an instruction (`RE_...`). -/
def Op.byte (o : Op) : Nat := opTable.idxOf o

/-- What pass 3 needs of `regcomp_ctx` and the `ScmRegexp`: the character sets, the
multi-line flag, and C's `CHAR_MAX` (127 or 255). -/
structure GEnv where
  sets : List CSet
  multi : Bool
  charMax : Nat

/-- src/regexp.c:1183-1197 `rc3_emit_offset`, src/regexp.c:1199-1211 `rc3_fill_offset`: two bytes.  An
offset that is too large is an error; it is marked here with something that is not a
byte, and found in `compile`. -/
def off (n : Nat) : List Nat := if n > 65535 then [256, 256] else [n / 256, n % 256]

/-- src/regexp.c:1165-1171 `rc3_charset_index` as emitted, that is, truncated to a byte.  Sets are
compared by their ranges, not by identity. -/
def GEnv.ix (e : GEnv) (s : CSet) : Nat := e.sets.idxOf s % 256

/-- The bytes of a run of characters, `SCM_CHAR_PUT`. -/
def runBytes (run : List Nat) : List Nat := run.flatMap charPut

/-- The emission of a run of literal characters, src/regexp.c:1217-1264 `rc3_seq`. -/
def flush (fold : Bool) (run : List Nat) : List Nat :=
  if run.isEmpty then []
  else
    let bs := runBytes run
    if bs.length = 1 then
      [(if fold then Op.match1CI else Op.match1).byte, run.headD 0 % 256]
    else
      [(if fold then Op.matchCI else Op.match_).byte, bs.length % 256] ++ bs

/-- An item of a sequence, as src/regexp.c:1217-1264 `rc3_seq` sees it: a character, or anything
else with the code `rc3_rec` makes for it, given `casefoldp`, `lastp` and the address. -/
inductive Item where
  | char (c : Nat)
  | code (f : Bool → Bool → Nat → List Nat)

/-- src/regexp.c:1217-1264 `rc3_seq`.  `pend` are the characters of the current run. -/
def asmItems (e : GEnv) (fold last : Bool) : Nat → List Nat → List Item → List Nat
  | _, pend, [] => flush fold pend
  | p, pend, .char c :: l =>
    if pend.isEmpty || decide ((runBytes pend).length < e.charMax) then
      asmItems e fold last p (pend ++ [c]) l
    else
      let h := flush fold pend
      h ++ asmItems e fold last (p + h.length) [c] l
  | p, pend, .code f :: l =>
    let h := flush fold pend
    let b := f fold (last && l.isEmpty) (p + h.length)
    h ++ b ++ asmItems e fold last (p + h.length + b.length) [] l

/-- src/regexp.c:1266-1274 `rc3_seq_rep` -/
def seqRep (e : GEnv) (fold last : Bool) (p : Nat) (items : List Item) (m : Nat) : List Nat :=
  asmItems e fold last p [] (List.replicate m items).flatten

/-- The copies of the item in src/regexp.c:1276-1361 `rc3_minmax`. -/
def copies (e : GEnv) (fold : Bool) (items : List Item) : Nat → Nat → List (List Nat)
  | 0, _ => []
  | n + 1, p =>
    let b := asmItems e fold false p [] items
    b :: copies e fold items n (p + b.length)

/-- The address of the `k`-th copy. -/
def copyAddr (p : Nat) (cs : List (List Nat)) (k : Nat) : Nat := p + (cs.take k).flatten.length

/-- The `TRY` and `JUMP` pairs in src/regexp.c:1276-1361 `rc3_minmax`: the `i`-th is at address `p + 6 * i`,
`dest i` is where its `JUMP` goes, `nexts i` where its `TRY` goes. -/
def tryTable (nexts dest : Nat → Nat) (n : Nat) : List Nat :=
  (List.range n).flatMap fun i =>
    [Op.try_.byte] ++ off (nexts i) ++ [Op.jump.byte] ++ off (dest i)

/-- src/regexp.c:1276-1361 `rc3_minmax` -/
def minmax (e : GEnv) (fold greedy : Bool) (p : Nat) (items : List Item) (n : Nat) : List Nat :=
  if greedy then
    let body := p + 6 * n + 3
    let cs := copies e fold items n body
    tryTable (fun i => p + 6 * (i + 1)) (fun i => copyAddr body cs i) n ++
      [Op.jump.byte] ++ off (copyAddr body cs n) ++ cs.flatten
  else
    let body := p + 6 * (n + 1)
    let cs := copies e fold items n body
    tryTable (fun i => p + 6 * (i + 1)) (fun i => copyAddr body cs (n - i)) (n + 1) ++
      cs.flatten

/-- The repetition part of src/regexp.c:1363-1729 `rc3_rec`. -/
def genRep (e : GEnv) (lazy : Bool) (m : Nat) (n : Option Nat) (items : List Item)
    (fold : Bool) (p : Nat) : List Nat :=
  let multip := match n with
    | none => true
    | some n => decide (n > 1)
  let c := seqRep e fold multip p items m
  let p := p + c.length
  match n with
  | some n =>
    if m = n then c else c ++ minmax e fold (!lazy) p items (n - m)
  | none =>
    if lazy then
      let b := asmItems e fold false (p + 6) [] items
      c ++ [Op.try_.byte] ++ off (p + 6) ++ [Op.jump.byte] ++ off (p + 6 + b.length + 3) ++
        b ++ [Op.jump.byte] ++ off p
    else
      let b := asmItems e fold false (p + 3) [] items
      c ++ [Op.try_.byte] ++ off (p + 3 + b.length + 3) ++ b ++ [Op.jump.byte] ++ off p

/-- The instruction for `(rep-while m #f x)` in src/regexp.c:1363-1729 `rc3_rec`, if `x` has one. -/
def whileOp (e : GEnv) : List Ast → Option (List Nat)
  | [.any] => some [Op.anyr.byte]
  | [.char c] =>
    if nbytes c = 1 then some [Op.match1r.byte, c % 256]
    else some ([Op.matchr.byte, nbytes c] ++ charPut c)
  | [.cset s] => some [(if s.large then Op.setr else Op.set1r).byte, e.ix s]
  | [.comp s] => some [Op.nsetr.byte, e.ix s]
  | _ => none

mutual
/-- src/regexp.c:1363-1729 `rc3_rec`; the arguments are `casefoldp`, `lastp` and the address. -/
def gen (e : GEnv) : Ast → Bool → Bool → Nat → List Nat
  | .char c => fun fold _ _ => flush fold [c]
  | .cset s => fun _ _ _ => [(if s.large then Op.set else Op.set1).byte, e.ix s]
  | .comp s => fun _ _ _ => [(if s.large then Op.nset else Op.nset1).byte, e.ix s]
  | .any => fun _ _ _ => [Op.any.byte]
  | .bos => fun _ _ _ => [Op.bos.byte]
  | .eos => fun _ _ _ => [Op.eos.byte]
  | .bol => fun _ _ _ => [Op.bol.byte]
  | .eol => fun _ last _ => if last || e.multi then [Op.eol.byte] else [Op.match1.byte, 36]
  | .wb => fun _ _ _ => [Op.wb.byte]
  | .nwb => fun _ _ _ => [Op.nwb.byte]
  | .bow => fun _ _ _ => [Op.bow.byte]
  | .eow => fun _ _ _ => [Op.eow.byte]
  | .seq l =>
    let is := items e l
    fun fold last p => asmItems e fold last p [] is
  | .uncase l =>
    let is := items e l
    fun _ last p => asmItems e true last p [] is
  | .case_ l =>
    let is := items e l
    fun _ last p => asmItems e false last p [] is
  | .group g l =>
    let is := items e l
    fun fold last p =>
      [Op.begin_.byte, g % 256] ++ asmItems e fold last (p + 2) [] is ++
        [Op.end_.byte, g % 256]
  | .backref g => fun fold _ _ => [(if fold then Op.backrefCI else Op.backref).byte, g % 256]
  | .once l =>
    let is := items e l
    fun fold _ p =>
      let b := asmItems e fold true (p + 3) [] is
      [Op.once.byte] ++ off (p + 3 + b.length + 1) ++ b ++ [Op.success.byte]
  | .assert l =>
    let is := items e l
    fun fold _ p =>
      let b := asmItems e fold true (p + 3) [] is
      [Op.assert.byte] ++ off (p + 3 + b.length + 1) ++ b ++ [Op.success.byte]
  | .nassert l =>
    let is := items e l
    fun fold _ p =>
      let b := asmItems e fold true (p + 3) [] is
      [Op.nassert.byte] ++ off (p + 3 + b.length + 1) ++ b ++ [Op.success.byte]
  | .alt l => genAlts e l
  | .rep k m n l =>
    let is := items e l
    fun fold _ p =>
      match k, n, whileOp e l with
      | .while_, none, some w => seqRep e fold false p is m ++ w
      | _, _, _ => genRep e (k = .min) m n is fold p
/-- The items of a sequence. -/
def items (e : GEnv) : List Ast → List Item
  | [] => []
  | .char c :: l => .char c :: items e l
  | a :: l => .code (gen e a) :: items e l
/-- The alternatives in src/regexp.c:1363-1729 `rc3_rec`. -/
def genAlts (e : GEnv) : List Ast → Bool → Bool → Nat → List Nat
  | [] => fun _ _ _ => [Op.fail.byte]
  | a :: l =>
    let f := gen e a
    let g := genAlts e l
    fun fold last p =>
      if l.isEmpty then f fold last p
      else
        let b := f fold last (p + 3)
        let q := p + 3 + b.length + 3
        let r := g fold last q
        [Op.try_.byte] ++ off q ++ b ++ [Op.jump.byte] ++ off (q + r.length) ++ r
end

/-- src/regexp.c:1874-1900 `rc3`, the code; `none` is the error for an offset that is too large. -/
def codegen (e : GEnv) (a : Ast) : Option (List Nat) :=
  let c := gen e a false true 0 ++ [Op.success.byte]
  if c.contains 256 then none else some c

/-! ### What the search knows about a pattern -/

mutual
/-- src/regexp.c:1731-1755 `is_atom_anchored` -/
def anchored (atom : Ast → Bool) : Ast → Bool
  | .group _ l => anchoredHead atom l
  | .seq l => anchoredHead atom l
  | .uncase l => anchoredHead atom l
  | .case_ l => anchoredHead atom l
  | .alt l => anchoredAll atom l
  | a => atom a
/-- The first item decides. -/
def anchoredHead (atom : Ast → Bool) : List Ast → Bool
  | [] => false
  | a :: _ => anchored atom a
/-- All alternatives. -/
def anchoredAll (atom : Ast → Bool) : List Ast → Bool
  | [] => true
  | a :: l => anchored atom a && anchoredAll atom l
end

/-- The symbol `bos`. -/
def isBos : Ast → Bool
  | .bos => true
  | _ => false

/-- The symbol `bol`. -/
def isBol : Ast → Bool
  | .bol => true
  | _ => false

/-- src/regexp.c:1759-1769 `is_char_or_charset` -/
def isCharOrCharset : Ast → Bool
  | .char _ => true
  | .cset _ => true
  | .comp _ => true
  | _ => false

/-- src/regexp.c:1777-1800 `is_simple_prefixed` -/
def simplePrefixed : Ast → Bool
  | .rep .while_ 1 none [a] => isCharOrCharset a
  | .seq (a :: _) => simplePrefixed a
  | .group _ (a :: _) => simplePrefixed a
  | _ => false

/-- src/regexp.c:1804-1812 `merge_laset`; a lookahead set is given by its members. -/
def mergeLaset (x y : Option (Nat → Bool)) : Option (Nat → Bool) :=
  match x, y with
  | some f, some g => some fun c => f c || g c
  | _, _ => none

mutual
/-- src/regexp.c:1819-1865 `calculate_laset`; `rest` is the lookahead set of the rest. -/
def laset (rest : Option (Nat → Bool)) : Ast → Option (Nat → Bool)
  | .char c => some fun x => decide (x = c)
  | .cset s => some s.has
  | .comp s => some fun x => !s.has x
  | .seq l => lasetn l
  | .once l => lasetn l
  | .alt l => lasetAlts l
  | .rep _ m _ l => if m = 0 then mergeLaset (lasetn l) rest else lasetn l
  | .group _ l => lasetn l
  | _ => none
/-- src/regexp.c:1867-1871 `calculate_lasetn` -/
def lasetn : List Ast → Option (Nat → Bool)
  | [] => none
  | a :: l => laset (lasetn l) a
/-- The alternatives in src/regexp.c:1819-1865 `calculate_laset`. -/
def lasetAlts : List Ast → Option (Nat → Bool)
  | [] => none
  | a :: l =>
    if l.isEmpty then laset none a else mergeLaset (laset none a) (lasetAlts l)
end

/-- The fields of `ScmRegexp` the matcher uses. -/
structure Rx where
  code : List Nat
  sets : List CSet
  multi : Bool
  bolAnchored : Bool
  simple : Bool
  laset : Option (Nat → Bool)

/-- src/regexp.c:1874-1900 `rc3` -/
def rc3 (e : GEnv) (a : Ast) : Option Rx :=
  let anc := anchored isBos a || (!e.multi && anchored isBol a)
  (codegen e a).map fun c =>
    { code := c
      sets := e.sets
      multi := e.multi
      bolAnchored := anc
      simple := !anc && simplePrefixed a
      laset := laset none a }

/-- src/regexp.c:2126-2149 `Scm_RegComp` after the parser. -/
def regComp (e : GEnv) (a : Ast) : Option Rx := rc3 e (regOptimize a)

/-! ## The matcher -/

/-- `ctx->matches`: `startp` and `endp` of each group. -/
structure Caps where
  st : Nat → Option Nat
  en : Nat → Option Nat

/-- No submatch yet. -/
def Caps.init : Caps := ⟨fun _ => none, fun _ => none⟩

/-- `ctx->matches[g]->startp = v` -/
def Caps.setSt (c : Caps) (g : Nat) (v : Option Nat) : Caps :=
  { c with st := fun x => if x = g then v else c.st x }

/-- `ctx->matches[g]->endp = v` -/
def Caps.setEn (c : Caps) (g : Nat) (v : Option Nat) : Caps :=
  { c with en := fun x => if x = g then v else c.en x }

/-- `struct match_ctx`, src/regexp.c:2197-2207, without what changes.  `down` and `up` are
`Scm_CharDowncase` and `Scm_CharUpcase`. -/
structure Ctx where
  code : List Nat
  sets : List CSet
  multi : Bool
  mem : Mem
  stop : Nat
  down : Nat → Nat
  up : Nat → Nat

/-- What `rex_rec` does: it jumps out with a match, it returns, it raises an error, or it is
still running when the fuel is used up. -/
inductive Res where
  | done (last : Nat) (caps : Caps)
  | fail (caps : Caps)
  | err
  | out

/-- The byte at an address of the code. -/
def Ctx.at (cx : Ctx) (pc : Nat) : Nat := cx.code.getD pc 0

/-- The offset at an address. -/
def Ctx.target (cx : Ctx) (pc : Nat) : Nat := cx.at pc * 256 + cx.at (pc + 1)

/-- The set whose number is at an address. -/
def Ctx.setAt (cx : Ctx) (pc : Nat) : CSet := cx.sets.getD (cx.at pc) []

/-- `SCM_CHAR_GET` at a position of the input; `none` is `SCM_CHAR_INVALID`. -/
def Ctx.getc (cx : Ctx) (pos : Nat) : Option Nat := charGet fun i => cx.mem (pos + i)

/-- `Scm_CharSetContains` on a character that may be invalid. -/
def hasOpt (s : CSet) : Option Nat → Bool
  | some c => s.has c
  | none => false

/-- `SCM_CHAR_NBYTES` on a character that may be invalid. -/
def nbytesOpt : Option Nat → Nat
  | some c => nbytes c
  | none => 1

/-- `len` bytes of the code are the bytes of the input. -/
def Ctx.same (cx : Ctx) (pc pos len : Nat) : Bool :=
  (List.range len).all fun k => cx.at (pc + k) == cx.mem (pos + k)

/-- src/regexp.c:2211-2225 `match_ci`; the result is the input position and the code address.  The first
argument bounds the number of rounds. -/
def matchCi (cx : Ctx) : Nat → Nat → Nat → Int → Option (Nat × Nat)
  | 0, _, _, _ => none
  | n + 1, pos, pc, len =>
    let inch := cx.getc pos
    let c := charGet fun i => cx.at (pc + i)
    let csize := nbytesOpt inch
    match inch, c with
    | some x, some y =>
      if cx.down x = y then
        if len - csize > 0 then matchCi cx n (pos + csize) (pc + nbytes y) (len - csize)
        else some (pos + csize, pc + nbytes y)
      else none
    | _, _ => none

/-- src/regexp.c:2229-2236 `is_word_constituent` -/
def wordConstituent (b : Nat) : Bool :=
  decide (b ≥ 128) || (decide (48 ≤ b) && decide (b ≤ 57)) ||
    (decide (65 ≤ b) && decide (b ≤ 90)) || (decide (97 ≤ b) && decide (b ≤ 122))

/-- src/regexp.c:2238-2257 `is_word_boundary`; `bow` and `eow` say which of the two kinds `code` asks for
(`WB` asks for both). -/
def wordBoundary (cx : Ctx) (bow eow : Bool) (pos : Nat) : Bool :=
  if bow && decide (pos = 0) then true
  else if eow && decide (pos = cx.stop) then true
  else
    let nextb := cx.mem pos
    match (if pos = 0 then none else backward cx.mem pos) with
    | none => false
    | some q =>
      let prevb := cx.mem q
      (bow && wordConstituent nextb && !wordConstituent prevb) ||
        (eow && !wordConstituent nextb && wordConstituent prevb)

/-- src/regexp.c:2259-2272 `is_beginning_of_line` -/
def beginningOfLine (cx : Ctx) (pos : Nat) : Bool :=
  if pos = 0 then true
  else if !cx.multi then false
  else
    match backward cx.mem pos with
    | none => false
    | some q => cx.mem q == 10 || cx.mem q == 13

/-- src/regexp.c:2274-2283 `is_end_of_line` -/
def endOfLine (cx : Ctx) (pos : Nat) : Bool :=
  if pos = cx.stop then true
  else if !cx.multi then false
  else cx.mem pos == 10 || cx.mem pos == 13

/-- A `for (;;)` loop over the input: `adv` gives the next position, or `none` to leave. -/
def scan (adv : Nat → Option Nat) : Nat → Nat → Nat
  | 0, i => i
  | n + 1, i =>
    match adv i with
    | some j => scan adv n j
    | none => i

/-- The case `RE_BACKREF_CI` of src/regexp.c:2317-2738 `rex_rec`. -/
def backrefCi (cx : Ctx) (pos m e : Nat) : Nat → Nat → Option Nat
  | 0, _ => none
  | n + 1, i =>
    if m + i < e then
      if pos = cx.stop then none
      else
        match cx.getc (pos + i), cx.getc (m + i) with
        | some x, some y =>
          if cx.up x = cx.up y then backrefCi cx pos m e n (i + nbytes x) else none
        | _, _ => none
    else some (pos + i)

/-- One instruction of src/regexp.c:2317-2738 `rex_rec`.  `pc` is past the instruction, `rec` is
`rex_rec` or the next round of its loop. -/
def exec (rec : Nat → Nat → Caps → Res) (cx : Ctx) (op : Op) (pc pos : Nat) (cap : Caps) : Res :=
  match op with
  | .match_ =>
    let n := cx.at pc
    if cx.stop < pos + n then .fail cap
    else if cx.same (pc + 1) pos n then rec (pc + 1 + n) (pos + n) cap
    else .fail cap
  | .match1 =>
    if cx.stop = pos then .fail cap
    else if cx.at pc = cx.mem pos then rec (pc + 1) (pos + 1) cap
    else .fail cap
  | .matchCI =>
    let n := cx.at pc
    if cx.stop < pos + n then .fail cap
    else
      match matchCi cx (n + 1) pos (pc + 1) n with
      | some (q, r) => rec r q cap
      | none => .fail cap
  | .match1CI =>
    if cx.stop = pos then .fail cap
    else if nfollows (cx.mem pos) ≠ 0 ∨ cx.at pc ≠ cx.down (cx.mem pos) then .fail cap
    else rec (pc + 1) (pos + 1) cap
  | .any =>
    if cx.stop = pos then .fail cap
    else rec pc (pos + nfollows (cx.mem pos) + 1) cap
  | .try_ =>
    match rec (pc + 2) pos cap with
    | .fail cap' => rec (cx.target pc) pos cap'
    | r => r
  | .jump => rec (cx.target pc) pos cap
  | .set1 =>
    if cx.stop = pos then .fail cap
    else if cx.mem pos ≥ 128 then .fail cap
    else if (cx.setAt pc).has (cx.mem pos) then rec (pc + 1) (pos + 1) cap
    else .fail cap
  | .nset1 =>
    if cx.stop = pos then .fail cap
    else if cx.mem pos < 128 then
      if (cx.setAt pc).has (cx.mem pos) then .fail cap else rec (pc + 1) (pos + 1) cap
    else rec (pc + 1) (pos + nfollows (cx.mem pos) + 1) cap
  | .set =>
    if cx.stop = pos then .fail cap
    else
      let ch := cx.getc pos
      if hasOpt (cx.setAt pc) ch then rec (pc + 1) (pos + nbytesOpt ch) cap else .fail cap
  | .nset =>
    if cx.stop = pos then .fail cap
    else
      let ch := cx.getc pos
      if hasOpt (cx.setAt pc) ch then .fail cap else rec (pc + 1) (pos + nbytesOpt ch) cap
  | .begin_ =>
    let g := cx.at pc
    match rec (pc + 1) pos (cap.setSt g (some pos)) with
    | .fail cap' => .fail ((cap'.setSt g (cap.st g)).setEn g (cap.en g))
    | r => r
  | .end_ => rec (pc + 1) pos (cap.setEn (cx.at pc) (some pos))
  | .bos => if pos = 0 then rec pc pos cap else .fail cap
  | .eos => if pos = cx.stop then rec pc pos cap else .fail cap
  | .bol => if beginningOfLine cx pos then rec pc pos cap else .fail cap
  | .eol => if endOfLine cx pos then rec pc pos cap else .fail cap
  | .wb => if wordBoundary cx true true pos then rec pc pos cap else .fail cap
  | .bow => if wordBoundary cx true false pos then rec pc pos cap else .fail cap
  | .eow => if wordBoundary cx false true pos then rec pc pos cap else .fail cap
  | .nwb => if wordBoundary cx true true pos then .fail cap else rec pc pos cap
  | .success => .done pos cap
  | .fail => .fail cap
  | .set1r =>
    let s := cx.setAt pc
    rec (pc + 1) (scan (fun i =>
      if cx.stop ≤ i then none
      else if cx.mem i ≥ 128 then none
      else if s.has (cx.mem i) then some (i + 1) else none) (cx.stop - pos) pos) cap
  | .nset1r =>
    let s := cx.setAt pc
    rec (pc + 1) (scan (fun i =>
      if cx.stop ≤ i then none
      else if cx.mem i < 128 then
        if s.has (cx.mem i) then none else some (i + 1)
      else some (i + nfollows (cx.mem i) + 1)) (cx.stop - pos) pos) cap
  | .setr =>
    let s := cx.setAt pc
    rec (pc + 1) (scan (fun i =>
      if cx.stop ≤ i then none
      else if hasOpt s (cx.getc i) then some (i + nbytesOpt (cx.getc i)) else none)
      (cx.stop - pos) pos) cap
  | .nsetr =>
    let s := cx.setAt pc
    rec (pc + 1) (scan (fun i =>
      if cx.stop ≤ i then none
      else if hasOpt s (cx.getc i) then none else some (i + nbytesOpt (cx.getc i)))
      (cx.stop - pos) pos) cap
  | .match1r =>
    rec (pc + 1) (scan (fun i =>
      if cx.stop ≤ i then none
      else if cx.mem i ≥ 128 then none
      else if cx.at pc = cx.mem i then some (i + 1) else none) (cx.stop - pos) pos) cap
  | .matchr =>
    let n := cx.at pc
    rec (pc + 1 + n) (scan (fun i =>
      if cx.stop < i + n then none
      else if cx.same (pc + 1) i n then some (i + n) else none) (cx.stop - pos) pos) cap
  | .anyr =>
    rec pc (scan (fun i =>
      if cx.stop ≤ i then none else some (i + nfollows (cx.mem i) + 1))
      (cx.stop - pos) pos) cap
  | .backref =>
    let g := cx.at pc
    match cap.st g, cap.en g with
    | some m, some e =>
      if (List.range (e - m)).all fun k => cx.mem (pos + k) == cx.mem (m + k) then
        rec (pc + 1) (pos + (e - m)) cap
      else .fail cap
    | _, _ => .fail cap
  | .backrefCI =>
    let g := cx.at pc
    match cap.st g, cap.en g with
    | some m, some e =>
      match backrefCi cx pos m e (e - m + 1) 0 with
      | some q => rec (pc + 1) q cap
      | none => .fail cap
    | _, _ => .fail cap
  | .once =>
    match rec (pc + 2) pos cap with
    | .done last cap' => rec (cx.target pc) last cap'
    | r => r
  | .assert =>
    match rec (pc + 2) pos cap with
    | .done _ cap' => rec (cx.target pc) pos cap'
    | r => r
  | .nassert =>
    match rec (pc + 2) pos cap with
    | .fail cap' => rec (cx.target pc) pos cap'
    | .done _ cap' => .fail cap'
    | r => r
  | _ => .err

/-- src/regexp.c:2317-2738 `rex_rec` -/
def rexRec (cx : Ctx) : Nat → Nat → Nat → Caps → Res
  | 0, _, _, _ => .out
  | fuel + 1, pc, pos, cap =>
    match opTable[cx.at pc]? with
    | none => .err
    | some op => exec (rexRec cx fuel) cx op (pc + 1) pos cap

/-- src/regexp.c:2758-2788 `rex` -/
def rex (cx : Ctx) (fuel start : Nat) : Res := rexRec cx fuel 0 start Caps.init

/-! ## The search -/

/-- src/regexp.c:2792-2806 `skip_input`; the first argument bounds the number of rounds. -/
def skipInput (cx : Ctx) (la : Nat → Bool) (skip : Bool) (limit : Nat) : Nat → Nat → Nat
  | 0, _ => limit
  | n + 1, start =>
    if start ≤ limit then
      let has := match cx.getc start with
        | some c => la c
        | none => false
      if has != skip then start
      else skipInput cx la skip limit n (start + nfollows (cx.mem start) + 1)
    else limit

/-- What src/regexp.c:2811-2879 `Scm_RegExec` answers. -/
inductive Answer where
  | found (caps : Caps)
  | notFound
  | err
  | out

/-- A match, or else. -/
def orElse (r : Res) (k : Answer) : Answer :=
  match r with
  | .done _ c => .found c
  | .fail _ => k
  | .err => .err
  | .out => .out

/-- The loop with a lookahead set and the simple prefix, src/regexp.c:2811-2879 `Scm_RegExec`. -/
def searchSimple (cx : Ctx) (fuel : Nat) (la : Nat → Bool) : Nat → Nat → Answer
  | 0, _ => .notFound
  | n + 1, start =>
    if start ≤ cx.stop then
      orElse (rex cx fuel start)
        (let next := skipInput cx la true cx.stop (cx.stop + 1) start
         if start ≠ next then searchSimple cx fuel la n next
         else searchSimple cx fuel la n (next + nfollows (cx.mem start) + 1))
    else .notFound

/-- The loop with a lookahead set, src/regexp.c:2811-2879 `Scm_RegExec`. -/
def searchLa (cx : Ctx) (fuel : Nat) (la : Nat → Bool) : Nat → Nat → Answer
  | 0, _ => .notFound
  | n + 1, start =>
    if start ≤ cx.stop then
      let start := skipInput cx la false cx.stop (cx.stop + 1) start
      orElse (rex cx fuel start)
        (searchLa cx fuel la n (start + nfollows (cx.mem start) + 1))
    else .notFound

/-- The plain loop, src/regexp.c:2811-2879 `Scm_RegExec`. -/
def searchAll (cx : Ctx) (fuel : Nat) : Nat → Nat → Answer
  | 0, _ => .notFound
  | n + 1, start =>
    if start ≤ cx.stop then
      orElse (rex cx fuel start) (searchAll cx fuel n (start + nfollows (cx.mem start) + 1))
    else .notFound

/-- The context src/regexp.c:2758-2788 `rex` sets up. -/
def Rx.ctx (rx : Rx) (mem : Mem) (stop : Nat) (down up : Nat → Nat) : Ctx :=
  ⟨rx.code, rx.sets, rx.multi, mem, stop, down, up⟩

/-- src/regexp.c:2811-2879 `Scm_RegExec` on the bytes `mem 0 ... mem (stop - 1)`, which are the part
of the string from `start` to `end`.  (`mustMatch` is never set, so `start_limit` is `end`.)
Every round of the loops advances, so `stop + 1` rounds are enough. -/
def regExec (rx : Rx) (mem : Mem) (stop : Nat) (down up : Nat → Nat) (fuel : Nat) : Answer :=
  let cx := rx.ctx mem stop down up
  if rx.bolAnchored then orElse (rex cx fuel 0) .notFound
  else
    match rx.laset with
    | some la =>
      if rx.simple then searchSimple cx fuel la (stop + 1) 0
      else searchLa cx fuel la (stop + 1) 0
    | none => searchAll cx fuel (stop + 1) 0

end Gauche.Regex

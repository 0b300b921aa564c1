import Verif.Model.Regex
import Verif.Spec.Utf8

/-!
# What a regular expression matches

`ways` lists, in order of preference, all the ways a pattern can match at a position of
a text: the usual backtracking semantics.  `Mat` says the same without the order, as a
relation in the style of a textbook.  Only the syntax trees are shared with the model.

* Positions count characters.  A state is a position and the captured groups.
* `x{m,n}` prefers more copies (fewer, if lazy): all ways with one number of copies come
  before those with another.
* A copy of the body of `x*` that matches the empty string does not count.
* `$` is the end of the text (or line) where it stands last, and a dollar sign elsewhere.
* A word boundary is where a word begins or ends; both ends of the text count.
-/

namespace Gauche.Regex.Spec

open Gauche.Regex (Ast CSet RepKind Caps Answer)
open Gauche.Spec.Utf8

/-- The text, the multi-line flag, and how characters are made lower case. -/
structure Cfg where
  text : List Nat
  multi : Bool
  down : Nat → Nat

/-- Where we are, and what the groups have matched. -/
structure St where
  pos : Nat
  caps : Nat → Option (Nat × Nat)

/-- Nothing captured yet. -/
def St.start (i : Nat) : St := ⟨i, fun _ => none⟩

/-- The state, if a condition holds. -/
def test (b : Bool) (st : St) : List St := if b then [st] else []

/-- One character that satisfies `p`. -/
def one (cfg : Cfg) (p : Nat → Bool) (st : St) : List St :=
  match cfg.text[st.pos]? with
  | some c => if p c then [{ st with pos := st.pos + 1 }] else []
  | none => []

/-- The character is in one of the ranges. -/
def inSet (s : CSet) (c : Nat) : Bool := s.any fun r => r.1 ≤ c && c ≤ r.2

/-- Letters, digits, and everything that is not ASCII. -/
def wordChar : Option Nat → Bool
  | some c => c ≥ 128 || (48 ≤ c && c ≤ 57) || (65 ≤ c && c ≤ 90) || (97 ≤ c && c ≤ 122)
  | none => false

/-- A line ends here. -/
def newline : Option Nat → Bool
  | some c => c == 10 || c == 13
  | none => false

/-- The character before a position. -/
def prev (cfg : Cfg) (i : Nat) : Option Nat := if i = 0 then none else cfg.text[i - 1]?

/-- The character at a position. -/
def next (cfg : Cfg) (i : Nat) : Option Nat := cfg.text[i]?

def atBol (cfg : Cfg) (i : Nat) : Bool := i == 0 || (cfg.multi && newline (prev cfg i))
def atEol (cfg : Cfg) (i : Nat) : Bool := i == cfg.text.length || (cfg.multi && newline (next cfg i))
def atBow (cfg : Cfg) (i : Nat) : Bool :=
  i == 0 || (wordChar (next cfg i) && !wordChar (prev cfg i))
def atEow (cfg : Cfg) (i : Nat) : Bool :=
  i == cfg.text.length || (!wordChar (next cfg i) && wordChar (prev cfg i))

/-- `k` times. -/
def iter (f : St → List St) : Nat → St → List St
  | 0, st => [st]
  | k + 1, st => (f st).flatMap (iter f k)

/-- Any number of times, more first; the number bounds the number of characters left. -/
def star (f : St → List St) : Nat → St → List St
  | 0, st => [st]
  | n + 1, st => ((f st).filter fun t => st.pos < t.pos).flatMap (star f n) ++ [st]

/-- Any number of times, fewer first. -/
def starLazy (f : St → List St) : Nat → St → List St
  | 0, st => [st]
  | n + 1, st => st :: ((f st).filter fun t => st.pos < t.pos).flatMap (starLazy f n)

/-- `0` to `n` times, more first. -/
def upTo (f : St → List St) (n : Nat) (st : St) : List St :=
  (List.range (n + 1)).reverse.flatMap fun k => iter f k st

/-- `0` to `n` times, fewer first. -/
def upToLazy (f : St → List St) (n : Nat) (st : St) : List St :=
  (List.range (n + 1)).flatMap fun k => iter f k st

/-- A single character or set. -/
def singleChar : List Ast → Bool
  | [.any] => true
  | [.char _] => true
  | [.cset _] => true
  | [.comp _] => true
  | _ => false

mutual
/-- All ways to match, best first.  `fold`: ignore case; `last`: nothing follows. -/
def ways (cfg : Cfg) : Ast → Bool → Bool → St → List St
  | .char c => fun fold _ => one cfg fun x => (if fold then cfg.down x else x) == c
  | .cset s => fun _ _ => one cfg (inSet s)
  | .comp s => fun _ _ => one cfg fun x => !inSet s x
  | .any => fun _ _ => one cfg fun _ => true
  | .bos => fun _ _ st => test (st.pos == 0) st
  | .eos => fun _ _ st => test (st.pos == cfg.text.length) st
  | .bol => fun _ _ st => test (atBol cfg st.pos) st
  | .eol => fun _ last st =>
    if last || cfg.multi then test (atEol cfg st.pos) st else one cfg (fun x => x == 36) st
  | .wb => fun _ _ st => test (atBow cfg st.pos || atEow cfg st.pos) st
  | .nwb => fun _ _ st => test (!(atBow cfg st.pos || atEow cfg st.pos)) st
  | .bow => fun _ _ st => test (atBow cfg st.pos) st
  | .eow => fun _ _ st => test (atEow cfg st.pos) st
  | .seq l => waysSeq cfg l
  | .uncase l => fun _ last => waysSeq cfg l true last
  | .case_ l => fun _ last => waysSeq cfg l false last
  | .alt l => waysAlt cfg l
  | .group g l => fun fold last st =>
    (waysSeq cfg l fold last st).map fun t =>
      { t with caps := fun x => if x = g then some (st.pos, t.pos) else t.caps x }
  | .backref g => fun _ _ st =>
    match st.caps g with
    | some (i, j) =>
      if (cfg.text.drop st.pos).take (j - i) == (cfg.text.drop i).take (j - i) then
        [{ st with pos := st.pos + (j - i) }]
      else []
    | none => []
  | .once l => fun fold _ st => (waysSeq cfg l fold true st).take 1
  | .assert l => fun fold _ st =>
    ((waysSeq cfg l fold true st).take 1).map fun t => { st with caps := t.caps }
  | .nassert l => fun fold _ st => test (waysSeq cfg l fold true st).isEmpty st
  | .rep k m n l => fun fold _ st =>
    let f := waysSeq cfg l fold false
    (iter f m st).flatMap fun t =>
      match n with
      | some n => if k = .min then upToLazy f (n - m) t else upTo f (n - m) t
      | none =>
        let r := cfg.text.length - t.pos
        if k = .min then starLazy f r t
        else if k = .while_ && singleChar l then (star f r t).take 1
        else star f r t
/-- One after the other. -/
def waysSeq (cfg : Cfg) : List Ast → Bool → Bool → St → List St
  | [] => fun _ _ st => [st]
  | a :: l => fun fold last st =>
    (ways cfg a fold (last && l.isEmpty) st).flatMap (waysSeq cfg l fold last)
/-- One of them, earlier ones first. -/
def waysAlt (cfg : Cfg) : List Ast → Bool → Bool → St → List St
  | [] => fun _ _ _ => []
  | a :: l => fun fold last st => ways cfg a fold last st ++ waysAlt cfg l fold last st
end

/-! ## The same as a relation -/

mutual
/-- `a` can take `s` to `t`.  (Standalone patterns depend on the order and are left out.) -/
inductive Mat (cfg : Cfg) : Bool → Bool → Ast → St → St → Prop
  | char {fold last c x st} : cfg.text[st.pos]? = some x → (if fold then cfg.down x else x) = c →
      Mat cfg fold last (.char c) st { st with pos := st.pos + 1 }
  | cset {fold last s x st} : cfg.text[st.pos]? = some x → inSet s x = true →
      Mat cfg fold last (.cset s) st { st with pos := st.pos + 1 }
  | comp {fold last s x st} : cfg.text[st.pos]? = some x → inSet s x = false →
      Mat cfg fold last (.comp s) st { st with pos := st.pos + 1 }
  | any {fold last x st} : cfg.text[st.pos]? = some x →
      Mat cfg fold last .any st { st with pos := st.pos + 1 }
  | bos {fold last st} : st.pos = 0 → Mat cfg fold last .bos st st
  | eos {fold last st} : st.pos = cfg.text.length → Mat cfg fold last .eos st st
  | bol {fold last st} : atBol cfg st.pos = true → Mat cfg fold last .bol st st
  | eol {fold last st} : last = true ∨ cfg.multi = true → atEol cfg st.pos = true →
      Mat cfg fold last .eol st st
  | dollar {fold last st} : last = false → cfg.multi = false → cfg.text[st.pos]? = some 36 →
      Mat cfg fold last .eol st { st with pos := st.pos + 1 }
  | wb {fold last st} : atBow cfg st.pos = true ∨ atEow cfg st.pos = true →
      Mat cfg fold last .wb st st
  | nwb {fold last st} : atBow cfg st.pos = false → atEow cfg st.pos = false →
      Mat cfg fold last .nwb st st
  | bow {fold last st} : atBow cfg st.pos = true → Mat cfg fold last .bow st st
  | eow {fold last st} : atEow cfg st.pos = true → Mat cfg fold last .eow st st
  | seq {fold last l st t} : MatSeq cfg fold last l st t → Mat cfg fold last (.seq l) st t
  | uncase {fold last l st t} : MatSeq cfg true last l st t → Mat cfg fold last (.uncase l) st t
  | case_ {fold last l st t} : MatSeq cfg false last l st t → Mat cfg fold last (.case_ l) st t
  | alt {fold last l a st t} : a ∈ l → Mat cfg fold last a st t → Mat cfg fold last (.alt l) st t
  | group {fold last g l st t} : MatSeq cfg fold last l st t →
      Mat cfg fold last (.group g l) st
        { t with caps := fun x => if x = g then some (st.pos, t.pos) else t.caps x }
  | backref {fold last g i j st} : st.caps g = some (i, j) →
      (cfg.text.drop st.pos).take (j - i) = (cfg.text.drop i).take (j - i) →
      Mat cfg fold last (.backref g) st { st with pos := st.pos + (j - i) }
  | rep {fold last k m n l c st t} : m ≤ c → (∀ x, n = some x → c ≤ x) →
      Reps cfg fold l c st t → Mat cfg fold last (.rep k m n l) st t
/-- One after the other. -/
inductive MatSeq (cfg : Cfg) : Bool → Bool → List Ast → St → St → Prop
  | nil {fold last st} : MatSeq cfg fold last [] st st
  | cons {fold last a l st t u} : Mat cfg fold (last && l.isEmpty) a st t →
      MatSeq cfg fold last l t u → MatSeq cfg fold last (a :: l) st u
/-- So many times. -/
inductive Reps (cfg : Cfg) : Bool → List Ast → Nat → St → St → Prop
  | zero {fold l st} : Reps cfg fold l 0 st st
  | succ {fold l c st t u} : MatSeq cfg fold false l st t → Reps cfg fold l c t u →
      Reps cfg fold l (c + 1) st u
end

/-! ## Kinds of patterns -/

mutual
/-- The pattern cannot match the empty string. -/
def consumes : Ast → Bool
  | .char _ => true
  | .cset _ => true
  | .comp _ => true
  | .any => true
  | .seq l => consumesSeq l
  | .uncase l => consumesSeq l
  | .case_ l => consumesSeq l
  | .group _ l => consumesSeq l
  | .once l => consumesSeq l
  | .alt l => consumesAll l
  | .rep _ m _ l => decide (0 < m) && consumesSeq l
  | _ => false
/-- One item is enough. -/
def consumesSeq : List Ast → Bool
  | [] => false
  | a :: l => consumes a || consumesSeq l
/-- All alternatives. -/
def consumesAll : List Ast → Bool
  | [] => true
  | a :: l => consumes a && consumesAll l
end

mutual
/-- There is no group in it. -/
def noGroup : Ast → Bool
  | .group _ _ => false
  | .seq l => noGroups l
  | .uncase l => noGroups l
  | .case_ l => noGroups l
  | .alt l => noGroups l
  | .once l => noGroups l
  | .assert l => noGroups l
  | .nassert l => noGroups l
  | .rep _ _ _ l => noGroups l
  | _ => true
def noGroups : List Ast → Bool
  | [] => true
  | a :: l => noGroup a && noGroups l
end

mutual
/-- No `$` in it whose meaning depends on what follows. -/
def noEol : Ast → Bool
  | .eol => false
  | .group _ l => noEols l
  | .seq l => noEols l
  | .uncase l => noEols l
  | .case_ l => noEols l
  | .alt l => noEols l
  | .rep _ _ _ _ => true
  | _ => true
def noEols : List Ast → Bool
  | [] => true
  | a :: l => noEol a && noEols l
end

/-- Limits and options for `ok`: the character sets of the pattern, the multi-line flag, whether
case folding and backreferences are allowed. -/
structure Lim where
  sets : List CSet
  multi : Bool
  ci : Bool
  br : Bool

/-- A single literal character. -/
def oneLiteral : List Ast → Bool
  | [.char _] => true
  | _ => false

mutual
/-- The patterns the theorems are about.  `op` are the groups that are open.

* characters are codes, groups have numbers below 256;
* no group inside itself, no reference to a group inside it, no reference where case is folded;
* standalone patterns and lookahead contain no groups;
* the body of an unbounded repetition does not match the empty string, bounds are in order;
* in a repetition `$` is not last, unless in multi-line mode;
* a single character is not repeated without bound with `rep-while` where case is folded. -/
def ok (L : Lim) : Ast → Bool → List Nat → Bool
  | .char c => fun _ _ => decide (c < 2 ^ 31)
  | .cset s => fun _ _ => L.sets.contains s
  | .comp s => fun _ _ => L.sets.contains s
  | .seq l => okSeq L l
  | .uncase l => fun _ op => L.ci && okSeq L l true op
  | .case_ l => fun _ op => okSeq L l false op
  | .alt l => okSeq L l
  | .group g l => fun fold op => decide (g < 256) && !op.contains g && okSeq L l fold (g :: op)
  | .backref g => fun fold op => L.br && decide (g < 256) && !fold && !op.contains g
  | .once l => fun fold op => noGroups l && okSeq L l fold op
  | .assert l => fun fold op => noGroups l && okSeq L l fold op
  | .nassert l => fun fold op => noGroups l && okSeq L l fold op
  | .rep k m n l => fun fold op =>
    okSeq L l fold op && (L.multi || noEols l) &&
      (match n with
       | some n => decide (m ≤ n)
       | none => consumesSeq l && !(fold && decide (k = .while_) && oneLiteral l))
  | _ => fun _ _ => true
/-- All items. -/
def okSeq (L : Lim) : List Ast → Bool → List Nat → Bool
  | [] => fun _ _ => true
  | a :: l => fun fold op => ok L a fold op && okSeq L l fold op
end

/-! ## Where the optimizer may be relied upon -/

mutual
/-- An item without the `seq`s in it. -/
def flat1 : Ast → List Ast
  | .seq l => flat l
  | a => [a]
/-- A sequence without the `seq`s in it. -/
def flat : List Ast → List Ast
  | [] => []
  | a :: s => flat1 a ++ flat s
end

/-- An item that stands for nothing. -/
def void : Ast → Bool
  | .seq [] => true
  | .rep .greedy _ _ [] => true
  | _ => false

/-- The body of a repetition is a single item, not directly an alternation. -/
def body1 : List Ast → Bool
  | [.alt _] => false
  | [_] => true
  | _ => false

mutual
/-- The patterns for which the optimizer is correct.  `tail`: it is the last thing in the body of a
repetition.

* case is not folded in parts of the pattern; no empty items in a sequence;
* no greedy unbounded repetition of a single character at the end of the body of another
  repetition. -/
def plain (tail : Bool) : Ast → Bool
  | .uncase _ => false
  | .case_ _ => false
  | .seq l => plainSeq tail l
  | .alt l => plainAlt tail l
  | .group _ l => plainSeq tail l
  | .once l => plainSeq false l
  | .assert l => plainSeq false l
  | .nassert l => plainSeq false l
  | .rep k _ n l =>
    decide (k ≠ .while_) && body1 l && plainSeq true l &&
      !(tail && decide (k = .greedy) && n.isNone && singleChar (flat l))
  | _ => true
/-- All items of a sequence. -/
def plainSeq (tail : Bool) : List Ast → Bool
  | [] => true
  | a :: l => !void a && plain (tail && l.isEmpty) a && plainSeq tail l
/-- All alternatives. -/
def plainAlt (tail : Bool) : List Ast → Bool
  | [] => true
  | a :: l => plain tail a && plainAlt tail l
end

mutual
/-- The sets `[^...]` (`neg`) or `[...]` in a pattern. -/
def setsIn (neg : Bool) : Ast → List CSet
  | .cset s => if neg then [] else [s]
  | .comp s => if neg then [s] else []
  | .seq l => setsIns neg l
  | .uncase l => setsIns neg l
  | .case_ l => setsIns neg l
  | .alt l => setsIns neg l
  | .group _ l => setsIns neg l
  | .once l => setsIns neg l
  | .assert l => setsIns neg l
  | .nassert l => setsIns neg l
  | .rep _ _ _ l => setsIns neg l
  | _ => []
def setsIns (neg : Bool) : List Ast → List CSet
  | [] => []
  | a :: l => setsIn neg a ++ setsIns neg l
end

/-- Whenever there are `[^s]` and `[t]`, `s` and `t` are disjoint or `t` is part of `s`. -/
def Separate (a : Ast) : Prop :=
  ∀ s ∈ setsIn true a, ∀ t ∈ setsIn false a,
    (∀ c, inSet s c = true → inSet t c = false) ∨ (∀ c, inSet t c = true → inSet s c = true)

mutual
/-- The pattern begins with `x+`, where `x` is a single character or set. -/
def plusHead (k : RepKind) : Ast → Bool
  | .rep k' m n l => decide (k' = k) && decide (m = 1) && n.isNone && singleChar (flat l)
  | .seq l => plusHeads k l
  | .group _ l => plusHeads k l
  | _ => false
def plusHeads (k : RepKind) : List Ast → Bool
  | [] => false
  | a :: _ => plusHead k a
end

mutual
/-- All ways matter: nothing in it that takes the first way only, or looks ahead. -/
def free : Ast → Bool
  | .once _ => false
  | .assert _ => false
  | .nassert _ => false
  | .seq l => frees l
  | .uncase l => frees l
  | .case_ l => frees l
  | .alt l => frees l
  | .group _ l => frees l
  | .rep k _ _ l => decide (k ≠ .while_) && frees l
  | _ => true
def frees : List Ast → Bool
  | [] => true
  | a :: l => free a && frees l
end

/-! ## The text in memory, and what a search should find -/

/-- The offset of a character. -/
def boff (cfg : Cfg) (i : Nat) : Nat := (encodeAll (cfg.text.take i)).length

/-- The bytes from `0` to `stop` are the text, in UTF-8.  `ci` and `br`: the pattern may ignore
case, it may refer back. -/
structure InMemory (cfg : Cfg) (mem : Nat → Nat) (stop : Nat) (ci br : Bool) : Prop where
  codes : ∀ x ∈ cfg.text, IsCode x
  holds : Holds mem (encodeAll cfg.text)
  size : stop = (encodeAll cfg.text).length
  /-- what follows the text is not part of a word (a string ends with a zero byte) -/
  after : wordChar (some (mem stop)) = false
  /-- lower case characters take as many bytes -/
  ci : ci = true → ∀ x ∈ cfg.text,
    (encode (cfg.down x)).length = (encode x).length ∧ IsCode (cfg.down x)
  /-- the byte that follows the text does not occur in it -/
  br : br = true → ∀ b ∈ encodeAll cfg.text, b ≠ mem stop

/-- The reported submatches are the captures. -/
def Agrees (cfg : Cfg) (c : Caps) (t : St) : Prop :=
  ∀ g, c.st g = (t.caps g).map (fun x => boff cfg x.1) ∧
    c.en g = (t.caps g).map (fun x => boff cfg x.2)

/-- The first way from the first place where there is one. -/
def leftmost (cfg : Cfg) (a : Ast) : Option St :=
  (List.range (cfg.text.length + 1)).findSome? fun i => (ways cfg a false true (St.start i)).head?

/-- The answer that is right. -/
def Right (cfg : Cfg) (o : Option St) (ans : Answer) : Prop :=
  match o with
  | some t => ∃ c, ans = .found c ∧ Agrees cfg c t
  | none => ans = .notFound

end Gauche.Regex.Spec

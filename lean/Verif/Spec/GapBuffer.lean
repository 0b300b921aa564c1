import Verif.Model.GapBuffer
/-! Specification of gap buffers: a text with a position. -/
namespace Gauche.GapBuffer

structure Text where
  chars : List Nat
  pos : Nat
deriving DecidableEq

/-- The calls that change a gap buffer. -/
inductive Op where
  | move (pos : Int) (whence : Whence)
  | insert (str : List Nat)
  | delete (n : Nat)
  | replace (n : Nat) (str : List Nat)
  | clear
  | edit (cmd : Cmd)

def textPos (t : Text) (pos : Int) : Whence → Int
  | .beginning => pos
  | .current => pos + t.pos
  | .fromEnd => pos + t.chars.length

def textMove (t : Text) (pos : Int) (whence : Whence) : Text × Bool :=
  let p := textPos t pos whence
  if 0 ≤ p ∧ p ≤ t.chars.length then (⟨t.chars, p.toNat⟩, true) else (t, false)

/-- `n` characters after the position are replaced by the string. -/
def textReplace (t : Text) (n : Nat) (str : List Nat) : Text × Bool :=
  if t.pos + n ≤ t.chars.length then (⟨t.chars.take t.pos ++ str ++ t.chars.drop (t.pos + n), t.pos + str.length⟩, true) else (t, false)

def textAt (t : Text) : Option Int → Text × Bool
  | none => (t, true)
  | some p => textMove t p .beginning

def textEdit (t : Text) (cmd : Cmd) : Text × Bool :=
  match cmd with
  | .i pos str => let r := textAt t pos; if r.2 then textReplace r.1 0 str else r
  | .d pos n => let r := textAt t pos; if r.2 then textReplace r.1 n [] else r
  | .c pos n str => let r := textAt t pos; if r.2 then textReplace r.1 n str else r

/-- The text after a call, and whether the call ends without an error. -/
def textRun (t : Text) : Op → Text × Bool
  | .move pos whence => textMove t pos whence
  | .insert str => textReplace t 0 str
  | .delete n => textReplace t n []
  | .replace n str => textReplace t n str
  | .clear => (⟨[], 0⟩, true)
  | .edit cmd => textEdit t cmd

/-- The same with a gap buffer. -/
def run (g : GB) : Op → GB × Bool
  | .move pos whence => move g pos whence
  | .insert str => (insert g str, true)
  | .delete n => delete g n
  | .replace n str => replace g n str
  | .clear => (clear g, true)
  | .edit cmd => ((edit g cmd).1, (edit g cmd).2.isSome)

/-- The results of a history: the last state, and which of the calls ended in an error. -/
def runs {S : Type} (f : S → Op → S × Bool) : S → List Op → S × List Bool
  | s, [] => (s, [])
  | s, o :: ops => let r := f s o; let q := runs f r.1 ops; (q.1, r.2 :: q.2)

/-- What is seen of a gap buffer: the characters before the gap and after it, and the position of the gap. -/
def text (g : GB) : Text := ⟨g.buf.take g.gapStart ++ g.buf.drop g.gapEnd, g.gapStart⟩

/-- The buffers that are made. -/
inductive Made : GB → Prop where
  | make (capacity : Nat) : Made (make capacity)
  | fromString (str : List Nat) (pos : Int) (whence : Whence) (g : GB) (h : fromString str pos whence = some g) : Made g
  | step (g : GB) (op : Op) (h : Made g) : Made (run g op).1

end Gauche.GapBuffer

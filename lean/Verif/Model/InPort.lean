import Verif.Model.Utf8
/-
Input from ports: src/port.c and src/portapi.c.

src/portapi.c is one program for all kinds of ports; what differs by kind is behind `Raw`: the bytes below the one-character pushback.
`Buf` is a buffered port, `strRaw` an input string port.  Locking, the linked output port, the byte count, positions and virtual ports
are left out.  `none` stands for undefined behaviour (a write outside the buffer).
-/
namespace Gauche.InPort

open Utf8

inductive Mode where
  | full
  | line
  | none
deriving DecidableEq

/-- Who fills the buffer: src/port.c:1471-1493 `file_filler` stores at `end`, ext/vport/vport.c:622-635 `bport_fill` at the start of the
buffer. -/
inductive Filler where
  | file
  | vport
deriving DecidableEq

/-- A buffered port.  `src` are the bytes not yet read from the file; a call of the filler gets as many of them as `chunk`, indexed by the
number of the call, says, but at least one and at most the number asked for; at the end of `src` it gets none.  `ready` says whether the
file would block. -/
structure Buf where
  mem : List Nat
  cur : Nat
  fin : Nat
  size : Nat
  mode : Mode
  filler : Filler
  src : List Nat
  chunk : Nat → Nat
  ready : Nat → Bool
  calls : Nat

/-- memcpy of `data` to offset `off` of the buffer. -/
def store (m : List Nat) (off : Nat) (data : List Nat) : Option (List Nat) :=
  if off + data.length ≤ m.length then some (m.take off ++ data ++ m.drop (off + data.length)) else none

/-- src/port.c:1471-1493 `file_filler` and ext/vport/vport.c:622-635 `bport_fill`, without errors. -/
def callFiller (b : Buf) (cnt : Nat) : Option (Nat × Buf) :=
  let n := min (max 1 (b.chunk b.calls)) (min cnt b.src.length)
  match store b.mem (if b.filler = .file then b.fin else 0) (b.src.take n) with
  | none => none
  | some m => some (n, { b with mem := m, src := b.src.drop n, calls := b.calls + 1 })

/-- The loop of src/port.c:1180-1205 `bufport_fill`. -/
def fillLoop (toread min : Nat) (allowLess : Bool) : Nat → Nat → Buf → Option (Nat × Buf)
  | 0, nread, b => some (nread, b)
  | fuel + 1, nread, b =>
    match callFiller b (toread - nread) with
    | none => none
    | some (r, b) =>
      if r = 0 then some (nread, b)
      else
        let b := { b with fin := b.fin + r }
        if !allowLess && nread + r < min then fillLoop toread min allowLess fuel (nread + r) b else some (nread + r, b)

/-- src/port.c:1180-1205 `bufport_fill`. -/
def fill (b : Buf) (min : Nat) (allowLess : Bool) : Option (Nat × Buf) :=
  let cursiz := b.fin - b.cur
  let b := if cursiz > 0 then
      { b with mem := (b.mem.drop b.cur).take cursiz ++ b.mem.drop cursiz, cur := 0, fin := cursiz }
    else { b with cur := 0, fin := 0 }
  let room := b.size - b.fin
  let min := if min = 0 then room else min
  let toread := if b.mode ≠ .none then room else min
  fillLoop toread min allowLess (min + 1) 0 b

/-- The loop of src/port.c:1218-1259 `bufport_read`; `got` is what has been copied so far. -/
def readLoop : Nat → Buf → Nat → List Nat → Option (List Nat × Buf)
  | 0, b, _, got => some (got, b)
  | fuel + 1, b, siz, got =>
    if siz = 0 then some (got, b)
    else if got ≠ [] ∧ b.mode ≠ .full ∧ b.ready b.calls = false then some (got, b)
    else
      match fill b (min siz b.size) true with
      | none => none
      | some (r, b) =>
        if r = 0 then some (got, b)
        else if r ≥ siz then some (got ++ (b.mem.drop b.cur).take siz, { b with cur := b.cur + siz })
        else readLoop fuel { b with cur := b.cur + r } (siz - r) (got ++ (b.mem.drop b.cur).take r)

/-- src/port.c:1218-1259 `bufport_read`. -/
def readBuf (b : Buf) (siz : Nat) : Option (List Nat × Buf) :=
  let req := min siz (b.fin - b.cur)
  readLoop (siz + 1) { b with cur := b.cur + req } (siz - req) ((b.mem.drop b.cur).take req)

/-- What reading a character below the pushback can give: the end; a character (`none` if the bytes are not one) with the number of bytes
after the first; the end in the middle of a character, with what is left in the scratch area. -/
inductive CRes where
  | eof
  | got (c : Option Nat) (follows : Nat)
  | cut (scratch : List Nat)

/-- What differs between the kinds of ports in src/portapi.c. -/
structure Raw (S : Type) where
  getb : S → Option (Option Nat × S)
  getc : S → Option (CRes × S)
  getz : S → Nat → Option (Option (List Nat) × S)

/-- The bytes from a pointer. -/
def memOf (l : List Nat) : Mem := fun i => l.getD i 0

/-- The case SCM_PORT_FILE of src/portapi.c:580-636 `Scm_Getb`. -/
def bufGetb (b : Buf) : Option (Option Nat × Buf) :=
  if b.cur ≥ b.fin then
    match fill b 1 false with
    | none => none
    | some (r, b) => if r = 0 then some (none, b) else some (some (b.mem.getD b.cur 0), { b with cur := b.cur + 1 })
  else some (some (b.mem.getD b.cur 0), { b with cur := b.cur + 1 })

/-- The loop in the case SCM_PORT_FILE of src/portapi.c:683-812 `Scm_Getc`: `rest` more bytes are needed; `none` is the end of the file. -/
def bufRest : Nat → Buf → Nat → List Nat → Option (Option (List Nat) × List Nat × Buf)
  | 0, b, _, scr => some (some scr, scr, b)
  | fuel + 1, b, rest, scr =>
    match fill b rest false with
    | none => none
    | some (filled, b) =>
      if filled = 0 then some (none, scr, b)
      else if filled ≥ rest then
        some (some (scr ++ (b.mem.drop b.cur).take rest), scr, { b with cur := b.cur + rest })
      else bufRest fuel { b with cur := b.fin } (rest - filled) (scr ++ (b.mem.drop b.cur).take filled)

/-- The case SCM_PORT_FILE of src/portapi.c:683-812 `Scm_Getc`, once the buffer is not empty. -/
def bufGetcFrom (b : Buf) : Option (CRes × Buf) :=
  let first := b.mem.getD b.cur 0
  let b := { b with cur := b.cur + 1 }
  let nb := nfollows first
  if nb > 0 then
    if b.cur + nb > b.fin then
      let scr := (b.mem.drop (b.cur - 1)).take (b.fin - b.cur + 1)
      match bufRest (nb + 1) { b with cur := b.fin } (nb + 1 - scr.length) scr with
      | none => none
      | some (none, scr, b) => some (.cut scr, b)
      | some (some scr, _, b) => some (.got (charGet (memOf scr)) nb, b)
    else some (.got (charGet (memOf (b.mem.drop (b.cur - 1)))) nb, { b with cur := b.cur + nb })
  else some (.got (some first) 0, b)

/-- The case SCM_PORT_FILE of src/portapi.c:683-812 `Scm_Getc`. -/
def bufGetc (b : Buf) : Option (CRes × Buf) :=
  if b.cur ≥ b.fin then
    match fill b 1 false with
    | none => none
    | some (r, b) => if r = 0 then some (.eof, b) else bufGetcFrom b
  else bufGetcFrom b

/-- The case SCM_PORT_FILE of src/portapi.c:865-918 `Scm_Getz`: `none` is EOF. -/
def bufGetz (b : Buf) (n : Nat) : Option (Option (List Nat) × Buf) :=
  match readBuf b n with
  | none => none
  | some (got, b) => if got.length = 0 ∧ n ≠ 0 then some (none, b) else some (some got, b)

def bufRaw : Raw Buf := { getb := bufGetb, getc := bufGetc, getz := bufGetz }

/-- The cases SCM_PORT_ISTR of src/portapi.c:580-636 `Scm_Getb`, src/portapi.c:683-812 `Scm_Getc` and src/portapi.c:865-918 `Scm_Getz`; the state is the
rest of the string. -/
def strRaw : Raw (List Nat) where
  getb := fun l => match l with
    | [] => some (none, [])
    | b :: l => some (some b, l)
  getc := fun l => match l with
    | [] => some (.eof, [])
    | first :: l' =>
      let nb := nfollows first
      if nb > 0 then
        if nb > l'.length then some (.cut [], l')
        else some (.got (charGet (memOf l)) nb, l'.drop nb)
      else some (.got (some first) 0, l')
  getz := fun l n => if n ≥ l.length then (if l = [] then some (none, []) else some (some l, [])) else some (some (l.take n), l.drop n)

/-- The `ungotten` field. -/
inductive Ungotten where
  | none
  | eof
  | char (c : Nat)
deriving DecidableEq

/-- The part of the port all kinds share: src/gauche/priv/portP.h:59-111 `ScmPortImplRec`. `scratch` are the first `scrcnt` bytes. -/
structure Port (S : Type) where
  src : S
  scratch : List Nat
  ungotten : Ungotten
  line : Nat

variable {S : Type}

/-- src/portapi.c:560-566 `getb_scratch`, src/portapi.c:569-575 `getb_ungotten` and src/portapi.c:580-636 `Scm_Getb`: `none` is EOF. -/
def getb (R : Raw S) (p : Port S) : Option (Option Nat × Port S) :=
  match p.scratch with
  | b :: t => some (some b, { p with scratch := t })
  | [] =>
    match p.ungotten with
    | .eof => some (none, { p with ungotten := .none })
    | .char c =>
      match charPut c with
      | [] => none
      | b :: t => some (some b, { p with scratch := t, ungotten := .none })
    | .none =>
      match R.getb p.src with
      | none => none
      | some (none, s) => some (none, { p with src := s })
      | some (some b, s) => some (some b, { p with src := s, line := if b = 10 then p.line + 1 else p.line })

/-- The loop of src/portapi.c:645-679 `getc_scratch`: `n` more bytes, or EOF. -/
def getMore (R : Raw S) : Nat → Port S → Option (Option (List Nat) × Port S)
  | 0, p => some (some [], p)
  | n + 1, p =>
    match getb R p with
    | none => none
    | some (none, p) => some (none, p)
    | some (some b, p) =>
      match getMore R n p with
      | none => none
      | some (none, p) => some (none, p)
      | some (some t, p) => some (some (b :: t), p)

/-- The result of reading a character: `bad` is SCM_CHAR_INVALID, `error` the error for the end in the middle of a character. -/
inductive Chr where
  | eof
  | char (c : Nat)
  | bad
  | error
deriving DecidableEq

/-- src/portapi.c:645-679 `getc_scratch`. -/
def getcScratch (R : Raw S) (p : Port S) : Option (Chr × Port S) :=
  let nb := nfollows (p.scratch.headD 0)
  match getMore R (nb + 1 - p.scratch.length) { p with scratch := [] } with
  | none => none
  | some (none, p) => some (.error, p)
  | some (some more, p') =>
    let tbuf := p.scratch ++ more
    match charGet (memOf tbuf) with
    | some c => some (.char c, p')
    | none => some (.char (tbuf.headD 0), { p' with scratch := (tbuf.drop 1).take nb })

/-- src/portapi.c:683-812 `Scm_Getc`. -/
def getc (R : Raw S) (p : Port S) : Option (Chr × Port S) :=
  if p.scratch ≠ [] then getcScratch R p
  else
    match p.ungotten with
    | .eof => some (.eof, { p with ungotten := .none })
    | .char c => some (.char c, { p with ungotten := .none })
    | .none =>
      match R.getc p.src with
      | none => none
      | some (.eof, s) => some (.eof, { p with src := s })
      | some (.cut scr, s) => some (.error, { p with src := s, scratch := scr })
      | some (.got none _, s) => some (.bad, { p with src := s })
      | some (.got (some c) nb, s) =>
        some (.char c, { p with src := s, line := if nb = 0 ∧ c = 10 then p.line + 1 else p.line })

/-- src/portapi.c:419-443 `Scm_Peekc`. -/
def peekc (R : Raw S) (p : Port S) : Option (Chr × Port S) :=
  match p.ungotten with
  | .eof => some (.eof, p)
  | .char c => some (.char c, p)
  | .none =>
    match getc R p with
    | none => none
    | some (.error, p) => some (.error, p)
    | some (.eof, p) => some (.eof, { p with ungotten := .eof })
    | some (.char c, p) => some (.char c, { p with ungotten := .char c })
    | some (.bad, p) => some (.bad, { p with ungotten := .none })

/-- src/portapi.c:489-522 `Scm_Peekb`. -/
def peekb (R : Raw S) (p : Port S) : Option (Option Nat × Port S) :=
  match p.scratch with
  | b :: _ => some (some b, p)
  | [] =>
    match getb R p with
    | none => none
    | some (none, p) => some (none, { p with ungotten := .eof })
    | some (some b, p) => some (some b, { p with scratch := b :: p.scratch })

/-- src/portapi.c:470-486 `Scm_Ungetb`: `none` is the error. -/
def ungetb (p : Port S) (b : Nat) : Option (Port S) :=
  if p.ungotten ≠ .none ∨ p.scratch.length ≥ 6 then none else some { p with scratch := p.scratch ++ [b] }

/-- The bytes SCM_CHAR_PUT makes of the ungotten character; EOF is -1. -/
def ungottenBytes : Ungotten → List Nat
  | .none => []
  | .eof => [255]
  | .char c => charPut c

/-- src/portapi.c:825-844 `getz_scratch` and src/portapi.c:865-918 `Scm_Getz`: `none` is EOF.  The recursion is at most two deep. -/
def getz (R : Raw S) : Nat → Port S → Nat → Option (Option (List Nat) × Port S)
  | 0, _, _ => none
  | fuel + 1, p, n =>
    if p.scratch ≠ [] ∨ p.ungotten ≠ .none then
      let scr := if p.scratch ≠ [] then p.scratch else ungottenBytes p.ungotten
      let ung := if p.scratch ≠ [] then p.ungotten else .none
      if scr.length ≥ n then some (some (scr.take n), { p with scratch := scr.drop n, ungotten := ung })
      else
        match getz R fuel { p with scratch := [], ungotten := ung } (n - scr.length) with
        | none => none
        | some (none, p) => some (some (scr.take (scr.length - 1)), p)
        | some (some more, p) => some (some (scr ++ more), p)
    else
      match R.getz p.src n with
      | none => none
      | some (r, s) => some (r, { p with src := s })

/-- What reading a line gives; the error is that of a full pushback buffer. -/
inductive Line where
  | eof
  | line (l : List Nat)
  | error
deriving DecidableEq

/-- The loop of src/portapi.c:943-965 `readline_body`; `b1` is the byte read last. -/
def lineLoop (R : Raw S) : Nat → Port S → Option Nat → List Nat → Option (Line × Port S)
  | 0, _, _, _ => none
  | fuel + 1, p, b1, ds =>
    match b1 with
    | none => some (.line ds, p)
    | some b1 =>
      if b1 = 10 then some (.line ds, { p with line := p.line + 1 })
      else if b1 = 13 then
        match getb R p with
        | none => none
        | some (none, p) => some (.line ds, { p with line := p.line + 1 })
        | some (some b2, p) =>
          if b2 = 10 then some (.line ds, { p with line := p.line + 1 })
          else
            match ungetb p b2 with
            | none => some (.error, p)
            | some p => some (.line ds, { p with line := p.line + 1 })
      else
        match getb R p with
        | none => none
        | some (b, p) => lineLoop R fuel p b (ds ++ [b1])

/-- src/portapi.c:943-965 `readline_body`.  The fuel bounds the length of the line. -/
def readLine (R : Raw S) (fuel : Nat) (p : Port S) : Option (Line × Port S) :=
  match getb R p with
  | none => none
  | some (none, p) => some (.eof, p)
  | some (some b, p) => lineLoop R fuel p (some b) []

/-- `read-string` (src/libio.scm:621-632): the characters read before the end, an error ends it. -/
def readString (R : Raw S) : Nat → Port S → Option (List Chr × Port S)
  | 0, p => some ([], p)
  | n + 1, p =>
    match getc R p with
    | none => none
    | some (.eof, p) => some ([], p)
    | some (.error, p) => some ([.error], p)
    | some (c, p) =>
      match readString R n p with
      | none => none
      | some (cs, p) => some (c :: cs, p)

inductive Op where
  | readByte
  | peekByte
  | readChar
  | peekChar
  | readLine
  | readBlock (n : Nat)
  | readString (n : Nat)
deriving DecidableEq

inductive Res where
  | byte (b : Option Nat)
  | char (c : Chr)
  | line (l : Line)
  | block (l : Option (List Nat))
  | string (l : List Chr)
deriving DecidableEq

def exec (R : Raw S) (fuel : Nat) (p : Port S) : Op → Option (Res × Port S)
  | .readByte => (getb R p).map fun x => (.byte x.1, x.2)
  | .peekByte => (peekb R p).map fun x => (.byte x.1, x.2)
  | .readChar => (getc R p).map fun x => (.char x.1, x.2)
  | .peekChar => (peekc R p).map fun x => (.char x.1, x.2)
  | .readLine => (readLine R fuel p).map fun x => (.line x.1, x.2)
  | .readBlock n => (getz R 3 p n).map fun x => (.block x.1, x.2)
  | .readString n => (readString R n p).map fun x => (.string x.1, x.2)

/-- A program of reads, with the line number after each; `fuel` bounds the length of a line. -/
def run (R : Raw S) (fuel : Nat) (p : Port S) : List Op → Option (List (Res × Nat) × Port S)
  | [] => some ([], p)
  | op :: ops =>
    match exec R fuel p op with
    | none => none
    | some (r, p') =>
      match run R fuel p' ops with
      | none => none
      | some (rs, q) => some ((r, p'.line) :: rs, q)

/-- A new port. -/
def make (s : S) : Port S := { src := s, scratch := [], ungotten := .none, line := 1 }

/-- A new buffered port: src/port.c:1056-1114 `Scm_MakeBufferedPortFull`. -/
def makeBuf (size : Nat) (mode : Mode) (filler : Filler) (chunk : Nat → Nat) (ready : Nat → Bool) (src : List Nat) : Buf :=
  { mem := List.replicate size 0, cur := 0, fin := 0, size := size, mode := mode, filler := filler, src := src, chunk := chunk, ready := ready,
    calls := 0 }

end Gauche.InPort

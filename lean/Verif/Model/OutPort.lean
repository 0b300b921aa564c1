import Verif.Model.Utf8
/-
Output to a buffered (file) port: src/port.c and src/portapi.c.

The buffer is a memory of `size` bytes, `cur` the offset of `current`; `end` is always `size` (src/port.c:1056-1114
`Scm_MakeBufferedPortFull`).  What a call of write(2) does is up to `write`, indexed by the number of the call: `none` an error, `some n`
that `n` bytes (at least one, at most those given) are written.  Locking, the column count, string ports and virtual ports are left out.
-/
namespace Gauche.OutPort

open Utf8

inductive Mode where
  | full
  | line
  | none
deriving DecidableEq

/-- The port and, in `sink`, what has been written to the file; `error` is set by a failing write. -/
structure Port where
  mem : List Nat
  cur : Nat
  size : Nat
  mode : Mode
  flushed : Bool
  closed : Bool
  error : Bool
  write : Nat → Option Nat
  calls : Nat
  sink : List Nat

/-- How a procedure ends: normally, with the error of write(2), with the error for a closed port, in a failing assertion (the process
ends), in a write outside the buffer, in an endless loop. -/
inductive Outcome where
  | ok
  | ioError
  | closedError
  | assertion
  | overflow
  | hang
deriving DecidableEq

/-- memcpy of `data` to offset `off` of the buffer. -/
def store (m : List Nat) (off : Nat) (data : List Nat) : Option (List Nat) :=
  if off + data.length ≤ m.length then some (m.take off ++ data ++ m.drop (off + data.length)) else none

/-- The loop of src/port.c:1495-1526 `file_flusher`: the bytes written, or an error. -/
def flusherLoop (cnt : Nat) (force : Bool) (datsiz : Nat) : Nat → Nat → Port → Option Nat × Port
  | 0, nwrote, p => (some nwrote, p)
  | fuel + 1, nwrote, p =>
    if (!force && nwrote == 0) || (force && nwrote < cnt) then
      match p.write p.calls with
      | none => (none, { p with calls := p.calls + 1, error := true })
      | some n =>
        let r := min (max 1 n) (datsiz - nwrote)
        flusherLoop cnt force datsiz fuel (nwrote + r)
          { p with calls := p.calls + 1, sink := p.sink ++ (p.mem.drop nwrote).take r }
    else (some nwrote, p)

/-- src/port.c:1495-1526 `file_flusher`. -/
def fileFlusher (p : Port) (cnt : Nat) (force : Bool) : Option Nat × Port :=
  flusherLoop cnt force p.cur (p.cur + 1) 0 p

/-- src/port.c:1131-1153 `bufport_flush`: `cnt = 0` stands for all counts `<= 0`. -/
def flush (p : Port) (cnt : Nat) (force : Bool) : Outcome × Port :=
  let cursiz := p.cur
  if cursiz = 0 then (.ok, p)
  else
    let cnt := if cnt = 0 then cursiz else cnt
    match fileFlusher p cnt force with
    | (none, p) => (.ioError, p)
    | (some nwrote, p) =>
      if nwrote < cursiz then
        (.ok, { p with mem := (p.mem.drop nwrote).take (cursiz - nwrote) ++ p.mem.drop (cursiz - nwrote), cur := p.cur - nwrote })
      else (.ok, { p with cur := 0 })

/-- src/port.c:1157-1173 `bufport_write`. -/
def writeLoop : Nat → Port → List Nat → Outcome × Port
  | 0, p, _ => (.hang, p)
  | fuel + 1, p, src =>
    let room := p.size - p.cur
    if room ≥ src.length then
      match store p.mem p.cur src with
      | none => (.overflow, p)
      | some m => (.ok, { p with mem := m, cur := p.cur + src.length })
    else
      match store p.mem p.cur (src.take room) with
      | none => (.overflow, p)
      | some m =>
        match flush { p with mem := m, cur := p.cur + room } 0 false with
        | (.ok, p) => writeLoop fuel p (src.drop room)
        | (e, p) => (e, p)

def write (p : Port) (src : List Nat) : Outcome × Port := writeLoop (src.length + 2) p src

/-- src/portapi.c:141-182 `Scm_Putb`. -/
def putb (p : Port) (b : Nat) : Outcome × Port :=
  if p.closed then (.closedError, p)
  else
    let p := { p with flushed := false }
    match (if p.cur ≥ p.size then flush p p.cur false else (.ok, p)) with
    | (.ok, p) =>
      if p.cur < p.size then
        match store p.mem p.cur [b] with
        | none => (.overflow, p)
        | some m =>
          let p := { p with mem := m, cur := p.cur + 1 }
          if p.mode = .none then flush p 1 false else (.ok, p)
      else (.assertion, p)
    | (e, p) => (e, p)

/-- src/portapi.c:189-238 `Scm_Putc`. -/
def putc (p : Port) (c : Nat) : Outcome × Port :=
  if p.closed then (.closedError, p)
  else
    let p := { p with flushed := false }
    let nb := nbytes c
    match (if p.cur + nb > p.size then flush p p.cur false else (.ok, p)) with
    | (.ok, p) =>
      if p.cur + nb ≤ p.size then
        match store p.mem p.cur (charPut c) with
        | none => (.overflow, p)
        | some m =>
          let p := { p with mem := m, cur := p.cur + nb }
          if p.mode = .line then (if c = 10 then flush p nb false else (.ok, p))
          else if p.mode = .none then flush p nb false
          else (.ok, p)
      else (.assertion, p)
    | (e, p) => (e, p)

/-- src/portapi.c:303-353 `Scm_Putz` (and src/portapi.c:245-296 `Scm_Puts`, which differs only in the column count).  The count given to the flush
after a newline is `cp - current`, which is negative. -/
def putz (p : Port) (s : List Nat) : Outcome × Port :=
  if p.closed then (.closedError, p)
  else
    match write { p with flushed := false } s with
    | (.ok, p) =>
      if p.mode = .line then (if 10 ∈ p.mem.take p.cur then flush p 0 false else (.ok, p))
      else if p.mode = .none then flush p 0 true
      else (.ok, p)
    | (e, p) => (e, p)

/-- src/portapi.c:360-392 `Scm_Flush`. -/
def flushPort (p : Port) : Outcome × Port :=
  if p.flushed then (.ok, p)
  else if p.closed then (.closedError, p)
  else
    match flush p 0 true with
    | (.ok, p) => (.ok, { p with flushed := true })
    | (e, p) => (e, p)

/-- src/port.c:215-248 `port_cleanup`, called by close-port; the file is not closed again. -/
def close (p : Port) : Outcome × Port :=
  if p.closed then (.ok, p)
  else if p.error then (.ok, { p with closed := true })
  else
    match flush p 0 true with
    | (.ok, p) => (.ok, { p with closed := true })
    | (e, p) => (e, p)

/-- What src/port.c:1363-1399 `Scm_FlushAllPorts` does to the port. -/
def flushAll (p : Port) : Outcome × Port := if p.error then (.ok, p) else flush p 0 true

inductive Op where
  | byte (b : Nat)
  | char (c : Nat)
  | bytes (s : List Nat)
  | flush
  | close
  | flushAll

def exec (p : Port) : Op → Outcome × Port
  | .byte b => putb p b
  | .char c => putc p c
  | .bytes s => putz p s
  | .flush => flushPort p
  | .close => close p
  | .flushAll => flushAll p

/-- A program; an error does not end it, the end of the process does. -/
def run (p : Port) : List Op → List Outcome × Port
  | [] => ([], p)
  | op :: ops =>
    match exec p op with
    | (.ok, p) => ((run p ops).1.cons .ok, (run p ops).2)
    | (.ioError, p) => ((run p ops).1.cons .ioError, (run p ops).2)
    | (.closedError, p) => ((run p ops).1.cons .closedError, (run p ops).2)
    | (e, p) => ([e], p)

/-- A new port: src/port.c:1056-1114 `Scm_MakeBufferedPortFull`. -/
def make (size : Nat) (mode : Mode) (write : Nat → Option Nat) : Port :=
  { mem := List.replicate size 0, cur := 0, size := size, mode := mode, flushed := false, closed := false, error := false, write := write, calls := 0,
    sink := [] }

end Gauche.OutPort

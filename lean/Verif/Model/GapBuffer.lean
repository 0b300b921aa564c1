/-! Model of text.gap-buffer (libsrc/text/gap-buffer.scm).

The buffer is a list of code points.  An operation that changes the buffer gives the buffer after it and whether it ended without an error.
Contents are strings; the case of a single character (lines 208-212) is that of a string of one character. -/
namespace Gauche.GapBuffer

/-- `<gap-buffer>` (libsrc/text/gap-buffer.scm:57-60). -/
structure GB where
  buf : List Nat
  gapStart : Nat
  gapEnd : Nat

/-- `%gbuf-size` (libsrc/text/gap-buffer.scm:62). -/
def size (g : GB) : Nat := g.buf.length

/-- `%gbuf-content-length` (libsrc/text/gap-buffer.scm:63-65). -/
def contentLength (g : GB) : Nat := size g - (g.gapEnd - g.gapStart)

/-- `%gbuf-index` (libsrc/text/gap-buffer.scm:66-68). -/
def index (g : GB) (i : Nat) : Nat := if i < g.gapStart then i else i + (g.gapEnd - g.gapStart)

/-- `u32vector-copy!` and `string->u32vector!` of a part of a vector, whose start and end are in range (ext/uvector/uvector.scm; used in libsrc/text/gap-buffer.scm:184-194, 208-212, 222-223). -/
def vcopy (t : List Nat) (start : Nat) (seg : List Nat) : List Nat := t.take start ++ seg ++ t.drop (start + seg.length)

/-- The part of a vector from `a` to `b`, as `u32vector-copy!` takes it (libsrc/text/gap-buffer.scm:184-194). -/
def slice (t : List Nat) (a b : Nat) : List Nat := (t.drop a).take (b - a)

/-- The symbols `beginning`, `current` and `end` (libsrc/text/gap-buffer.scm:176-181). -/
inductive Whence where
  | beginning
  | current
  | fromEnd

/-- `gap-buffer-ref` without a fallback; `none` is an error (libsrc/text/gap-buffer.scm:94-104). -/
def ref (g : GB) (i : Int) : Option Nat :=
  if i < 0 then none
  else if i < g.gapStart then g.buf[i.toNat]?
  else if i < contentLength g then g.buf[i.toNat + (g.gapEnd - g.gapStart)]?
  else none

/-- `integer-length` of a number that is not negative, as used in libsrc/text/gap-buffer.scm:142, 157. -/
def integerLength (n : Nat) : Nat := if n = 0 then 0 else n.log2 + 1

/-- `make-gap-buffer` with a positive capacity (libsrc/text/gap-buffer.scm:141-146). -/
def make (capacity : Nat) : GB :=
  let len := 2 ^ integerLength (capacity - 1)
  ⟨List.replicate len 0, 0, len⟩

/-- `string->gap-buffer` of a whole string, with `%calculate-gap-position` (libsrc/text/gap-buffer.scm:128-138, 149-165); `whence` is not
`current`, and `none` is an error. -/
def fromString (str : List Nat) (pos : Int) (whence : Whence) : Option GB :=
  let bufsiz := 2 ^ integerLength str.length
  let gapStart : Int := match whence with | .fromEnd => str.length - pos | _ => pos
  if 0 ≤ gapStart ∧ gapStart ≤ str.length then
    let gs := gapStart.toNat
    let ge := bufsiz - (str.length - gs)
    some ⟨vcopy (vcopy (List.replicate bufsiz 0) 0 (slice str 0 gs)) ge (str.drop gs), gs, ge⟩
  else none

/-- The position in `gap-buffer-move!` (libsrc/text/gap-buffer.scm:176-181). -/
def absPos (g : GB) (pos : Int) : Whence → Int
  | .beginning => pos
  | .current => pos + g.gapStart
  | .fromEnd => pos + contentLength g

/-- `gap-buffer-move!`; `u32vector-copy!` raises an error when the part is out of range (libsrc/text/gap-buffer.scm:175-195). -/
def move (g : GB) (pos : Int) (whence : Whence) : GB × Bool :=
  let abspos := absPos g pos whence
  if abspos < g.gapStart then
    if abspos < 0 then (g, false)
    else
      let p := abspos.toNat
      let newend := g.gapEnd - (g.gapStart - p)
      (⟨vcopy g.buf newend (slice g.buf p g.gapStart), p, newend⟩, true)
  else if abspos > g.gapStart then
    let p := abspos.toNat
    let newend := g.gapEnd + (p - g.gapStart)
    if newend > size g then (g, false)
    else (⟨vcopy g.buf g.gapStart (slice g.buf g.gapEnd newend), p, newend⟩, true)
  else (g, true)

/-- `%gap-buffer-extend!` (libsrc/text/gap-buffer.scm:215-225). -/
def extend (g : GB) : GB :=
  let oldlen := g.buf.length
  let newend := g.gapEnd + oldlen
  ⟨vcopy (vcopy (List.replicate (2 * oldlen) 0) 0 (slice g.buf 0 g.gapStart)) newend (g.buf.drop g.gapEnd), g.gapStart, newend⟩

/-- The loop of `gap-buffer-insert!` (libsrc/text/gap-buffer.scm:199-213); the first argument is at least the number of extensions that are needed. -/
def insertLoop : Nat → GB → List Nat → GB
  | 0, g, content => ⟨vcopy g.buf g.gapStart content, g.gapStart + content.length, g.gapEnd⟩
  | fuel + 1, g, content =>
    if g.gapEnd - g.gapStart < content.length then insertLoop fuel (extend g) content
    else ⟨vcopy g.buf g.gapStart content, g.gapStart + content.length, g.gapEnd⟩

/-- `gap-buffer-insert!` (libsrc/text/gap-buffer.scm:199-213). -/
def insert (g : GB) (content : List Nat) : GB := insertLoop content.length g content

/-- `gap-buffer-delete!`; a new end below 0 is not modelled (libsrc/text/gap-buffer.scm:228-233). -/
def delete (g : GB) (n : Int) : GB × Bool :=
  let newend : Int := g.gapEnd + n
  if (size g : Int) < newend then (g, false) else (⟨g.buf, g.gapStart, newend.toNat⟩, true)

/-- `gap-buffer-clear!` (libsrc/text/gap-buffer.scm:236-238). -/
def clear (g : GB) : GB := ⟨g.buf, 0, size g⟩

/-- `gap-buffer-replace!` (libsrc/text/gap-buffer.scm:243-245). -/
def replace (g : GB) (n : Int) (content : List Nat) : GB × Bool :=
  let r := delete g n
  if r.2 then (insert r.1 content, true) else r

/-- The generator of `gap-buffer->generator`, run to its end (libsrc/text/gap-buffer.scm:286-307). -/
def genLoop (g : GB) : Nat → Nat → List Nat
  | 0, _ => []
  | count + 1, i =>
    if i < g.gapStart then g.buf.getD i 0 :: genLoop g count (i + 1)
    else
      let x := i + (g.gapEnd - g.gapStart)
      if x < size g then g.buf.getD x 0 :: genLoop g count (i + 1) else []

/-- `gap-buffer->string`; `none` for the end is the default, and a result `none` is an error (libsrc/text/gap-buffer.scm:286-312). -/
def toString (g : GB) (start : Nat) (stop : Option Nat) : Option (List Nat) :=
  let last := match stop with | some e => min (contentLength g) e | none => contentLength g
  if last < start then none else some (genLoop g (last - start) start)

/-- The loop over the needle in `gap-buffer-contains` and `gap-buffer-looking-at?`; an index out of range, which would be an error, is taken for
a difference (libsrc/text/gap-buffer.scm:333-341, 356-363). -/
def matchFrom (g : GB) : List Nat → Nat → Bool
  | [], _ => true
  | c :: cs, j => if g.buf[j]? = some c then matchFrom g cs (if j + 1 = g.gapStart then g.gapEnd else j + 1) else false

/-- The outer loop of `gap-buffer-contains` (libsrc/text/gap-buffer.scm:331-341); the first argument is the number of positions that are left. -/
def searchLoop (g : GB) (needle : List Nat) : Nat → Nat → Option Nat
  | 0, _ => none
  | n + 1, i => if matchFrom g needle (index g i) then some i else searchLoop g needle n (i + 1)

/-- `gap-buffer-contains` with a whole needle (libsrc/text/gap-buffer.scm:317-341). -/
def contains (g : GB) (needle : List Nat) (gstart : Nat) (gend : Option Nat) : Option Nat :=
  let stop := gend.getD (contentLength g)
  if stop < needle.length then none else searchLoop g needle (stop - needle.length + 1 - gstart) gstart

/-- `gap-buffer-looking-at?` (libsrc/text/gap-buffer.scm:347-363). -/
def lookingAt (g : GB) (needle : List Nat) (point : Option Nat) : Bool :=
  let p := point.getD g.gapStart
  if (p : Int) ≤ (contentLength g : Int) - needle.length then matchFrom g needle (index g p) else false

/-- The commands of `gap-buffer-edit!` (libsrc/text/gap-buffer.scm:249-260); no position is the current one. -/
inductive Cmd where
  | i (pos : Option Int) (str : List Nat)
  | d (pos : Option Int) (len : Nat)
  | c (pos : Option Int) (len : Nat) (str : List Nat)

/-- `mov!` in `gap-buffer-edit!` (libsrc/text/gap-buffer.scm:262-265). -/
def mov (g : GB) (pos : Option Int) : GB × Bool :=
  match pos with
  | none => (g, true)
  | some p => if p = g.gapStart then (g, true) else move g p .beginning

/-- `gap-buffer-edit!`, with the command that undoes the change; `none` is an error (libsrc/text/gap-buffer.scm:261-282). -/
def edit (g : GB) : Cmd → GB × Option Cmd
  | .i pos str =>
    let r := mov g pos
    if r.2 then (insert r.1 str, some (.d (some r.1.gapStart) str.length)) else (r.1, none)
  | .d pos len =>
    let r := mov g pos
    if r.2 then
      match toString r.1 r.1.gapStart (some (r.1.gapStart + len)) with
      | none => (r.1, none)
      | some s =>
        let q := delete r.1 len
        (q.1, if q.2 then some (.i (some r.1.gapStart) s) else none)
    else (r.1, none)
  | .c pos len str =>
    let r := mov g pos
    if r.2 then
      match toString r.1 r.1.gapStart (some (r.1.gapStart + len)) with
      | none => (r.1, none)
      | some s =>
        let q := replace r.1 len str
        (q.1, if q.2 then some (.c (some r.1.gapStart) str.length s) else none)
    else (r.1, none)

end Gauche.GapBuffer

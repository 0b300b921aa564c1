/-!
# UTF-8 characters

Model of the UTF-8 character primitives of Gauche: the macros of `src/gauche/char_utf_8.h` and the
functions of `src/char.c` they call.

* A byte is a natural number; every statement about memory carries the hypothesis that bytes are below
  256, and `putc` is proved to write such bytes only.
* `ScmChar` is a C `long`; the model uses natural numbers, i.e. negative values (which are never
  characters) are not represented.  The result `SCM_CHAR_INVALID` is `none`.
* A `const unsigned char *` is a function from the offset to the byte there, so that a read beyond the
  end of a string is expressible.
-/

namespace Gauche.Utf8

/-- Memory as seen from a pointer: offset to byte. -/
abbrev Mem := Nat → Nat

/-- src/char.c:93-110 `Scm_CharSizeTable`.  The table, transcribed (run lengths instead of 256 literals). -/
def sizeTable : List Nat :=
  List.replicate 0xc0 0 ++ List.replicate 0x20 1 ++ List.replicate 0x10 2 ++
    List.replicate 8 3 ++ List.replicate 4 4 ++ List.replicate 2 5 ++ List.replicate 2 0

/-- src/gauche/char_utf_8.h:52 `SCM_CHAR_NFOLLOWS`.  The cast to `unsigned char` is `% 256`. -/
def nfollows (b : Nat) : Nat := sizeTable.getD (b % 256) 0

/-- src/gauche/char_utf_8.h:57-62 `SCM_CHAR_NBYTES`. -/
def nbytes (ch : Nat) : Nat :=
  if ch < 0x80 then 1 else if ch < 0x800 then 2 else if ch < 0x10000 then 3
  else if ch < 0x200000 then 4 else if ch < 0x4000000 then 5 else 6

/-- One step of src/char.c:112-173 `Scm_CharUtf8Getc`, repeated there by copy and paste:
`if (*ucp < 0x80 || *ucp >= 0xc0) return SCM_CHAR_INVALID; ch = (ch<<6) | (*ucp++&0x3f);` -/
def cont (ch b : Nat) : Option Nat :=
  if b < 0x80 ∨ b ≥ 0xc0 then none else some ((ch <<< 6) ||| (b &&& 0x3f))

/-- The overlong check that ends each branch of src/char.c:112-173 `Scm_CharUtf8Getc`. -/
def atLeast (lo ch : Nat) : Option Nat := if ch < lo then none else some ch

/-- src/char.c:112-173 `Scm_CharUtf8Getc`. -/
def utf8Getc (p : Mem) : Option Nat :=
  let first := p 0
  if first < 0x80 then some first
  else if first < 0xc0 then none
  else if first < 0xe0 then
    (cont (first &&& 0x1f) (p 1)).bind fun ch => atLeast 0x80 ch
  else if first < 0xf0 then
    (cont (first &&& 0x0f) (p 1)).bind fun ch => (cont ch (p 2)).bind fun ch => atLeast 0x800 ch
  else if first < 0xf8 then
    (cont (first &&& 0x07) (p 1)).bind fun ch => (cont ch (p 2)).bind fun ch =>
      (cont ch (p 3)).bind fun ch => atLeast 0x10000 ch
  else if first < 0xfc then
    (cont (first &&& 0x03) (p 1)).bind fun ch => (cont ch (p 2)).bind fun ch =>
      (cont ch (p 3)).bind fun ch => (cont ch (p 4)).bind fun ch => atLeast 0x200000 ch
  else if first < 0xfe then
    (cont (first &&& 0x01) (p 1)).bind fun ch => (cont ch (p 2)).bind fun ch =>
      (cont ch (p 3)).bind fun ch => (cont ch (p 4)).bind fun ch =>
        (cont ch (p 5)).bind fun ch => atLeast 0x4000000 ch
  else none

/-- src/gauche/char_utf_8.h:71-76 `SCM_CHAR_GET`. -/
def charGet (p : Mem) : Option Nat := if p 0 ≥ 0x80 then utf8Getc p else some (p 0)

/-- src/char.c:175-209 `Scm_CharUtf8Putc`.  The bytes written at `cp`, in order. -/
def utf8Putc (ch : Nat) : List Nat :=
  if ch < 0x80 then [ch]
  else if ch < 0x800 then
    [((ch >>> 6) &&& 0x1f) ||| 0xc0, (ch &&& 0x3f) ||| 0x80]
  else if ch < 0x10000 then
    [((ch >>> 12) &&& 0x0f) ||| 0xe0, ((ch >>> 6) &&& 0x3f) ||| 0x80, (ch &&& 0x3f) ||| 0x80]
  else if ch < 0x200000 then
    [((ch >>> 18) &&& 0x07) ||| 0xf0, ((ch >>> 12) &&& 0x3f) ||| 0x80,
      ((ch >>> 6) &&& 0x3f) ||| 0x80, (ch &&& 0x3f) ||| 0x80]
  else if ch < 0x4000000 then
    [((ch >>> 24) &&& 0x03) ||| 0xf8, ((ch >>> 18) &&& 0x3f) ||| 0x80,
      ((ch >>> 12) &&& 0x3f) ||| 0x80, ((ch >>> 6) &&& 0x3f) ||| 0x80, (ch &&& 0x3f) ||| 0x80]
  else
    [((ch >>> 30) &&& 0x1) ||| 0xfc, ((ch >>> 24) &&& 0x3f) ||| 0x80,
      ((ch >>> 18) &&& 0x3f) ||| 0x80, ((ch >>> 12) &&& 0x3f) ||| 0x80,
      ((ch >>> 6) &&& 0x3f) ||| 0x80, (ch &&& 0x3f) ||| 0x80]

/-- src/gauche/char_utf_8.h:82-89 `SCM_CHAR_PUT`. -/
def charPut (ch : Nat) : List Nat := if ch ≥ 0x80 then utf8Putc ch else [ch % 256]

/-- src/gauche/char_utf_8.h:97-129 `SCM_CHAR_BACKWARD`.  `p` is the memory seen from `start`, `cp` the offset of
the current position; the result is the offset of `result`, `none` for `NULL`.  The macro's `switch`
has no case for `cp == start`: the `default` case is taken there and reads before the buffer.  No caller
is modelled with `cp = 0`; the model answers `none`. -/
def backward (p : Mem) (cp : Nat) : Option Nat :=
  if cp ≥ 6 ∧ nfollows (p (cp - 6)) = 5 then some (cp - 6)
  else if cp ≥ 5 ∧ nfollows (p (cp - 5)) = 4 then some (cp - 5)
  else if cp ≥ 4 ∧ nfollows (p (cp - 4)) = 3 then some (cp - 4)
  else if cp ≥ 3 ∧ nfollows (p (cp - 3)) = 2 then some (cp - 3)
  else if cp ≥ 2 ∧ nfollows (p (cp - 2)) = 1 then some (cp - 2)
  else if cp ≥ 1 ∧ nfollows (p (cp - 1)) = 0 then some (cp - 1)
  else none

end Gauche.Utf8

import Verif.Model.CharSet
/-
Writing and reading character sets: the printer and the reader of `#[...]`, src/char.c.

Texts are lists of code points.  `esc c` says that the general category of `c` is one of Mn, Mc, Me, Cc, Cf,
Cs, Co, Cn (a table in the C code, here a parameter).  The ports and their encoding are not modelled (see
`Verif.Model.Utf8` for the encoding).
-/
namespace Gauche.CharSet

/-- One hexadecimal digit as `%lx` prints it. -/
def hexDigit (d : Nat) : Nat := if d < 10 then 48 + d else 87 + d

/-- The low `k` hexadecimal digits of `n`, most significant first: what `%0<k>lx` prints if `n < 16 ^ k`. -/
def hexDigits : Nat → Nat → List Nat
  | 0, _ => []
  | k + 1, n => hexDigits k (n / 16) ++ [hexDigit (n % 16)]

/-- src/char.c:504-526 `charset_print_ch`. -/
def printCh (esc : Nat → Bool) (ch : Nat) (firstp : Bool) : List Nat :=
  if ch = 91 ∨ ch = 93 ∨ ch = 45 ∨ ch = 92 ∨ (ch = 94 ∧ firstp = true) then [92, ch]
  else if esc ch then
    if ch < 0x10000 then 92 :: 117 :: hexDigits 4 ch
    else 92 :: 85 :: hexDigits 8 ch
  else [ch]

/-- The loop over the bitmap in src/char.c:528-578 `charset_print`: `n` codes from `code` on remain, `prev` is the start of
the current run (`none` = -1). -/
def printSmall (esc : Nat → Bool) (b : Nat → Bool) : Nat → Nat → Option Nat → Bool → List Nat
  | 0, code, some p, _ =>
    if code - p > 1 then (if p < 0x7e then [45] else []) ++ printCh esc (code - 1) false else []
  | 0, _, none, _ => []
  | n + 1, code, none, first =>
    if b code then printCh esc code first ++ printSmall esc b n (code + 1) (some code) false
    else printSmall esc b n (code + 1) none first
  | n + 1, code, some p, first =>
    if b code then printSmall esc b n (code + 1) (some p) first
    else (if code - p > 1 then (if code - p > 2 then [45] else []) ++ printCh esc (code - 1) false else []) ++
      printSmall esc b n (code + 1) none first

/-- The loops over the large ranges in src/char.c:528-578 `charset_print`. -/
def printLarge (esc : Nat → Bool) : List (Nat × Nat) → List Nat
  | [] => []
  | e :: r =>
    printCh esc e.1 false ++
      (if e.2 ≠ e.1 then (if e.2 - e.1 > 2 then [45] else []) ++ printCh esc e.2 false else []) ++
      printLarge esc r

/-- src/char.c:528-578 `charset_print`. -/
def CharSet.print (esc : Nat → Bool) (cs : CharSet) : Option (List Nat) :=
  cs.rawRanges.map fun l =>
    35 :: 91 :: (printSmall esc cs.small smallChars 0 none true ++ printLarge esc l ++ [93])

/-- `isxdigit` on codes below 128, and the value of the digit (src/read.c:783-834 `Scm_ReadXdigitsFromString` uses
`Scm_DigitToInt(c, 16, FALSE)`). -/
def hexVal (c : Nat) : Option Nat :=
  if 48 ≤ c ∧ c ≤ 57 then some (c - 48)
  else if 97 ≤ c ∧ c ≤ 102 then some (c - 87)
  else if 65 ≤ c ∧ c ≤ 70 then some (c - 55)
  else none

/-- The loop of src/read.c:838-872 `Scm_ReadXdigitsFromPort`: the characters accumulated, and the rest of the input. -/
def scanHex : List Nat → List Nat × List Nat
  | [] => ([], [])
  | c :: r =>
    if c = 59 then ([c], r)
    else match hexVal c with
      | none => ([], c :: r)
      | some _ => (c :: (scanHex r).1, (scanHex r).2)

/-- The final loop of src/read.c:783-834 `Scm_ReadXdigitsFromString` over `n` digits; also the rest of the buffer. -/
def decodeHex : Nat → Nat → List Nat → Option (Nat × List Nat)
  | 0, val, buf => some (val, buf)
  | _ + 1, _, [] => none
  | n + 1, val, c :: r =>
    match hexVal c with
    | none => none
    | some d => if val * 16 + d > charMax then none else decodeHex n (val * 16 + d) r

/-- The local variables of src/char.c:1107-1265 `Scm_CharSetRead`; `begin_`: 1 = REAL_BEGIN, 2 = CARET_BEGIN, 0 = FALSE;
`lastchar`: `none` = negative. -/
structure RState where
  set : CharSet
  begin_ : Nat
  complement : Bool
  inrange : Bool
  lastchar : Option Nat

/-- The code at the label `ordchar` in src/char.c:1107-1265 `Scm_CharSetRead`. -/
def ordchar (s : RState) (ch : Nat) : Option RState :=
  if s.inrange then
    match s.lastchar with
    | none => (s.set.addRange 45 45).bind fun x => (x.addRange ch ch).map fun x =>
        ⟨x, 0, s.complement, false, some ch⟩
    | some l => (s.set.addRange l ch).map fun x => ⟨x, 0, s.complement, false, none⟩
  else (s.set.addRange ch ch).map fun x => ⟨x, 0, s.complement, false, some ch⟩

/-- The code after the loop in src/char.c:1107-1265 `Scm_CharSetRead` (`complement_p` is NULL). -/
def finishRead (s : RState) : Option CharSet :=
  (if s.inrange then
    (s.set.addRange 45 45).bind fun x =>
      match s.lastchar with
      | some l => x.addRange l l
      | none => some x
   else some s.set).bind fun x => if s.complement then x.complement else some x

/-- The `switch` on the character after a backslash in src/char.c:1107-1265 `Scm_CharSetRead`, for the characters that name one
character: the new state and the rest of the input.  Hexadecimal digits read ahead are put back in front
of the input (the C code reads them from `prefetched`).  The lexical mode is not strict-r7.
`\x`, `\d`, `\D`, `\s`, `\S`, `\w`, `\W`, `\p`, `\P` are not modelled: `none`. -/
def readEscape (s : RState) : List Nat → Option (RState × List Nat)
  | [] => none
  | ch :: r =>
    if ch = 97 then (ordchar s 7).map (·, r)
    else if ch = 98 then (ordchar s 8).map (·, r)
    else if ch = 110 then (ordchar s 10).map (·, r)
    else if ch = 114 then (ordchar s 13).map (·, r)
    else if ch = 116 then (ordchar s 9).map (·, r)
    else if ch = 102 then (ordchar s 12).map (·, r)
    else if ch = 101 then (ordchar s 27).map (·, r)
    else if ch = 117 ∨ ch = 85 then
      (decodeHex (if ch = 117 then 4 else 8) 0 (scanHex r).1).bind fun d =>
        (ordchar s d.1).map (·, d.2 ++ (scanHex r).2)
    else if ch = 120 ∨ ch = 100 ∨ ch = 68 ∨ ch = 115 ∨ ch = 83 ∨ ch = 119 ∨ ch = 87 ∨ ch = 112 ∨ ch = 80 then none
    else (ordchar s ch).map (·, r)

/-- One iteration of the loop in src/char.c:1107-1265 `Scm_CharSetRead` with `bracket_syntax` FALSE: `inl` = continue, `inr` = the
loop was left by `]`.  `[` (a POSIX class name) is not modelled: `none`. -/
def readStep (s : RState) : List Nat → Option ((RState × List Nat) ⊕ RState)
  | [] => none
  | ch :: r =>
    if s.begin_ = 1 ∧ ch = 94 then some (.inl ({ s with complement := true, begin_ := 2 }, r))
    else if ch = 93 then some (.inr s)
    else if ch = 45 ∧ s.begin_ = 0 ∧ s.inrange = false then some (.inl ({ s with inrange := true, begin_ := 0 }, r))
    else if ch = 92 then (readEscape s r).map .inl
    else if ch = 91 then none
    else (ordchar s ch).map fun s' => .inl (s', r)

/-- The loop of src/char.c:1107-1265 `Scm_CharSetRead`. -/
def readLoop : Nat → RState → List Nat → Option (CharSet × List Nat)
  | 0, _, _ => none
  | fuel + 1, s, inp =>
    match readStep s inp with
    | none => none
    | some (.inl x) => readLoop fuel x.1 x.2
    | some (.inr s') => (finishRead s').map (·, inp.tail)

/-- src/char.c:1107-1265 `Scm_CharSetRead` with `complement_p` NULL: the set and the rest of the input. -/
def readSet (inp : List Nat) : Option (CharSet × List Nat) :=
  readLoop (inp.length + 1) ⟨make, 1, false, false, none⟩ inp

/-- The reader at `#[`: src/read.c:1572-1576 `read_charset`. -/
def readLiteral : List Nat → Option (CharSet × List Nat)
  | 35 :: 91 :: inp => (readSet inp).bind fun x => x.1.freezeX.map (·, x.2)
  | _ => none

end Gauche.CharSet

import Verif.Model.FloText
/-
Model of the external representation of data: the writer (src/write.c `Scm__WritePrimitive`, `write_char`; src/string.c `string_putc`; src/symbol.c
`Scm_WriteSymbolName`) and the reader (src/read.c), in the default lexical mode, without case folding and without write controls.

A text is a list of characters; a character is a Unicode scalar value (Gauche also has characters for surrogates; they are not modelled).  The general
category of a character (a table of src/char_attr.c) is a parameter `cat`; the ASCII tables are written out.  Symbols are identified by their names
(interned symbols, keywords included: a keyword is a symbol whose name begins with a colon).  The datum labels `#n=` and `#n#` stay in the tree here;
what they mean is modelled in `SexpGraph`.  Not modelled, result `other`: `#;`, `#,`, `#!`, `#?`, `#:`, `#*`, regexps, character sets, string
interpolation, uniform vectors, radix prefixes, the escapes `\u` and `\U`, complex numbers.
-/
namespace Gauche.Sexp
open Gauche.Spec Gauche.Flonum Gauche.Rational Gauche.NumText

/-- The general categories of characters (src/gauche/char_attr.h `SCM_CHAR_CATEGORY_*`). -/
inductive Cat where
  | Lu | Ll | Lt | Lm | Lo | Mn | Mc | Me | Nd | Nl | No | Ps | Pe | Pi | Pf | Pd | Pc | Po | Sc | Sm | Sk | So | Zs | Zl | Zp | Cc | Cf | Cs | Co | Cn
deriving DecidableEq, Repr

/-- Numbers: exact real numbers and flonums. -/
inductive Numb where
  | exact (q : Q)
  | flo (x : Flo)
deriving DecidableEq, Repr

/-- Data without parts. -/
inductive Atom where
  | nil
  | bool (b : Bool)
  | char (c : Char)
  | str (s : List Char)
  | sym (s : List Char)
  | num (n : Numb)
deriving DecidableEq, Repr

/-- The four abbreviations of quoting forms. -/
inductive Quoter where
  | quote | quasi | unquote | splice
deriving DecidableEq, Repr

/-- Data as trees, with datum labels.  `abbr` is a list of a quoting symbol and one datum that is written in the short form; the reader never returns it. -/
inductive Tree where
  | atom (a : Atom)
  | ref (n : Nat)
  | lab (n : Nat) (t : Tree)
  | pair (a d : Tree)
  | vec (l : List Tree)
  | abbr (q : Quoter) (t : Tree)

/-- The symbols of the quoting forms. -/
def Quoter.name : Quoter → List Char
  | .quote => "quote".toList
  | .quasi => "quasiquote".toList
  | .unquote => "unquote".toList
  | .splice => "unquote-splicing".toList

/-- The prefixes in src/write.c:614-834 `write_rec`. -/
def Quoter.mark : Quoter → List Char
  | .quote => ['\'']
  | .quasi => ['`']
  | .unquote => [',']
  | .splice => [',', '@']

/-! ### writing -/

/-- The ways a character can be used in a symbol (`ScmCharLexerCategory`). -/
inductive Lex where
  | initial | subsequent | signSubsequent
deriving DecidableEq, Repr

/-- An ASCII letter. -/
def asciiLetter (c : Char) : Bool := decide (65 ≤ c.toNat ∧ c.toNat ≤ 90 ∨ 97 ≤ c.toNat ∧ c.toNat ≤ 122)
/-- An ASCII digit. -/
def asciiDigit (c : Char) : Bool := decide (48 ≤ c.toNat ∧ c.toNat ≤ 57)

/-- The table `ctypes` of src/char.c:318-422, for characters below 128. -/
def asciiLex (k : Lex) (c : Char) : Bool :=
  asciiLetter c || "!$%&*/:<=>?^_~".toList.contains c ||
    match k with
    | .initial => false
    | .subsequent => asciiDigit c || "+-.@".toList.contains c
    | .signSubsequent => "+-@".toList.contains c

/-- src/char.c:424-465 `Scm_CharLexerCategoryP`. -/
def lexCategory (cat : Char → Cat) (k : Lex) (c : Char) : Bool :=
  if c.toNat < 128 then asciiLex k c
  else if c.toNat = 0x200c ∨ c.toNat = 0x200d then true
  else
    match cat c with
    | .Lu | .Ll | .Lt | .Lm | .Lo | .Mn | .Nl | .No | .Pd | .Pc | .Po | .Sc | .Sm | .Sk | .So | .Co => true
    | .Nd | .Mc | .Me => k ≠ .initial
    | _ => false

/-- The label `subsequent` of src/symbol.c:162-215 `escape_required_p`. -/
def needSubsequent (cat : Char → Cat) (s : List Char) : Bool := s.any fun c => !lexCategory cat .subsequent c

/-- The label `dot_subsequent` of src/symbol.c:162-215 `escape_required_p`; the text after the dot. -/
def needDot (cat : Char → Cat) : List Char → Bool
  | [] => true
  | c :: s => if c ≠ '.' ∧ lexCategory cat .signSubsequent c = false then true else needSubsequent cat s

/-- `+nan.0` and `+inf.0`, in any case, at the beginning: the test in src/symbol.c:162-215 `escape_required_p` on the text after the sign. -/
def specialNum (s : List Char) : Bool :=
  match s with
  | a :: b :: c :: d :: e :: _ =>
    d = '.' && e = '0' &&
      (((a = 'n' || a = 'N') && (b = 'a' || b = 'A') && (c = 'n' || c = 'N')) ||
       ((a = 'i' || a = 'I') && (b = 'n' || b = 'N') && (c = 'f' || c = 'F')))
  | _ => false

/-- src/symbol.c:162-215 `escape_required_p` with `flags` = 0, without case folding. -/
def escapeRequired (cat : Char → Cat) (s : List Char) : Bool :=
  match s with
  | [] => true
  | c :: r =>
    if c = '+' ∨ c = '-' then
      match r with
      | [] => false
      | d :: r' =>
        if d = '.' then needDot cat r'
        else if r' = [] ∧ (d = 'i' ∨ d = 'I') then true
        else if specialNum r then true
        else if lexCategory cat .signSubsequent d = false then true
        else needSubsequent cat r'
    else if c = '.' then needDot cat r
    else if lexCategory cat .initial c = false then true
    else needSubsequent cat r

/-- A digit of `%x` or `%d`. -/
def digChar (d : Nat) : Char := Char.ofNat (if d < 10 then d + 48 else d + 87)

/-- `%d` and `%x` of printf: the digits of `n` in base `b`; the first argument bounds the number of digits. -/
def radixText (b : Nat) : Nat → Nat → List Char
  | 0, _ => []
  | k + 1, n => if n < b then [digChar n] else radixText b k (n / b) ++ [digChar (n % b)]

/-- `%d`. -/
def decText (n : Nat) : List Char := radixText 10 (n + 1) n
/-- `%0wx`. -/
def hexText (w n : Nat) : List Char :=
  let t := radixText 16 (n + 1) n
  List.replicate (w - t.length) '0' ++ t

/-- The loop of src/symbol.c:218-258 `Scm_WriteSymbolName` between the bars. -/
def symEsc (c : Char) : List Char :=
  if c.toNat < 128 then
    if c = '|' ∨ c = '\\' then ['\\', c]
    else if c.toNat < 0x20 ∨ c.toNat = 0x7f then '\\' :: 'x' :: hexText 2 c.toNat ++ [';']
    else [c]
  else [c]

/-- src/symbol.c:218-258 `Scm_WriteSymbolName` with `flags` = 0. -/
def writeSymbol (cat : Char → Cat) (s : List Char) : List Char :=
  if s = [] then ['|', '|']
  else if escapeRequired cat s then '|' :: s.flatMap symEsc ++ ['|']
  else s

/-- src/string.c:1480-1521 `string_putc` with `bytemode` = FALSE. -/
def strEsc (cat : Char → Cat) (c : Char) : List Char :=
  if c = '\\' then ['\\', '\\'] else if c = '"' then ['\\', '"'] else if c = '\n' then ['\\', 'n'] else if c = '\t' then ['\\', 't']
  else if c = '\r' then ['\\', 'r'] else if c.toNat = 12 then ['\\', 'f'] else if c.toNat = 0 then ['\\', '0']
  else if c.toNat < 0x80 then
    if c.toNat < 0x20 ∨ c.toNat = 0x7f then '\\' :: 'x' :: hexText 2 c.toNat ++ [';'] else [c]
  else
    match cat c with
    | .Cc | .Cf | .Cs | .Co | .Cn =>
      if c.toNat < 0x10000 then '\\' :: 'x' :: hexText 4 c.toNat ++ [';'] else '\\' :: 'x' :: hexText 0 c.toNat ++ [';']
    | _ => [c]

/-- src/string.c:1523-1573 `string_print` for complete strings. -/
def writeString (cat : Char → Cat) (s : List Char) : List Char := '"' :: s.flatMap (strEsc cat) ++ ['"']

/-- The table `char_names` of src/write.c:412-419. -/
def charNames : List String :=
  ["null", "x01", "x02", "x03", "x04", "x05", "x06", "alarm", "backspace", "tab", "newline", "x0b", "x0c", "return", "x0e", "x0f",
   "x10", "x11", "x12", "x13", "x14", "x15", "x16", "x17", "x18", "x19", "x1a", "escape", "x1c", "x1d", "x1e", "x1f", "space"]

/-- src/write.c:426-470 `write_char` in write mode. -/
def writeChar (cat : Char → Cat) (c : Char) : List Char :=
  '#' :: '\\' ::
    (if c.toNat ≤ 0x20 then (charNames.getD c.toNat "").toList
     else if c.toNat = 0x7f then "delete".toList
     else
       match cat c with
       | .Mn | .Mc | .Me | .Zs | .Zl | .Zp | .Cc | .Cf | .Cs | .Co | .Cn => 'x' :: hexText 4 c.toNat
       | _ => [c])

/-- What the writer needs to know from outside: the categories; the estimate of the decimal exponent of a flonum (from `log10` of the C library); the
bounds `exp_lo` and `exp_hi` of the number format; `fuel` bounds the loops of the flonum printer and reader. -/
structure Env where
  cat : Char → Cat
  est : Flo → Int
  lo : Int
  hi : Int
  fuel : Nat

/-- src/number.c:4513-4521 `Scm_PrintNumber` in the default format. -/
def writeNumb (e : Env) : Numb → List Char
  | .exact q => (numberToString q 10 ⟨false, false, false⟩).getD []
  | .flo x => (FloText.printDouble e.fuel e.lo e.hi false (e.est x) x).getD []

/-- src/write.c:476-535 `Scm__WritePrimitive`, and the printers of strings and symbols. -/
def writeAtom (e : Env) : Atom → List Char
  | .nil => ['(', ')']
  | .bool b => if b then ['#', 't'] else ['#', 'f']
  | .char c => writeChar e.cat c
  | .str s => writeString e.cat s
  | .sym s => writeSymbol e.cat s
  | .num n => writeNumb e n

mutual
/-- The text that src/write.c:614-834 `write_rec` writes for a tree, and the text of the rest of a list that the tree is the tail of, with the closing
parenthesis. -/
def writeBoth (e : Env) : Tree → List Char × List Char
  | .atom a => (writeAtom e a, if a = .nil then [')'] else " . ".toList ++ writeAtom e a ++ [')'])
  | .ref n => ('#' :: decText n ++ ['#'], " . ".toList ++ ('#' :: decText n ++ ['#']) ++ [')'])
  | .lab n t => ('#' :: decText n ++ '=' :: (writeBoth e t).1, " . ".toList ++ ('#' :: decText n ++ '=' :: (writeBoth e t).1) ++ [')'])
  | .abbr q t => (q.mark ++ (writeBoth e t).1, " . ".toList ++ (q.mark ++ (writeBoth e t).1) ++ [')'])
  | .vec l => ('#' :: '(' :: writeElems e true l, " . ".toList ++ ('#' :: '(' :: writeElems e true l) ++ [')'])
  | .pair a d => ('(' :: (writeBoth e a).1 ++ (writeBoth e d).2, ' ' :: (writeBoth e a).1 ++ (writeBoth e d).2)
/-- The elements of a vector, with the closing parenthesis. -/
def writeElems (e : Env) : Bool → List Tree → List Char
  | _, [] => [')']
  | true, t :: ts => (writeBoth e t).1 ++ writeElems e false ts
  | false, t :: ts => ' ' :: (writeBoth e t).1 ++ writeElems e false ts
end

/-- The text of a tree. -/
def writeTree (e : Env) (t : Tree) : List Char := (writeBoth e t).1

/-! ### reading -/

/-- src/char.c:211-227 `Scm__CharIsExtraWhiteSpace` and the macros `SCM_CHAR_EXTRA_WHITESPACE`, `SCM_CHAR_EXTRA_WHITESPACE_INTRALINE` of
src/gauche/char_utf_8.h:127-133. -/
def extraSpace (intraline : Bool) (c : Char) : Bool :=
  let n := c.toNat
  n = 0xa0 || n = 0x1680 || decide (0x2000 ≤ n ∧ n ≤ 0x200a) || n = 0x3000 || n = 0x202f || n = 0x205f ||
    (!intraline && (n = 0x2029 || n = 0x2028))

/-- Bit 0 of the table `ctypes` of src/read.c:370-385. -/
def wordTable : List Nat :=
  [0, 0, 0, 0, 0, 0, 0, 0, 0, 0, 0, 0, 0, 0, 0, 0,
   0, 0, 0, 0, 0, 0, 0, 0, 0, 0, 0, 0, 0, 0, 0, 0,
   0, 1, 0, 0, 1, 1, 1, 0, 0, 0, 1, 1, 0, 1, 1, 1,
   1, 1, 1, 1, 1, 1, 1, 1, 1, 1, 1, 0, 1, 1, 1, 1,
   1, 1, 1, 1, 1, 1, 1, 1, 1, 1, 1, 1, 1, 1, 1, 1,
   1, 1, 1, 1, 1, 1, 1, 1, 1, 1, 1, 0, 0, 0, 1, 1,
   0, 1, 1, 1, 1, 1, 1, 1, 1, 1, 1, 1, 1, 1, 1, 1,
   1, 1, 1, 1, 1, 1, 1, 1, 1, 1, 1, 0, 0, 0, 1, 0]

/-- src/read.c:380-408 `char_word_constituent`. -/
def wordChar (cat : Char → Cat) (hash : Bool) (c : Char) : Bool :=
  if c.toNat < 128 then wordTable.getD c.toNat 0 == 1 || (c = '#' && hash)
  else if c.toNat = 0x200c ∨ c.toNat = 0x200d then true
  else
    match cat c with
    | .Lu | .Ll | .Lt | .Lm | .Lo | .Mn | .Nl | .No | .Pd | .Pc | .Po | .Sc | .Sm | .Sk | .So | .Co => true
    | _ => false

/-- `isspace` of the C library. -/
def cSpace (c : Char) : Bool := decide (c.toNat = 32 ∨ 9 ≤ c.toNat ∧ c.toNat ≤ 13)

/-- src/read.c:479-494 `skipws` and src/read.c:469-477 `read_comment`; the text from the first character of a datum on.  The flag tells that a comment is being
skipped. -/
def skipws : Bool → List Char → List Char
  | _, [] => []
  | true, c :: s => skipws (c ≠ '\n') s
  | false, c :: s =>
    if c.toNat ≤ 127 then
      if cSpace c then skipws false s else if c = ';' then skipws true s else c :: s
    else if extraSpace false c then skipws false s
    else c :: s

/-- src/read.c:432-467 `read_nested_comment`; `prev` is the character that begins a possible `#|` or `|#`.  `none` is the error at the end of the file. -/
def nestedComment : Nat → Option Char → List Char → Option (List Char)
  | _, _, [] => none
  | n, prev, c :: s =>
    if prev = some '#' ∧ c = '|' then nestedComment (n + 1) none s
    else if prev = some '|' ∧ c = '#' then (if n = 0 then some s else nestedComment (n - 1) none s)
    else nestedComment n (some c) s

/-- The value of a hexadecimal digit; `none` if `isxdigit` fails. -/
def hexVal (c : Char) : Option Nat :=
  let n := c.toNat
  if 48 ≤ n ∧ n ≤ 57 then some (n - 48) else if 65 ≤ n ∧ n ≤ 70 then some (n - 55) else if 97 ≤ n ∧ n ≤ 102 then some (n - 87) else none

/-- The number of a run of hexadecimal digits. -/
def hexNum (ds : List Char) : Nat := ds.foldl (fun v c => v * 16 + (hexVal c).getD 0) 0

/-- Results: a value, an error, or something not modelled. -/
inductive Res (α : Type) where
  | ok (x : α)
  | err
  | other
deriving DecidableEq

/-- The character with a code point. -/
def ucs (n : Nat) : Res Char := if n > 0x10ffff then .err else if Nat.isValidChar n then .ok (Char.ofNat n) else .other

/-- src/read.c:783-834 `Scm_ReadXdigitsFromString` with key `x` and `terminator` = TRUE, and the rest of src/read.c:838-872 `Scm_ReadXdigitsFromPort`: the characters
for the hexadecimal digits `ds`; `semi` tells that a semicolon follows. -/
def xdigits (ds : List Char) (semi : Bool) : Res (List Char) :=
  if semi ∧ ds ≠ [] then
    match ucs (hexNum ds) with
    | .ok c => .ok [c]
    | .err => .err
    | .other => .other
  else if ds.length < 2 then .err
  else .ok (Char.ofNat (hexNum (ds.take 2)) :: ds.drop 2)

/-- Where src/read.c:1130-1234 `read_string` is: in the text, after a backslash, in an escape `\x`, and the labels `line_continuation`, `cont_cr`, `cont_lf`. -/
inductive StrState where
  | text | back | hex (ds : List Char) | ws | cr | lf
deriving DecidableEq, Repr

/-- `INTRALINE_WS` in src/read.c:1130-1234 `read_string`. -/
def intraline (c : Char) : Bool := c = ' ' || c = '\t' || extraSpace true c

/-- The escapes with one letter in src/read.c:1130-1234 `read_string`. -/
def simpleEsc (c : Char) : Option Char :=
  if c = 'n' then some '\n' else if c = 'r' then some '\r' else if c = 'f' then some (Char.ofNat 12) else if c = 't' then some '\t'
  else if c = 'a' then some (Char.ofNat 7) else if c = 'b' then some (Char.ofNat 8) else if c = '\\' then some '\\'
  else if c = '0' then some (Char.ofNat 0) else none

/-- src/read.c:1130-1234 `read_string` with `incompletep` = FALSE, after the opening quote; `acc` has the characters read, reversed. -/
def readString : StrState → List Char → List Char → Res (List Char × List Char)
  | _, _, [] => .err
  | .text, acc, c :: s =>
    if c = '"' then .ok (acc.reverse, s) else if c = '\\' then readString .back acc s else readString .text (c :: acc) s
  | .back, acc, c :: s =>
    match simpleEsc c with
    | some d => readString .text (d :: acc) s
    | none =>
      if c = 'x' then readString (.hex []) acc s
      else if c = 'u' ∨ c = 'U' then .other
      else if c = ' ' ∨ c = '\t' then readString .ws acc s
      else if c = '\r' then readString .cr acc s
      else if c = '\n' then readString .lf acc s
      else if extraSpace true c then readString .ws acc s
      else readString .text (c :: acc) s
  | .hex ds, acc, c :: s =>
    if c = ';' then
      match xdigits ds true with
      | .ok t => readString .text (t.reverse ++ acc) s
      | .err => .err
      | .other => .other
    else if (hexVal c).isSome then readString (.hex (ds ++ [c])) acc s
    else
      match xdigits ds false with
      | .ok t =>
        if c = '"' then .ok ((t.reverse ++ acc).reverse, s)
        else if c = '\\' then readString .back (t.reverse ++ acc) s
        else readString .text (c :: (t.reverse ++ acc)) s
      | .err => .err
      | .other => .other
  | .ws, acc, c :: s =>
    if c = '\r' then readString .cr acc s else if c = '\n' then readString .lf acc s
    else if intraline c then readString .ws acc s else .err
  | .cr, acc, c :: s =>
    if c = '"' then .ok (acc.reverse, s) else if c = '\\' then readString .back acc s
    else if c ≠ '\n' ∧ intraline c = false then readString .text (c :: acc) s
    else readString .lf acc s
  | .lf, acc, c :: s =>
    if c = '"' then .ok (acc.reverse, s) else if c = '\\' then readString .back acc s
    else if intraline c then readString .lf acc s else readString .text (c :: acc) s

/-- src/read.c:1480-1533 `read_escaped_symbol` after the opening bar. -/
def readEscaped : StrState → List Char → List Char → Res (List Char × List Char)
  | _, _, [] => .err
  | .back, acc, c :: s =>
    if c = 'x' then readEscaped (.hex []) acc s
    else if c = 'a' then readEscaped .text (Char.ofNat 7 :: acc) s
    else if c = 'b' then readEscaped .text (Char.ofNat 8 :: acc) s
    else if c = 't' then readEscaped .text ('\t' :: acc) s
    else if c = 'n' then readEscaped .text ('\n' :: acc) s
    else if c = 'r' then readEscaped .text ('\r' :: acc) s
    else readEscaped .text (c :: acc) s
  | .hex ds, acc, c :: s =>
    if c = ';' then
      match xdigits ds true with
      | .ok t => readEscaped .text (t.reverse ++ acc) s
      | .err => .err
      | .other => .other
    else if (hexVal c).isSome then readEscaped (.hex (ds ++ [c])) acc s
    else
      match xdigits ds false with
      | .ok t =>
        if c = '|' then .ok ((t.reverse ++ acc).reverse, s)
        else if c = '\\' then readEscaped .back (t.reverse ++ acc) s
        else readEscaped .text (c :: (t.reverse ++ acc)) s
      | .err => .err
      | .other => .other
  | _, acc, c :: s =>
    if c = '|' then .ok (acc.reverse, s) else if c = '\\' then readEscaped .back acc s else readEscaped .text (c :: acc) s

/-- `char_word_case_fold` and `tolower` in src/read.c:1357-1378 `read_word`. -/
def foldCase (fold : Bool) (c : Char) : Char := if fold ∧ 65 ≤ c.toNat ∧ c.toNat ≤ 90 then Char.ofNat (c.toNat + 32) else c

/-- src/read.c:1357-1378 `read_word`: the word (without `initial`) and the unread text. -/
def readWord (cat : Char → Cat) (fold hash : Bool) (s : List Char) : List Char × List Char :=
  ((s.takeWhile (wordChar cat hash)).map (foldCase fold), s.dropWhile (wordChar cat hash))

/-- The table `char_names` of src/read.c:1239-1264. -/
def readNames : List (String × Nat) :=
  [("alarm", 7), ("backspace", 8), ("space", 32), ("newline", 10), ("nl", 10), ("lf", 10), ("return", 13), ("cr", 13), ("tab", 9), ("ht", 9),
   ("page", 12), ("escape", 27), ("esc", 27), ("delete", 127), ("del", 127), ("null", 0)]

/-- The part of src/read.c:1266-1345 `read_char` that handles a name of more than one character. -/
def charOfName (name : List Char) : Res Char :=
  if name.any fun d => decide (128 ≤ d.toNat) then .err
  else if name.head? = some 'x' ∧ (hexVal (name.getD 1 'z')).isSome then
    if name.tail.all fun d => (hexVal d).isSome then ucs (hexNum name.tail) else .err
  else if name.head? = some 'u' ∧ (hexVal (name.getD 1 'z')).isSome then .other
  else
    match readNames.find? fun p => p.1.toList = name with
    | some p => .ok (Char.ofNat p.2)
    | none => .err

/-- src/read.c:1266-1345 `read_char`, after `#\`. -/
def readChar (cat : Char → Cat) : List Char → Res (Char × List Char)
  | [] => .err
  | c :: s =>
    if "()[]{}\" \\|;#".toList.contains c then .ok (c, s)
    else
      let w := readWord cat true false s
      if w.1 = [] then .ok (c, w.2)
      else
        match charOfName (foldCase true c :: w.1) with
        | .ok d => .ok (d, w.2)
        | .err => .err
        | .other => .other

/-- src/read.c:883-916 `Scm_ReadDigitsAsLong` with radix 10 after the digits with the value `val`: `none` is an overflow; the unread text. -/
def digitsAsLong : Nat → List Char → Option Nat × List Char
  | val, [] => (some val, [])
  | val, c :: s =>
    if asciiDigit c then
      if val ≥ 9223372036854775807 / 10 + 1 then (none, s) else digitsAsLong (val * 10 + (c.toNat - 48)) s
    else (some val, c :: s)

/-- What a word that can be a number is. -/
inductive Parsed where
  | num (n : Numb)
  | no
  | other

/-- src/number.c:5422-5465 `Scm_StringToNumber` with radix 10 on a word, from the models of its exact and its decimal part. -/
def parseNumb (fuel : Nat) (w : List Char) : Parsed :=
  match stringToNumber ⟨10, false, false, .noexact⟩ w with
  | .num q => .num (.exact q)
  | .no => if w.any (fun c => decide (c.toNat ≥ 128)) then .no else
    match FloText.readNumber fuel false w with
    | .flo x [] => .num (.flo x)
    | _ => .no
  | .ub => .other
  | .other =>
    match FloText.readNumber fuel false w with
    | .flo x [] => .num (.flo x)
    | .no => .no
    | _ => .other

/-- What reading gives: a datum, a comment, the end of the text, an error, something not modelled; and the unread text. -/
inductive R where
  | datum (t : Tree) (rest : List Char)
  | comment (rest : List Char)
  | eof
  | err
  | other

/-- src/read.c:1394-1399 `read_symbol` and src/read.c:1385-1391 `check_valid_symbol`. -/
def readSymbol (cat : Char → Cat) (c : Char) (s : List Char) : R :=
  let w := readWord cat false true s
  if (c :: w.1).contains '#' then .err else .datum (.atom (.sym (c :: w.1))) w.2

/-- src/read.c:1453-1464 `read_symbol_or_number`. -/
def readSymNum (e : Env) (c : Char) (s : List Char) : R :=
  let w := readWord e.cat false true s
  match parseNumb e.fuel (c :: w.1) with
  | .num n => .datum (.atom (.num n)) w.2
  | .no => if (c :: w.1).contains '#' then .err else .datum (.atom (.sym (c :: w.1))) w.2
  | .other => .other

/-- src/read.c:1466-1478 `read_keyword`, after the colon; src/symbol.c:106-112 `Scm_MakeKeyword` puts the colon back. -/
def readKeyword (cat : Char → Cat) (s : List Char) : R :=
  match s with
  | '|' :: r =>
    match readEscaped .text [] r with
    | .ok (n, rest) => .datum (.atom (.sym (':' :: n))) rest
    | .err => .err
    | .other => .other
  | _ =>
    let w := readWord cat false false s
    .datum (.atom (.sym (':' :: w.1))) w.2

/-- src/read.c:1847-1911 `read_sharp_word_1` for `t` and `f`. -/
def readSharpWord (cat : Char → Cat) (b : Bool) (s : List Char) : R :=
  let w := readWord cat true false s
  if w.1 = [] ∨ (if b then w.1 = "rue".toList else w.1 = "alse".toList) then .datum (.atom (.bool b)) w.2
  else if !b && (w.1 = "16".toList || w.1 = "32".toList || w.1 = "64".toList) then .other
  else .err

/-- The list built by src/read.c:948-1004 `read_list_int`. -/
def mkList : List Tree → Tree → Tree
  | [], tl => tl
  | x :: xs, tl => .pair x (mkList xs tl)

/-- `Scm_ListToVector` on the list that was read. -/
def vecOf : Tree → Option (List Tree)
  | .atom .nil => some []
  | .pair a d => (vecOf d).map (a :: ·)
  | _ => none

mutual
/-- src/read.c:726-732 `read_item`. -/
def readItem (e : Env) : Nat → List Char → R
  | 0, _ => .other
  | n + 1, s =>
    match readInternal e n s with
    | .comment r => readItem e n r
    | x => x
/-- src/read.c:507-724 `read_internal`; the first argument bounds the recursion. -/
def readInternal (e : Env) : Nat → List Char → R
  | 0, _ => .other
  | n + 1, s =>
    match skipws false s with
    | [] => .eof
    | c :: r =>
      if c = '(' then readList e n ')' r
      else if c = '"' then
        match readString .text [] r with
        | .ok (t, rest) => .datum (.atom (.str t)) rest
        | .err => .err
        | .other => .other
      else if c = '#' then readSharp e n r
      else if c = '\'' then readQuoted e n .quote r
      else if c = '`' then readQuoted e n .quasi r
      else if c = ':' then readKeyword e.cat r
      else if c = ',' then
        match r with
        | [] => .err
        | c1 :: r1 => if c1 = '@' then readQuoted e n .splice r1 else readQuoted e n .unquote r
      else if c = '|' then
        match readEscaped .text [] r with
        | .ok (t, rest) => .datum (.atom (.sym t)) rest
        | .err => .err
        | .other => .other
      else if c = '[' then readList e n ']' r
      else if c = '{' then readList e n '}' r
      else if c = '+' ∨ c = '-' then readSymNum e c r
      else if c = '.' then
        match r with
        | [] => .err
        | c1 :: _ => if wordChar e.cat false c1 = false then .err else readSymNum e c r
      else if asciiDigit c then readSymNum e c r
      else if c = ')' ∨ c = ']' ∨ c = '}' then .err
      else readSymbol e.cat c r
/-- The case `#` of src/read.c:507-724 `read_internal`. -/
def readSharp (e : Env) : Nat → List Char → R
  | 0, _ => .other
  | n + 1, s =>
    match s with
    | [] => .err
    | c :: r =>
      if c = 't' ∨ c = 'T' then readSharpWord e.cat true r
      else if c = 'f' ∨ c = 'F' then readSharpWord e.cat false r
      else if c = '(' then
        match readListInt e n ')' [] none r with
        | .datum t rest =>
          match vecOf t with
          | some l => .datum (.vec l) rest
          | none => .err
        | x => x
      else if c = '\\' then
        match readChar e.cat r with
        | .ok (d, rest) => .datum (.atom (.char d)) rest
        | .err => .err
        | .other => .other
      else if c = '|' then
        match nestedComment 0 none r with
        | some rest => .comment rest
        | none => .err
      else if asciiDigit c then
        match digitsAsLong (c.toNat - 48) r with
        | (some k, c2 :: r2) =>
          if c2 = '#' then .datum (.ref k) r2
          else if c2 = '=' then
            match readItem e n r2 with
            | .datum t rest => .datum (.lab k t) rest
            | .comment _ => .err
            | .eof => .other
            | x => x
          else if c2 = 'r' ∨ c2 = 'R' ∨ c2 = 'a' ∨ c2 = 'A' ∨ c2 = 'c' ∨ c2 = 'C' ∨ c2 = 'f' ∨ c2 = 'F' ∨ c2 = 's' ∨ c2 = 'S' ∨ c2 = 'u' ∨ c2 = 'U' then .other
          else .err
        | _ => .err
      else .other
/-- src/read.c:1014-1033 `read_list`, without the source information. -/
def readList (e : Env) : Nat → Char → List Char → R
  | 0, _, _ => .other
  | n + 1, closer, s => readListInt e n closer [] none s
/-- src/read.c:1064-1081 `read_quoted`. -/
def readQuoted (e : Env) : Nat → Quoter → List Char → R
  | 0, _, _ => .other
  | n + 1, q, s =>
    match readItem e n s with
    | .datum t rest => .datum (.pair (.atom (.sym q.name)) (.pair t (.atom .nil))) rest
    | .eof => .err
    | x => x
/-- src/read.c:948-1004 `read_list_int`: `acc` has the items, reversed, and `tail` the item after the dot (`dot_seen`). -/
def readListInt (e : Env) : Nat → Char → List Tree → Option Tree → List Char → R
  | 0, _, _, _, _ => .other
  | n + 1, closer, acc, tail, s =>
    match skipws false s with
    | [] => .err
    | c :: r =>
      if c = closer then .datum (mkList acc.reverse (tail.getD (.atom .nil))) r
      else if c = '.' then
        if tail.isSome then .err
        else
          match r with
          | [] => .err
          | c2 :: _ =>
            if c2 = closer then .err
            else if wordChar e.cat false c2 = false then
              if acc.isEmpty then .err
              else
                match readItem e n r with
                | .datum t rest => readListInt e n closer acc (some t) rest
                | .eof => .err
                | x => x
            else
              match readSymNum e c r with
              | .datum t rest => readListInt e n closer (t :: acc) none rest
              | x => x
      else
        match readInternal e n (c :: r) with
        | .datum t rest => if tail.isSome then .err else readListInt e n closer (t :: acc) none rest
        | .comment rest => readListInt e n closer acc tail rest
        | .eof => .err
        | x => x
end

/-- `(read-from-string s)`, up to the meaning of the labels: the datum and the unread text. -/
def read (e : Env) (s : List Char) : R := readItem e (4 * s.length + 4) s

end Gauche.Sexp

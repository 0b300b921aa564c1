import Verif.Spec.Csv
/-! Model of lib/text/csv.scm: `make-csv-reader` and `make-csv-writer`.

Characters are code points, strings are lists of them, an input port is the list of the characters not yet read, an output port is the
text written.  A character set is a Boolean function. -/
namespace Gauche.Csv

/-- The ways a reader may fail (lib/text/csv.scm:100 and "quote char in a field"). -/
inductive Err where
  | unterminated
  | quoteInField
deriving DecidableEq, Repr

/-- What one call of a reader gives: the end of file, a row and the input left, or an error. -/
inductive Res where
  | eof
  | row (fields : List (List Nat)) (rest : List Nat)
  | err (e : Err)
deriving DecidableEq, Repr

/-- The arguments of lib/text/csv.scm:58-62; `trim` is `none` when the argument is `#f`. -/
structure Reader where
  sep : Nat
  quo : Nat
  trim : Option (Nat → Bool)

/-- `string-trim-both` with a character set, as lib/text/csv.scm:92-96 calls it.  It is modelled after its documentation in SRFI-13: the
file of srfi.13 itself is not in the source tree. -/
def trimBoth (p : Nat → Bool) (s : List Nat) : List Nat :=
  ((s.dropWhile p).reverse.dropWhile p).reverse

/-- lib/text/csv.scm:92-96 `finish`: the characters come in reverse. -/
def finish (rchrs : List Nat) (t : Option (Nat → Bool)) : List Nat :=
  match t with
  | some p => trimBoth p rchrs.reverse
  | none => rchrs.reverse

/-- lib/text/csv.scm:86: are all characters before a quote trimmed? -/
def allTrimmed (t : Option (Nat → Bool)) (chs : List Nat) : Bool :=
  match t with
  | some p => chs.all p
  | none => false

mutual
/-- lib/text/csv.scm:73-78 `start`.  `fields` is in reverse, as in the code. -/
def start (r : Reader) (inp : List Nat) (fields : List (List Nat)) : Res :=
  match inp with
  | [] => .row ([] :: fields).reverse []
  | ch :: rest =>
    if ch = 10 then .row ([] :: fields).reverse rest
    else if ch = r.sep then start r rest ([] :: fields)
    else if ch = r.quo then quoted r rest [] fields
    else unquoted r rest [ch] fields
termination_by structural inp

/-- lib/text/csv.scm:80-90 `unquoted`. -/
def unquoted (r : Reader) (inp : List Nat) (chs : List Nat) (fields : List (List Nat)) : Res :=
  match inp with
  | [] => .row (finish chs r.trim :: fields).reverse []
  | ch :: rest =>
    if ch = 10 then .row (finish chs r.trim :: fields).reverse rest
    else if ch = r.sep then start r rest (finish chs r.trim :: fields)
    else if ch = r.quo then
      if allTrimmed r.trim chs then quoted r rest [] fields else .err .quoteInField
    else unquoted r rest (ch :: chs) fields
termination_by structural inp

/-- lib/text/csv.scm:98-105 `quoted`. -/
def quoted (r : Reader) (inp : List Nat) (chs : List Nat) (fields : List (List Nat)) : Res :=
  match inp with
  | [] => .err .unterminated
  | ch :: rest =>
    if ch = r.quo then
      match rest with
      | [] => quotedTail r [] (finish chs none :: fields)
      | d :: rest' =>
        if d = r.quo then quoted r rest' (r.quo :: chs) fields
        else quotedTail r (d :: rest') (finish chs none :: fields)
    else quoted r rest (ch :: chs) fields
termination_by structural inp

/-- lib/text/csv.scm:107-111 `quoted-tail`. -/
def quotedTail (r : Reader) (inp : List Nat) (fields : List (List Nat)) : Res :=
  match inp with
  | [] => .row fields.reverse []
  | ch :: rest =>
    if ch = 10 then .row fields.reverse rest
    else if ch = r.sep then start r rest fields
    else quotedTail r rest fields
termination_by structural inp
end

/-- The body of lib/text/csv.scm:64-115 `csv-reader`. -/
def readRow (r : Reader) (inp : List Nat) : Res :=
  match inp with
  | [] => .eof
  | c :: l => start r (c :: l) []

/-- `n` calls of a reader, one after the other, each of which must give a row: the rows and the input left. -/
def readRows (r : Reader) : Nat → List Nat → Option (List (List (List Nat)) × List Nat)
  | 0, inp => some ([], inp)
  | n + 1, inp =>
    match readRow r inp with
    | .row f rest =>
      match readRows r n rest with
      | some (fs, rest') => some (f :: fs, rest')
      | none => none
    | _ => none

/-- The arguments of lib/text/csv.scm:118-145; a separator or newline given as a character is the
string of that character (`separator-chars`, `newline-chars`). -/
structure Writer where
  sep : List Nat
  newline : List Nat
  quo : Nat
  special : Nat → Bool

/-- `special-chars` of lib/text/csv.scm:118-145. -/
def specialChars (w : Writer) (c : Nat) : Bool :=
  w.special c || c == w.quo || w.newline.contains c || w.sep.contains c

/-- The text src/librx.scm:124-140 makes of a replacement: a backslash takes the next character as it is.
References to submatches, which need a backslash before a digit or `k`, are left out: the only replacement used here is one character twice. -/
def replacement : List Nat → List Nat
  | [] => []
  | 92 :: d :: r => d :: replacement r
  | c :: r => c :: replacement r

/-- `(regexp-replace-all quote-rx field quote-escape)` of lib/text/csv.scm:133-138: every quote character is
replaced (src/librx.scm:144-178). -/
def replaceAll (quo : Nat) (sub : List Nat) : List Nat → List Nat
  | [] => []
  | c :: l => if c = quo then sub ++ replaceAll quo sub l else c :: replaceAll quo sub l

/-- lib/text/csv.scm:133-138 `write-a-field`. -/
def writeField (w : Writer) (field : List Nat) : List Nat :=
  if field.any (specialChars w) then
    [w.quo] ++ replaceAll w.quo (replacement [w.quo, w.quo]) field ++ [w.quo]
  else field

/-- The `dolist` of lib/text/csv.scm:142-144. -/
def writeRest (w : Writer) : List (List Nat) → List Nat
  | [] => []
  | f :: fs => w.sep ++ writeField w f ++ writeRest w fs

/-- The procedure made by lib/text/csv.scm:118-145: the text of one row. -/
def writeRow (w : Writer) (fields : List (List Nat)) : List Nat :=
  (match fields with
   | [] => []
   | f :: fs => writeField w f ++ writeRest w fs) ++ w.newline

/-- One call of the writer for each row. -/
def writeRows (w : Writer) (rows : List (List (List Nat))) : List Nat :=
  (rows.map (writeRow w)).flatten

end Gauche.Csv

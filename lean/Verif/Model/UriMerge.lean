/-! Model of `uri-merge` of lib/rfc/uri.scm.

A string is the list of its characters' codes.  Strings have no newlines (the regular expressions use `.`). -/
namespace Gauche.UriMerge

abbrev Text := List Nat

/-- `[A-Za-z]` (lib/rfc/uri.scm:78). -/
def isAlpha (c : Nat) : Bool := (65 ≤ c && c ≤ 90) || (97 ≤ c && c ≤ 122)

/-- `[A-Za-z0-9+.-]` (lib/rfc/uri.scm:78). -/
def isScheme (c : Nat) : Bool := isAlpha c || (48 ≤ c && c ≤ 57) || c == 43 || c == 46 || c == 45

/-- `string-downcase` of a scheme (lib/rfc/uri.scm:79). -/
def downcase (s : Text) : Text := s.map (fun c => if 65 ≤ c ∧ c ≤ 90 then c + 32 else c)

/-- `uri-scheme&specific` (lib/rfc/uri.scm:76-80). -/
def schemeSpecific (uri : Text) : Option Text × Text :=
  match uri with
  | [] => (none, uri)
  | c :: _ =>
    if isAlpha c then
      match uri.dropWhile isScheme with
      | 58 :: r => (some (downcase (uri.takeWhile isScheme)), r)
      | _ => (none, uri)
    else (none, uri)

/-- The four parts of `uri-decompose-hierarchical`. -/
structure Parts where
  auth : Option Text
  path : Option Text
  query : Option Text
  frag : Option Text

/-- `[^/?#]` (lib/rfc/uri.scm:85). -/
def authChar (c : Nat) : Bool := c != 47 && c != 63 && c != 35

/-- `[^?#]` (lib/rfc/uri.scm:85). -/
def pathChar (c : Nat) : Bool := c != 63 && c != 35

/-- `[^#]` (lib/rfc/uri.scm:85). -/
def queryChar (c : Nat) : Bool := c != 35

/-- `(?:#(.*))?$` (lib/rfc/uri.scm:85). -/
def fragOf (s : Text) : Option Text :=
  match s with
  | 35 :: r => some r
  | _ => none

/-- `(?:\?([^#]*))?` (lib/rfc/uri.scm:85). -/
def queryOf (s : Text) : Option Text × Text :=
  match s with
  | 63 :: r => (some (r.takeWhile queryChar), r.dropWhile queryChar)
  | _ => (none, s)

/-- `([^?#]+)?` (lib/rfc/uri.scm:85). -/
def pathOf (s : Text) : Option Text × Text :=
  match s.takeWhile pathChar with
  | [] => (none, s)
  | c :: p => (some (c :: p), s.dropWhile pathChar)

/-- `(?:\/\/([^\/?#]*))?` (lib/rfc/uri.scm:85). -/
def authOf (s : Text) : Option Text × Text :=
  match s with
  | 47 :: 47 :: r => (some (r.takeWhile authChar), r.dropWhile authChar)
  | _ => (none, s)

/-- `uri-decompose-hierarchical` (lib/rfc/uri.scm:82-87). -/
def decompose (specific : Text) : Parts :=
  let a := authOf specific
  let p := pathOf a.2
  let q := queryOf p.2
  ⟨a.1, p.1, q.1, fragOf q.2⟩

/-- `merge` (lib/rfc/uri.scm:252-257). -/
def merge (basePath relPath : Text) (baseAuth : Option Text) : Text :=
  if baseAuth.isSome && basePath.isEmpty then 47 :: relPath
  else match basePath.reverse.dropWhile (fun c => c != 47) with
    | _ :: m => m.reverse ++ 47 :: relPath
    | [] => relPath

/-- The last two branches of the loop (lib/rfc/uri.scm:277-279): the first segment, with the slash before it, and what follows; `none` if the
regular expression does not match. -/
def segment (input : Text) : Option (Text × Option Text) :=
  match input with
  | 47 :: r =>
    match r.takeWhile (fun c => c != 47) with
    | [] => none
    | s => some (47 :: s, match r.dropWhile (fun c => c != 47) with | [] => none | q => some q)
  | _ =>
    match input.takeWhile (fun c => c != 47) with
    | [] => none
    | s => some (s, match input.dropWhile (fun c => c != 47) with | [] => none | q => some q)

/-- `canonicalize` (lib/rfc/uri.scm:260-279); the first argument bounds the number of iterations, of which there are at most as many as
there are characters, and two more. -/
def loop : Nat → Option Text → List Text → Text
  | 0, _, _ => []
  | _ + 1, none, out => out.reverse.flatten
  | n + 1, some input, out =>
    match input with
    | 46 :: 47 :: r => loop n (some r) out
    | 46 :: 46 :: 47 :: r => loop n (some r) out
    | 47 :: 46 :: 47 :: r => loop n (some (47 :: r)) out
    | [47, 46] => loop n (some [47]) out
    | 47 :: 46 :: 46 :: 47 :: r => loop n (some (47 :: r)) out.tail
    | [47, 46, 46] => loop n (some [47]) out.tail
    | [46] => loop n none out
    | [46, 46] => loop n none out
    | input =>
      match segment input with
      | some (s, rest) => loop n rest (s :: out)
      | none => loop n none (input :: out)

/-- `canonicalize` (lib/rfc/uri.scm:260-279). -/
def canonicalize (path : Option Text) : Text := loop ((path.getD []).length + 2) path []

/-- A part with what comes before it. -/
def part (pre : Text) (x : Option Text) (post : Text) : Text :=
  match x with
  | some t => pre ++ t ++ post
  | none => []

/-- `recompose` (lib/rfc/uri.scm:282-289). -/
def recompose (scheme auth : Option Text) (path : Text) (query frag : Option Text) : Text :=
  part [] scheme [58] ++ part [47, 47] auth [] ++ path ++ part [63] query [] ++ part [35] frag []

/-- `uri-merge-1` (lib/rfc/uri.scm:243-303); `none` is an error.  Without normalization the path of the base may be `#f`: then it is shown as
it is, or `merge` raises an error. -/
def merge1 (base rel : Text) (prenormalize : Bool) : Option Text :=
  let bs := schemeSpecific base
  let b := decompose bs.2
  let rs := schemeSpecific rel
  let r := decompose rs.2
  let bpath : Option Text := if prenormalize then some (canonicalize b.path) else b.path
  let path : Option Text :=
    if rs.1.isSome || r.auth.isSome then some (canonicalize r.path)
    else match r.path with
      | none => some (bpath.getD [35, 102])
      | some p =>
        if [47].isPrefixOf p then some (canonicalize (some p))
        else bpath.map (fun q => canonicalize (some (merge q p b.auth)))
  path.map (fun path => recompose (rs.1.or bs.1) (if rs.1.isSome then r.auth else r.auth.or b.auth) path
    (if rs.1.isSome || r.auth.isSome || r.path.isSome || r.query.isSome then r.query else b.query) r.frag)

/-- `rec` in `uri-merge` (lib/rfc/uri.scm:237-240). -/
def rec : Text → Text → List Text → Bool → Option Text
  | base, rel, [], initial => merge1 base rel initial
  | base, rel, u :: more, initial => (merge1 base rel initial).bind (fun base => rec base u more false)

/-- `uri-merge` (lib/rfc/uri.scm:236-241). -/
def uriMerge (base rel : Text) (more : List Text) : Option Text := rec base rel more true

end Gauche.UriMerge

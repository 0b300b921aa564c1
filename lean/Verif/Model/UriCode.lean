import Verif.Model.QP
/-! Model of the percent encoding and the query strings of lib/rfc/uri.scm.

Bytes and characters are numbers; `wc` gives the bytes of a character in the encoding, which is that of the system, so that there is no
conversion. -/
namespace Gauche.UriCode
open Gauche.QP (hexU digit)

/-- `uri-encode` (lib/rfc/uri.scm:354-361): `echars` are the characters that are not escaped. -/
def encode (echars : Nat → Bool) (l : List Nat) : List Nat :=
  l.flatMap (fun b => if b < 128 && echars b then [b] else [37, hexU (b / 16), hexU (b % 16)])

/-- `*rfc3986-unreserved-char-set*` (lib/rfc/uri.scm:348). -/
def unreserved (c : Nat) : Bool :=
  c = 45 || c = 95 || c = 46 || c = 126 || (48 ≤ c && c ≤ 57) || (65 ≤ c && c ≤ 90) || (97 ≤ c && c ≤ 122)

/-- `*rfc2396-unreserved-char-set*` (lib/rfc/uri.scm:347). -/
def unreserved2396 (c : Nat) : Bool :=
  unreserved c || c = 33 || c = 42 || c = 39 || c = 40 || c = 41

/-- `uri-decode` (lib/rfc/uri.scm:310-330); the first argument bounds the number of characters. -/
def dec (wc : Nat → List Nat) (cgi : Bool) : Nat → List Nat → List Nat
  | _, [] => []
  | 0, _ :: _ => []
  | n + 1, c :: l =>
    if c = 37 then
      match l with
      | [] => wc c
      | c1 :: l1 =>
        match digit c1 with
        | some i1 =>
          match l1 with
          | [] => wc c ++ wc c1
          | c2 :: l2 =>
            match digit c2 with
            | some i2 => (i1 * 16 + i2) :: dec wc cgi n l2
            | none => wc c ++ wc c1 ++ dec wc cgi n (c2 :: l2)
        | none => wc c ++ dec wc cgi n (c1 :: l1)
    else if c = 43 then (if cgi then wc 32 else wc 43) ++ dec wc cgi n l
    else wc c ++ dec wc cgi n l

/-- `uri-decode-string` (lib/rfc/uri.scm:332-342). -/
def decode (wc : Nat → List Nat) (cgi : Bool) (l : List Nat) : List Nat := dec wc cgi l.length l

/-- The procedure made by `%string-split-scanner-each-char` (src/libstr.scm:253-273): what is before the first separator, and what is after
the run of separators that begins with it, if there is one. -/
def scan (seps : Nat → Bool) : List Nat → List Nat × Option (List Nat)
  | [] => ([], none)
  | c :: l =>
    if seps c then ([], some (l.dropWhile seps))
    else match scan seps l with
      | (a, b) => (c :: a, b)

/-- `%string-split-by-scanner` without a limit (src/libstr.scm:275-284); the first argument bounds the number of parts. -/
def splitLoop (seps : Nat → Bool) : Nat → List Nat → List (List Nat)
  | 0, _ => []
  | n + 1, s =>
    match scan seps s with
    | (before, some after) => before :: splitLoop seps n after
    | (before, none) => [before]

/-- `(string-split s seps)` with a set of characters (src/libstr.scm:204-226): nothing for the empty string. -/
def splitOn (seps : Nat → Bool) (s : List Nat) : List (List Nat) :=
  if s = [] then [] else splitLoop seps (s.length + 1) s

/-- `(string-split elt #\= 'infix 1)` for a string that is not empty (src/libstr.scm:204-226): what is before the first `=`, and what is after
it if there is one. -/
def split1 : List Nat → List Nat × Option (List Nat)
  | [] => ([], none)
  | c :: l =>
    if c = 61 then ([], some l)
    else match split1 l with
      | (a, b) => (c :: a, b)

/-- The procedure mapped in `uri-decompose-query` (lib/rfc/uri.scm:205-209); `none` stands for `#t` as the value.  If the part is empty, so is
the list `ss`, and `(car ss)` is an error. -/
def decompose1 (wc : Nat → List Nat) (elt : List Nat) : Option (List Nat × Option (List Nat)) :=
  if elt = [] then none
  else some (decode wc true (split1 elt).1, (split1 elt).2.map (decode wc true))

/-- `map` with a procedure that may raise an error. -/
def mapE {α β : Type} (f : α → Option β) : List α → Option (List β)
  | [] => some []
  | x :: l => (f x).bind (fun y => (mapE f l).map (fun ys => y :: ys))

/-- `uri-decompose-query` with the default separators (lib/rfc/uri.scm:204-210). -/
def decomposeQuery (wc : Nat → List Nat) (q : List Nat) : Option (List (List Nat × Option (List Nat))) :=
  mapE (decompose1 wc) (splitOn (fun c => c = 38 || c = 59) q)

/-- `query-1` in `uri-compose-query` (lib/rfc/uri.scm:215-219). -/
def query1 (p : List Nat × Option (List Nat)) : List Nat :=
  match p.2 with
  | none => encode unreserved p.1
  | some v => encode unreserved p.1 ++ 61 :: encode unreserved v

/-- `uri-compose-query` (lib/rfc/uri.scm:212-222). -/
def composeQuery : List (List Nat × Option (List Nat)) → List Nat
  | [] => []
  | [p] => query1 p
  | p :: ps => query1 p ++ 38 :: composeQuery ps

end Gauche.UriCode

/-! Specification of the resolution of URI references (RFC 3986, section 5.2), on the components of a URI. -/
namespace Gauche.UriMerge

/-- The text of segments, each with a slash before it. -/
def abs : List (List Nat) → List Nat
  | [] => []
  | s :: l => 47 :: s ++ abs l

/-- The segment `.`. -/
def dot : List Nat := [46]

/-- The segment `..`. -/
def dotdot : List Nat := [46, 46]

/-- What a segment does to the segments before it, the last of which comes first here. -/
def step (st : List (List Nat)) (s : List Nat) : List (List Nat) :=
  if s = dot then st else if s = dotdot then st.tail else s :: st

/-- A last segment `.` or `..` stands for a directory: an empty segment remains in its place. -/
def ext (l : List (List Nat)) : List (List Nat) :=
  if l.getLast? = some dot ∨ l.getLast? = some dotdot then l ++ [[]] else l

/-- `remove_dot_segments` (section 5.2.4) of an absolute path. -/
def norm (l : List (List Nat)) : List (List Nat) := ((ext l).foldl step []).reverse

/-- A path: absolute (or empty), or relative with a first segment. -/
inductive Path
  | abs (l : List (List Nat))
  | rel (s : List Nat) (l : List (List Nat))

/-- The text of a path. -/
def Path.text : Path → List Nat
  | .abs l => UriMerge.abs l
  | .rel s l => s ++ UriMerge.abs l

/-- The components of a URI reference (section 3). -/
structure Uri where
  scheme : Option (List Nat)
  auth : Option (List Nat)
  path : Path
  query : Option (List Nat)
  frag : Option (List Nat)

/-- A component with the text before and after it, if it is there. -/
def opt (pre : List Nat) (x : Option (List Nat)) (post : List Nat) : List Nat :=
  match x with
  | some t => pre ++ t ++ post
  | none => []

/-- The text of a URI reference (section 5.3). -/
def Uri.text (u : Uri) : List Nat := opt [] u.scheme [58] ++ (opt [47, 47] u.auth [] ++ (u.path.text ++ (opt [63] u.query [] ++ opt [35] u.frag [])))

/-- Segments have no slash, question mark or number sign, and only the last one may be empty. -/
def GoodSegs (l : List (List Nat)) : Prop := (∀ s ∈ l, ∀ c ∈ s, c ≠ 47 ∧ c ≠ 63 ∧ c ≠ 35) ∧ ∀ s ∈ l.dropLast, s ≠ []

/-- Well-formed references. -/
structure Uri.Valid (u : Uri) : Prop where
  scheme : ∀ s, u.scheme = some s → (∃ c s', s = c :: s' ∧ 97 ≤ c ∧ c ≤ 122) ∧
    ∀ c ∈ s, (97 ≤ c ∧ c ≤ 122) ∨ (48 ≤ c ∧ c ≤ 57) ∨ c = 43 ∨ c = 46 ∨ c = 45
  auth : ∀ a, u.auth = some a → ∀ c ∈ a, c ≠ 47 ∧ c ≠ 63 ∧ c ≠ 35
  query : ∀ q, u.query = some q → ∀ c ∈ q, c ≠ 35
  pathAbs : ∀ l, u.path = .abs l → GoodSegs l
  pathRel : ∀ s l, u.path = .rel s l → u.scheme = none ∧ u.auth = none ∧ s ≠ [] ∧ GoodSegs (s :: l) ∧ ∀ c ∈ s, c ≠ 58

/-- The path of the target of a reference relative to a base with an absolute path. -/
def targetPath (base : List (List Nat)) (ref : Uri) : List (List Nat) :=
  match ref.path with
  | .abs [] => if ref.scheme.isSome ∨ ref.auth.isSome then [] else norm base
  | .abs l => norm l
  | .rel s l => norm ((norm base).dropLast ++ s :: l)

/-- The target of a reference (section 5.2.2); the base is normalized first (section 5.2.1), and `bpath` has the segments of its path. -/
def target (base : Uri) (bpath : List (List Nat)) (ref : Uri) : Uri :=
  { scheme := if ref.scheme.isSome then ref.scheme else base.scheme
    auth := if ref.scheme.isSome ∨ ref.auth.isSome then ref.auth else base.auth
    path := .abs (targetPath bpath ref)
    query := if ref.scheme.isNone ∧ ref.auth.isNone ∧ ref.path.text = [] ∧ ref.query.isNone then base.query else ref.query
    frag := ref.frag }

/-- The target of the first reference is the base of the second one, and so on. -/
def targets (base : Uri) (bpath : List (List Nat)) : List Uri → Uri
  | [] => base
  | r :: rs => targets (target base bpath r) (targetPath bpath r) rs

end Gauche.UriMerge

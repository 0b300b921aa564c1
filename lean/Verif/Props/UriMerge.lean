import Verif.Proof.UriMerge
/-! C91: relative resolution of URIs. -/
namespace Gauche.UriMerge

/-- C91: the result of `uri-merge` is the text of the target that RFC 3986 prescribes.  The base has an absolute path, or an authority and
an empty path. -/
theorem C91_merge {base ref : Uri} (hb : base.Valid) (hr : ref.Valid) {bs : List (List Nat)} (hbs : base.path = .abs bs)
    (h : bs ≠ [] ∨ base.auth.isSome) : uriMerge base.text ref.text [] = some (target base bs ref).text :=
  merge1_target hb hr hbs true h (fun h => by cases h)

theorem target_norm (bs : List (List Nat)) (r : Uri) : norm (targetPath bs r) = targetPath bs r := by
  rw [targetPath]
  split
  · split
    · rfl
    · exact norm_norm _
  · exact norm_norm _
  · exact norm_norm _

theorem target_ne {bs : List (List Nat)} (hb : bs ≠ []) {r : Uri} (h : r.scheme.isSome ∨ r.auth.isSome → r.path ≠ .abs []) :
    targetPath bs r ≠ [] := by
  rw [targetPath]
  split
  · rename_i e
    rw [if_neg (fun h' => h h' e)]
    exact norm_ne hb
  · rename_i l hl e
    refine norm_ne ?_
    rintro rfl
    exact hl rfl
  · exact norm_ne (by simp)

theorem rec_targets : ∀ (rs : List Uri) (base r : Uri) (bs : List (List Nat)) (initial : Bool), base.Valid → r.Valid → base.path = .abs bs →
    bs ≠ [] → (initial = false → norm bs = bs) → (∀ x ∈ r :: rs, x.Valid ∧ (x.scheme.isSome ∨ x.auth.isSome → x.path ≠ .abs [])) →
    rec base.text r.text (rs.map Uri.text) initial = some (targets base bs (r :: rs)).text := by
  intro rs
  induction rs with
  | nil => intro base r bs initial hb hr hbs h0 hi _; exact merge1_target hb hr hbs initial (Or.inl h0) (fun h => ⟨h0, hi h⟩)
  | cons u rs ih =>
    intro base r bs initial hb hr hbs h0 hi hall
    have h1 := merge1_target hb hr hbs initial (Or.inl h0) (fun h => ⟨h0, hi h⟩)
    rw [List.map_cons, rec, h1, Option.bind_some]
    exact ih (target base bs r) u (targetPath bs r) false (target_valid hb hr hbs) (hall u (by simp)).1 rfl
      (target_ne h0 (hall r List.mem_cons_self).2) (fun _ => target_norm bs r) (fun x hx => hall x (List.mem_cons_of_mem _ hx))

/-- C91: with more references, the target of each is the base of the next, provided that no path on the way is empty. -/
theorem C91_more_partial {base : Uri} (hb : base.Valid) {bs : List (List Nat)} (hbs : base.path = .abs bs) (h0 : bs ≠ []) (r : Uri) (rs : List Uri)
    (hall : ∀ x ∈ r :: rs, x.Valid ∧ (x.scheme.isSome ∨ x.auth.isSome → x.path ≠ .abs [])) :
    uriMerge base.text r.text (rs.map Uri.text) = some (targets base bs (r :: rs)).text :=
  rec_targets rs base r bs true hb (hall r List.mem_cons_self).1 hbs h0 (fun h => by cases h) hall

/-- C91: dot segments are resolved in every absolute path without empty segments inside, and none is left. -/
theorem C91_dots {l : List (List Nat)} (h : GoodSegs l) (h0 : l ≠ []) :
    canonicalize (some (abs l)) = abs (norm l) ∧ (∀ s ∈ norm l, s ≠ [46] ∧ s ≠ [46, 46]) ∧ GoodSegs (norm l) :=
  ⟨canon_good h h0, norm_nodot l, norm_good h⟩

/-- C91: everything after an empty segment that is not the last one is left as it is. -/
theorem C91_empty_segment (l : List (List Nat)) (t : List Nat) (post : List (List Nat)) (hs : ∀ s ∈ l, ∀ c ∈ s, c ≠ 47) (hn : ∀ s ∈ l, s ≠ []) :
    canonicalize (some (abs (l ++ [] :: t :: post))) = abs ((l.foldl step []).reverse ++ [] :: t :: post) := by
  rw [canonicalize]
  exact loop_empty post t l _ [] (by rw [Option.getD_some]; omega) hs hn

/-- What C91 does not give: dot segments after an empty segment remain, for example in the target of `a//b/../c` relative to
`http://h/`; RFC 3986 gives the path `/a//c`. -/
theorem C91_bug_empty_segment : canonicalize (some (abs [[97], [], [98], [46, 46], [99]])) = abs [[97], [], [98], [46, 46], [99]] ∧
    norm [[97], [], [98], [46, 46], [99]] = [[97], [], [99]] :=
  ⟨C91_empty_segment [[97]] [98] [[46, 46], [99]] (by decide) (by decide), by decide⟩

/-- What C91 does not give: if the first merge gives a URI with an authority and no path, the second one shows the path as `#f`, or raises an
error for a relative path: `(uri-merge "http://h" "" "")` is `"http://h#f"`, and `(uri-merge "http://h" "" "g")` is an error. -/
theorem C91_bug_empty_base : uriMerge [104, 116, 116, 112, 58, 47, 47, 104] [] [[]] = some [104, 116, 116, 112, 58, 47, 47, 104, 35, 102] ∧
    uriMerge [104, 116, 116, 112, 58, 47, 47, 104] [] [[103]] = none := by decide +kernel

/-! Concrete cases: `http://a/b/c/d;p?q` with `../../g?y`, `?y`, `#s`, `//g` and `.` (RFC 3986, section 5.4). -/

def exBase : Uri := ⟨some [104], some [97], .abs [[98], [99], [100, 59, 112]], some [113], none⟩

theorem exBase_valid : exBase.Valid where
  scheme := by intro s h; cases h; exact ⟨⟨104, [], rfl, by decide, by decide⟩, by decide⟩
  auth := by intro s h; cases h; decide
  query := by intro s h; cases h; decide
  pathAbs := by intro l h; cases h; exact ⟨by decide, by decide⟩
  pathRel := by intro s l h; cases h

def exRef : Uri := ⟨none, none, .rel [46, 46] [[46, 46], [103]], some [121], none⟩

theorem exRef_valid : exRef.Valid where
  scheme := by intro s h; cases h
  auth := by intro s h; cases h
  query := by intro s h; cases h; decide
  pathAbs := by intro l h; cases h
  pathRel := by intro s l h; cases h; exact ⟨rfl, rfl, by decide, ⟨by decide, by decide⟩, by decide⟩

example : uriMerge exBase.text exRef.text [] = some (target exBase [[98], [99], [100, 59, 112]] exRef).text :=
  C91_merge exBase_valid exRef_valid rfl (Or.inl (by decide))

example : targetPath [[98], [99], [100, 59, 112]] exRef = [[103]] := by decide

example : uriMerge exBase.text exRef.text [exRef.text] = some (targets exBase [[98], [99], [100, 59, 112]] [exRef, exRef]).text :=
  C91_more_partial exBase_valid rfl (by decide) exRef [exRef] (by
    intro x hx
    have : x = exRef := by simpa using hx
    rw [this]
    exact ⟨exRef_valid, fun h => by rcases h with h | h <;> cases h⟩)

example : targetPath [[98], [99], [100]] ⟨none, none, .rel [46] [], none, none⟩ = [[98], [99], []] := by decide
example : targetPath [[98], [99], [100]] ⟨none, none, .rel [46, 46] [], none, none⟩ = [[98], []] := by decide
example : targetPath [[98], [99], [100]] ⟨none, none, .rel [103] [[46]], none, none⟩ = [[98], [99], [103], []] := by decide
example : targetPath [[98], [99], [100]] ⟨none, none, .abs [], none, none⟩ = [[98], [99], [100]] := by decide
example : targetPath [[98]] ⟨none, some [103], .abs [], none, none⟩ = [] := by decide

end Gauche.UriMerge

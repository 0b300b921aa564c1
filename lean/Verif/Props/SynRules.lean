import Verif.Proof.SynEval

/-!
# C72, C73, C74: `syntax-rules`

`compRules C head rs` is what defining the macro does (`none`: an error at
definition time), `expand C head fuel base rules use` what a use of the macro
expands to, where a loop of the expander is given `fuel` rounds (the code has no
bound: `some .more` means that a loop is still running), and `base` is the first
identifier that does not exist yet.  `C.syn` says which identifiers are the
ellipsis, literals and the underscore; `Applies`, `Matches` and `Inst` are the
specification (Verif.Spec.SynRules).
-/
namespace Gauche.SynRules
open Form

/-! ## C72: which rule is used -/

/-- A use is expanded with the first rule whose pattern matches: the macro behaves
as if it had that rule only. -/
theorem C72_first_match {C : Cfg} {head : Bool} {pre post : List (Form × Form)} {P T use : Form}
    {l : List Rule} {b : Binding}
    (hc : compRules C head (pre ++ (P, T) :: post) = some l)
    (hw : ∀ pt ∈ pre ++ (P, T) :: post, pt.1.WF) (hu : use.WF) (hcall : IsCall head use)
    (hpre : ∀ pt ∈ pre, ∀ b', ¬ Applies C.syn head pt.1 use b')
    (hb : Applies C.syn head P use b) :
    ∃ r, compRules C head [(P, T)] = some [r] ∧ ∀ fuel base,
      expand C head fuel base l use = expand C head fuel base [r] use ∧
      expand C head fuel base [r] use ≠ none := by
  obtain ⟨l1, r, l2, rfl, h1, h2⟩ := compRules_app hc
  refine ⟨r, by rw [compRules, h2, compRules], fun fuel base => ?_⟩
  have hsk := expand_skip (C := C) hu hcall fuel base (r :: l2) h1
    (fun pt h => hw pt (List.mem_append_left _ h)) hpre
  obtain ⟨p, c, vs, t, ml, vt, h3, h4, h5⟩ := compRule_some h2
  have ht := (try_spec h3 (hw _ (List.mem_append_right _ List.mem_cons_self)) hu hcall t
    c.pvcnt ml).1.2 ⟨b, hb⟩
  rw [← h5] at ht
  rw [hsk]
  cases h6 : tryRule C head r use with
  | none => rw [h6] at ht; cases ht
  | some m =>
    refine ⟨by rw [expand, expand, h6], ?_⟩
    rw [expand, h6]
    exact fun h => by cases h

/-- A use is an error exactly when no pattern matches it. -/
theorem C72_error_iff {C : Cfg} {head : Bool} {rs : List (Form × Form)} {use : Form}
    {l : List Rule} (hc : compRules C head rs = some l)
    (hw : ∀ pt ∈ rs, pt.1.WF) (hu : use.WF) (hcall : IsCall head use) (fuel base : Nat) :
    expand C head fuel base l use = none ↔
      ∀ pt ∈ rs, ∀ b, ¬ Applies C.syn head pt.1 use b := by
  constructor
  · intro h pt hpt b hb
    induction rs generalizing l with
    | nil => cases hpt
    | cons pt' rs ih =>
      obtain ⟨P, T⟩ := pt'
      by_cases hex : ∃ b', Applies C.syn head P use b'
      · obtain ⟨b', hb'⟩ := hex
        obtain ⟨r, _, h2⟩ := C72_first_match (pre := []) hc hw hu hcall
          (fun pt h => by cases h) hb'
        exact (h2 fuel base).2 ((h2 fuel base).1.symm.trans h)
      · rcases List.mem_cons.1 hpt with h1 | h1
        · subst h1; exact hex ⟨b, hb⟩
        · obtain ⟨l1, r, l2, rfl, h3, h4⟩ := compRules_app (pre := []) hc
          rw [compRules] at h3
          injection h3 with h3
          subst h3
          have hskip := expand_skip (C := C) (head := head) (use := use) hu hcall fuel base l2
            (pre := [(P, T)]) (l1 := [r]) (by rw [compRules, h4, compRules])
            (fun pt h => hw pt (by
              rw [List.mem_singleton] at h; subst h; exact List.mem_cons_self))
            (fun pt h b' hb' => by
              rw [List.mem_singleton] at h; subst h; exact hex ⟨b', hb'⟩)
          rw [List.nil_append] at h hc
          refine ih (l := l2) ?_ (fun pt h => hw pt (List.mem_cons_of_mem _ h)) ?_ h1
          · rw [compRules, h4] at hc
            dsimp only at hc
            cases h5 : compRules C head rs with
            | none => rw [h5] at hc; cases hc
            | some l3 =>
              rw [h5] at hc
              injection hc with hc
              injection hc with _ hc
              rw [hc]
          · rw [← hskip]; exact h
  · intro h
    have := expand_skip (C := C) hu hcall fuel base [] hc hw h
    rw [List.append_nil] at this
    rw [this, expand]

/-- With an ordinary `syntax-rules` (`head` off) a bare identifier as a use is
expanded by the first rule whose pattern is a sole identifier — or `(kw . _)`. -/
theorem C72_identifier_use {C : Cfg} {P T : Form} {r : Rule} {x : Nat}
    (hc : compRule C false P T = some r) :
    (tryRule C false r (.sym x)).isSome = true ↔
      (∃ y, P = .sym y) ∨
      (∃ kw u, P = .cons kw (.sym u) ∧ C.isWild u = true ∧ C.lits.contains u = false) := by
  obtain ⟨p, c, vs, t, ml, vt, h1, h2, rfl⟩ := compRule_some hc
  rw [try_false]
  cases P with
  | sym y =>
    rw [compPattern] at h1
    injection h1 with h1
    injection h1 with h1 _
    subst h1
    exact ⟨fun _ => .inl ⟨y, rfl⟩, fun _ => rfl⟩
  | nil => cases h1
  | atom k => cases h1
  | vec l => cases h1
  | cons kw Q =>
    rw [compPattern] at h1
    have hu : p = .under ↔
        ∃ u, Q = .sym u ∧ C.isWild u = true ∧ C.lits.contains u = false := by
      cases Q with
      | nil =>
        rw [compPat_nil] at h1; injection h1 with h1; injection h1 with h1 _; subst h1
        exact ⟨(fun h => by cases h), (fun ⟨u, h, _⟩ => by cases h)⟩
      | atom k =>
        rw [compPat_atom] at h1; injection h1 with h1; injection h1 with h1 _; subst h1
        exact ⟨(fun h => by cases h), (fun ⟨u, h, _⟩ => by cases h)⟩
      | vec l =>
        obtain ⟨q, _, h3⟩ := compPat_vec_some h1
        have h3 : p = _ := h3
        subst h3
        exact ⟨(fun h => by cases h), (fun ⟨u, h, _⟩ => by cases h)⟩
      | cons a d =>
        have := compPat_isPair h1
        refine ⟨fun h => ?_, (fun ⟨u, h, _⟩ => by cases h)⟩
        subst h; cases this
      | sym u =>
        obtain ⟨_, h3⟩ := compPat_sym_some h1
        rcases h3 with ⟨h4, h5⟩ | ⟨h4, h5, h6⟩ | ⟨h4, h5, _, h6⟩
        · injection h5 with h5 _
          subst h5
          refine ⟨(fun h => by cases h), ?_⟩
          rintro ⟨u', h6, _, h7⟩
          injection h6 with h6
          subst h6
          have h4 : C.lits.contains u = true := h4
          rw [h4] at h7; cases h7
        · injection h6 with h6 _
          subst h6
          exact ⟨fun _ => ⟨u, rfl, h5, h4⟩, fun _ => rfl⟩
        · injection h6 with h6 _
          subst h6
          refine ⟨(fun h => by cases h), ?_⟩
          rintro ⟨u', h7, h8, _⟩
          injection h7 with h7
          subst h7
          rw [h5] at h8; cases h8
    by_cases hp : p = .under
    · rw [if_pos hp]
      obtain ⟨u, h3, h4, h5⟩ := hu.1 hp
      exact ⟨fun _ => .inr ⟨kw, u, by rw [h3], h4, h5⟩, fun _ => rfl⟩
    · rw [if_neg hp]
      refine ⟨(fun h => by cases h), ?_⟩
      rintro (⟨y, h⟩ | ⟨kw', u, h3, h4, h5⟩)
      · cases h
      · injection h3 with _ h3
        exact absurd (hu.2 ⟨u, h3, h4, h5⟩) hp

/-! ## C73: what a use expands to

Missing for a full claim: patterns in which a vector that ends in an ellipsis is
itself below an ellipsis (there the code is wrong, `C73_bug_vector`), and
templates that iterate over variables with different numbers of matches, which
R7RS leaves to the implementation. -/

/-- A use expands to the template of the rule, instantiated with what the pattern
variables match; the identifiers that the template inserts are renamed to new
ones, the same for the same identifier and different for different ones. -/
theorem C73_expansion_partial {C : Cfg} {head : Bool} {pre post : List (Form × Form)}
    {P T use : Form} {l : List Rule} {b : Binding}
    (hc : compRules C head (pre ++ (P, T) :: post) = some l)
    (hw : ∀ pt ∈ pre ++ (P, T) :: post, pt.1.WF) (hu : use.WF) (hcall : IsCall head use)
    (hpre : ∀ pt ∈ pre, ∀ b', ¬ Applies C.syn head pt.1 use b')
    (hb : Applies C.syn head P use b)
    (hv : VecOK C.syn false (matched head P))
    (hinst : ∃ ρ R, Inst C.syn ρ true T .start b.env R) (base : Nat) :
    ∃ ρ R N, (∀ x y, ρ x = ρ y → x = y) ∧ (∀ x, base ≤ ρ x) ∧
      Inst C.syn ρ true T .start b.env R ∧
      ∀ fuel, N ≤ fuel → expand C head fuel base l use = some (.ok R) := by
  obtain ⟨r, h1, h2⟩ := C72_first_match hc hw hu hcall hpre hb
  have h3 : compRule C head P T = some r := by
    rw [compRules] at h1
    cases h : compRule C head P T with
    | none => rw [h] at h1; cases h1
    | some r' =>
      rw [h, compRules] at h1
      injection h1 with h1
      injection h1 with h1 _
      rw [h1]
  have h4 := (h2 0 base).2
  rw [expand] at h4
  cases h5 : tryRule C head r use with
  | none => rw [h5, expand] at h4; exact absurd rfl h4
  | some m =>
    obtain ⟨N, hN⟩ := rule_real h3 (hw _ (List.mem_append_right _ List.mem_cons_self)) hu
      hcall hv h5 hb hinst base
    obtain ⟨ρ, R, r1, r2, r3, r4⟩ := hN N (Nat.le_refl _)
    refine ⟨ρ, R, N, r1, r2, r3, fun fuel hf => ?_⟩
    have h6 : expand C head N base [r] use = some (.ok R) := by
      rw [expand, h5, ← r4]
    rw [(h2 fuel base).1, expand_mono hf [r] (by rw [h6]; exact fun h => by cases h), h6]

/-- The specification leaves no choice: the bindings and the renaming determine the
expansion. -/
theorem C73_spec_unique {S : Syn} {ρ : Nat → Nat} {T : Form} {env : Env} {R R' : Form}
    (h : Inst S ρ true T .start env R) (h' : Inst S ρ true T .start env R') : R = R' :=
  Inst_unique T h h'

/-! ## C74: expansion ends, within its array -/

/-- The result does not depend on the bound on the number of rounds once it is
large enough. -/
theorem C74_fuel {C : Cfg} {head : Bool} {fuel fuel' base : Nat} (hf : fuel ≤ fuel')
    {use : Form} {l : List Rule} {f : Form}
    (h : expand C head fuel base l use = some (.ok f)) :
    expand C head fuel' base l use = some (.ok f) := by
  rw [expand_mono hf l (by rw [h]; exact fun h => by cases h), h]

/-- Every use of a macro whose templates have no consecutive ellipses ends: with an
expansion, or with the error that no rule matches.  (For a full claim: `x ... ...`
as well, but see `C74_bug_forever`.) -/
theorem C74_terminates_partial {C : Cfg} {head : Bool} {rs : List (Form × Form)}
    {l : List Rule} (hc : compRules C head rs = some l)
    (hs : ∀ pt ∈ rs, SingleElls C.syn true pt.2 .start) (use : Form) (base : Nat) :
    ∃ N, (∀ fuel, N ≤ fuel → expand C head fuel base l use = none) ∨
      ∃ R, ∀ fuel, N ≤ fuel → expand C head fuel base l use = some (.ok R) := by
  induction rs generalizing l with
  | nil =>
    rw [compRules] at hc
    injection hc with hc
    subst hc
    exact ⟨0, .inl (fun _ _ => rfl)⟩
  | cons pt rs ih =>
    obtain ⟨P, T⟩ := pt
    rw [compRules] at hc
    cases h1 : compRule C head P T with
    | none => rw [h1] at hc; cases hc
    | some r =>
      rw [h1] at hc
      dsimp only at hc
      cases h2 : compRules C head rs with
      | none => rw [h2] at hc; cases hc
      | some l2 =>
        rw [h2] at hc
        injection hc with hc
        subst hc
        cases h3 : tryRule C head r use with
        | none =>
          obtain ⟨N, hN⟩ := ih h2 (fun pt h => hs pt (List.mem_cons_of_mem _ h))
          refine ⟨N, ?_⟩
          have : ∀ fuel, expand C head fuel base (r :: l2) use =
              expand C head fuel base l2 use := by
            intro fuel; rw [expand, h3]
          simp only [this]
          exact hN
        | some m =>
          obtain ⟨N, hN⟩ := rule_total h1 (hs _ List.mem_cons_self) h3 base
          obtain ⟨R, hR⟩ := hN N (Nat.le_refl _)
          refine ⟨N, .inr ⟨R, fun fuel hf => ?_⟩⟩
          have h4 : expand C head N base (r :: l2) use = some (.ok R) := by
            rw [expand, h3, ← hR]
          exact C74_fuel hf h4

/-- The array of loop indices: unless the number of levels is exactly 10, all cells
that are used are inside.  (For 10 levels see `C74_bug_index`.) -/
theorem C74_index_partial {C : Cfg} {head : Bool} {P T : Form} {r : Rule}
    (hc : compRule C head P T = some r) (h10 : r.maxLevel ≠ 10) :
    ∀ i ∈ allTouched r, i < indexCells r.maxLevel := by
  intro i hi
  have := rule_touched hc i hi
  rw [indexCells]
  by_cases h : r.maxLevel > 10
  · rw [if_pos h]; omega
  · rw [if_neg h]; omega

/-! ## Examples

Identifier 0 is `...`, 1 is `_`, 2 is the literal `=>`, 3 the literal `else`. -/

def exC : Cfg := ⟨fun x => x == 0, fun x => x == 1, [2, 3], fun x f => f == .sym x⟩

/-- `(_ ((n v) ...) b1 b ...)` with `((lambda (n ...) b1 b ...) v ...)`; 4 is
`lambda`, 10 `n`, 11 `v`, 12 `b1`, 13 `b`. -/
def letP : Form := ofList [.sym 1, ofList [ofList [.sym 10, .sym 11], .sym 0],
  .sym 12, .sym 13, .sym 0]
def letT : Form := ofList [ofList [.sym 4, ofList [.sym 10, .sym 0], .sym 12, .sym 13, .sym 0],
  .sym 11, .sym 0]
/-- `(my-let ((a 1) (b 2)) (f a) b)` -/
def letUse : Form := ofList [.sym 5, ofList [ofList [.sym 20, .atom 1], ofList [.sym 21, .atom 2]],
  ofList [.sym 22, .sym 20], .sym 21]

example : (compRules exC false [(letP, letT)]).isSome = true := by decide +kernel

example : ((compRules exC false [(letP, letT)]).map fun l =>
    expand exC false 10 100 l letUse) =
  some (some (.ok (ofList [ofList [.sym 100, ofList [.sym 20, .sym 21],
    ofList [.sym 22, .sym 20], .sym 21], .atom 1, .atom 2]))) := by decide +kernel

/-- The hypotheses of `C73_expansion_partial` hold in this example. -/
example : ∃ b, Applies exC.syn false letP letUse b ∧
    VecOK exC.syn false (matched false letP) ∧ letP.WF ∧ letUse.WF ∧ IsCall false letUse ∧
    ∃ ρ R, Inst exC.syn ρ true letT .start b.env R := by
  refine ⟨[(10, .node [.leaf (.sym 20), .leaf (.sym 21)]),
    (11, .node [.leaf (.atom 1), .leaf (.atom 2)]),
    (12, .leaf (ofList [.sym 22, .sym 20])), (13, .node [.leaf (.sym 21)])],
    ⟨_, _, rfl, (matchE_sound _ _).1 _ _ rfl⟩, ?_, ?_, ?_, .inr ⟨_, _, rfl⟩,
    fun x => 100 + x, _, instE_sound (S := exC.syn) letT rfl⟩ <;>
    simp [letP, letUse, ofList, prepend, VecOK, matched, Form.WF]

/-- Two rules, `(_ x => y)` and `(_ x ...)`: the first one is passed over. -/
example : ((compRules exC false [
      (ofList [.sym 1, .sym 10, .sym 2, .sym 11], .sym 10),
      (ofList [.sym 1, .sym 10, .sym 0], ofList [.sym 4, .sym 10, .sym 0])]).map fun l =>
    (expand exC false 10 100 l (ofList [.sym 5, .atom 1, .sym 9, .atom 2]),
     expand exC false 10 100 l (ofList [.sym 5, .atom 1, .sym 2, .atom 2]),
     expand exC false 10 100 l (.cons (.sym 5) (.atom 3)))) =
  some (some (.ok (ofList [.sym 100, .atom 1, .sym 9, .atom 2])), some (.ok (.atom 1)), none) := by
  decide +kernel

/-- `x ... ...` over a variable of depth 2, `(... ...)`, and elements after the
ellipsis. -/
example : ((compRules exC false [
      (ofList [.sym 1, ofList [.sym 10, .sym 0], .sym 0, .sym 11],
       ofList [.sym 11, ofList [.sym 0, .sym 0], .sym 10, .sym 0, .sym 0])]).map fun l =>
    expand exC false 10 100 l (ofList [.sym 5, ofList [.atom 1, .atom 2], .nil, ofList [.atom 3],
      .atom 9])) =
  some (some (.ok (ofList [.atom 9, .sym 100, .atom 1, .atom 2, .atom 3]))) := by
  decide +kernel

/-- A use with the head taking part in the match. -/
example : ((compRules exC true [
      (ofList [.sym 2, .sym 10], .sym 10), (ofList [.sym 11, .sym 10], .sym 11),
      (.sym 12, ofList [.sym 4, .sym 12])]).map fun l =>
    (expand exC true 10 100 l (ofList [.sym 2, .atom 1]),
     expand exC true 10 100 l (ofList [.sym 7, .atom 1]),
     expand exC true 10 100 l (.sym 7))) =
  some (some (.ok (.atom 1)), some (.ok (.sym 7)), some (.ok (ofList [.sym 100, .sym 7]))) := by
  decide +kernel

example : (∀ pt ∈ [(letP, letT)], SingleElls exC.syn true pt.2 .start) := by
  intro pt h
  rw [List.mem_singleton] at h
  subst h
  simp [letT, ofList, prepend, SingleElls, escape, ells, exC, Cfg.syn, Cfg.ell]

/-! ## Where the code departs from the specification -/

/-- `(_ (n #(a ...)) ...)` with `((n a ...) ...)`. -/
def bugP : Form := ofList [.sym 1,
  ofList [.sym 10, .vec (ofList [.sym 11, .sym 0])], .sym 0]
def bugT : Form := ofList [ofList [.sym 10, .sym 11, .sym 0], .sym 0]
/-- `(foo (x #(1 2)) (y #()) (z #(3)))` -/
def bugUse : Form := ofList [.sym 5, ofList [.sym 20, .vec (ofList [.atom 1, .atom 2])],
  ofList [.sym 21, .vec .nil], ofList [.sym 22, .vec (ofList [.atom 3])]]

/-- A repeated vector pattern whose ellipsis matches nothing is forgotten: by the
specification the use expands to `((x 1 2) (y) (z 3))`, the code gives
`((x 1 2) (y 3))`. -/
theorem C73_bug_vector : ∃ (l : List Rule) (b : Binding),
    compRules exC false [(bugP, bugT)] = some l ∧
    Applies exC.syn false bugP bugUse b ∧
    (∀ ρ, Inst exC.syn ρ true bugT .start b.env
      (ofList [ofList [.sym 20, .atom 1, .atom 2], ofList [.sym 21],
        ofList [.sym 22, .atom 3]])) ∧
    ∀ fuel, 10 ≤ fuel → ∀ base, expand exC false fuel base l bugUse =
      some (.ok (ofList [ofList [.sym 20, .atom 1, .atom 2], ofList [.sym 21, .atom 3]])) := by
  refine ⟨[⟨.cons (.ell 1 0 [(1, 0), (2, 1)] (.cons (.pv 1 0) (.cons (.vec
      (.cons (.ell 2 0 [(2, 1)] (.pv 2 1)) .nil)) .nil))) .nil,
      .cons (.ell 1 0 [(1, 0), (2, 1)] (.cons (.pv 1 0) (.cons
      (.ell 2 0 [(2, 1)] (.pv 2 1)) .nil))) .nil, 2, 2⟩],
    [(10, .node [.leaf (.sym 20), .leaf (.sym 21), .leaf (.sym 22)]),
     (11, .node [.node [.leaf (.atom 1), .leaf (.atom 2)], .node [], .node [.leaf (.atom 3)]])],
    ?_, ⟨_, _, rfl, (matchE_sound _ _).1 _ _ rfl⟩,
    fun ρ => instE_sound (S := exC.syn) bugT rfl, ?_⟩
  · decide +kernel
  · intro fuel hf base
    refine C74_fuel hf ?_
    rfl

/-- `(_ x ...)` with `(x ... ...)`. -/
def foreverP : Form := ofList [.sym 1, .sym 10, .sym 0]
def foreverT : Form := ofList [.sym 10, .sym 0, .sym 0]

theorem realLoop_forever {B : Nat → Ids → Res × Ids} {level : Nat} {splice : Bool}
    (hB : ∀ i s, ∃ r s1, B i s = (.ok r, s1)) : ∀ (n i : Nat) (h : List Form) (s : Ids),
    (realLoop B level splice n i h s).1 = .more := by
  intro n
  induction n with
  | zero => intro i h s; rfl
  | succ n ih =>
    intro i h s
    obtain ⟨r, s1, hb⟩ := hB i s
    rw [realLoop, hb]
    exact ih _ _ _

/-- An ellipsis too many is not reported when the macro is defined, and expanding
it never ends. -/
theorem C74_bug_forever : ∃ l : List Rule,
    compRules exC false [(foreverP, foreverT)] = some l ∧
    ∀ fuel base, expand exC false fuel base l (ofList [.sym 5, .atom 7]) = some .more := by
  refine ⟨[⟨.cons (.ell 1 0 [(1, 0)] (.pv 1 0)) .nil,
    .cons (.ell 1 0 [(1, 0)] (.ell 2 0 [] (.pv 1 0))) .nil, 1, 2⟩], by decide +kernel, ?_⟩
  intro fuel base
  have h1 : ∀ m : MVec, nth 0 (m 0).root = some (.atom 7) → ∀ s,
      (realize fuel m (.ell 1 0 [(1, 0)] (.ell 2 0 [] (.pv 1 0))) 0 (fun _ => 0) s).1 = .more := by
    intro m hm s
    rw [realize]
    cases hf : fuel with
    | zero => rfl
    | succ n =>
      rw [realLoop]
      have : (realize (n + 1) m (.ell 2 0 [] (.pv 1 0)) 1 (setIdx (fun _ => 0) 1 0) s).1 =
          .more := by
        rw [realize]
        refine realLoop_forever (fun i s => ⟨.atom 7, s, ?_⟩) _ _ _ _
        rw [realize, getPv]
        have : setIdx (setIdx (fun _ => 0) 1 0) (1 + 1) i 1 = 0 := by
          rw [setIdx, if_neg (by omega), setIdx, if_pos rfl]
        rw [this, hm]
        rfl
      rcases hr : realize (n + 1) m (.ell 2 0 [] (.pv 1 0)) 1 (setIdx (fun _ => 0) 1 0) s with
        ⟨r, s1⟩
      rw [hr] at this
      have this : r = .more := this
      subst this
      rfl
  rw [expand]
  have h2 : ∃ m, tryRule exC false ⟨.cons (.ell 1 0 [(1, 0)] (.pv 1 0)) .nil,
      .cons (.ell 1 0 [(1, 0)] (.ell 2 0 [] (.pv 1 0))) .nil, 1, 2⟩
      (ofList [.sym 5, .atom 7]) = some m ∧ nth 0 (m 0).root = some (.atom 7) :=
    ⟨_, rfl, rfl⟩
  obtain ⟨m, hm1, hm2⟩ := h2
  rw [hm1]
  have h3 := h1 m hm2 ⟨base, []⟩
  dsimp only
  rw [realize]
  rcases hr : realize fuel m (.ell 1 0 [(1, 0)] (.ell 2 0 [] (.pv 1 0))) 0 (fun _ => 0)
    ⟨base, []⟩ with ⟨r, s1⟩
  rw [hr] at h3
  have h3 : r = .more := h3
  subst h3
  rfl

/-- `x ...` nested nine deep. -/
def deepP : Nat → Form
  | 0 => .sym 10
  | n + 1 => ofList [deepP n, .sym 0]

/-- Nine nested ellipses: the expander writes behind the end of its array (of 10
integers on the C stack). -/
theorem C74_bug_index : ∃ r, compRule exC false (.cons (.sym 1) (deepP 9)) (deepP 9) = some r ∧
    r.maxLevel = 10 ∧ indexCells r.maxLevel = 10 ∧ 10 ∈ allTouched r := by
  have h : (compRule exC false (.cons (.sym 1) (deepP 9)) (deepP 9)).map
      (fun r => (r.maxLevel, decide (10 ∈ allTouched r))) = some (10, true) := by
    decide +kernel
  cases hr : compRule exC false (.cons (.sym 1) (deepP 9)) (deepP 9) with
  | none => rw [hr] at h; cases h
  | some r =>
    rw [hr] at h
    injection h with h
    injection h with h1 h2
    exact ⟨r, rfl, h1, by rw [h1]; rfl, by simpa using h2⟩

/-- The pattern `(_ . _)` also accepts a bare identifier as a use, unlike `(_ . x)`. -/
theorem C72_bug_underscore : ∃ r r',
    compRule exC false (.cons (.sym 1) (.sym 1)) (.atom 7) = some r ∧
    compRule exC false (.cons (.sym 1) (.sym 10)) (.atom 7) = some r' ∧
    expand exC false 10 100 [r] (.sym 5) = some (.ok (.atom 7)) ∧
    expand exC false 10 100 [r'] (.sym 5) = none ∧
    ∀ b, ¬ Applies exC.syn false (.cons (.sym 1) (.sym 1)) (.sym 5) b := by
  refine ⟨⟨.under, .atom 7, 0, 0⟩, ⟨.pv 0 0, .atom 7, 1, 0⟩, by decide +kernel,
    by decide +kernel, by decide +kernel, by decide +kernel, ?_⟩
  rintro b ⟨kw, F, h, _⟩
  cases h

end Gauche.SynRules

import Verif.Model.SynRules

/-! # Compiled patterns: what the compiler guarantees, and when they match -/
namespace Gauche.SynRules
open Form

/-- The meaning of identifiers in a macro definition. -/
def Cfg.syn (C : Cfg) : Syn := ⟨C.ell, fun x => C.lits.contains x, C.isWild, C.same⟩

/-- What is left of a list after passing over some elements. -/
def skipF : Nat → Form → Form
  | k + 1, .cons _ d => skipF k d
  | _, f => f

def Mode.skip : Mode → Nat
  | .head => 0
  | .tail _ k => k

/-! ## Unfolding the specification -/

theorem skipF_zero (f : Form) : skipF 0 f = f := by cases f <;> rfl

theorem ellNext_cases {C : Cfg} {d : Form} (h : ellNext C d = true) :
    ∃ e q, d = .cons (.sym e) q ∧ C.ell e = true := by
  cases d with
  | cons a q =>
    cases a with
    | sym e => exact ⟨e, q, rfl, h⟩
    | _ => simp [ellNext] at h
  | _ => simp [ellNext] at h

theorem matches_ell (C : Cfg) (P Q F : Form) (e : Nat) (b : Binding)
    (he : C.ell e = true) :
    Matches C.syn (.cons P (.cons (.sym e) Q)) F b ↔
      ∃ fs F2 bs b2, F = Form.prepend fs F2 ∧ F2.pairs = Q.pairs ∧
        Each (Matches C.syn P) fs bs ∧ Matches C.syn Q F2 b2 ∧
        b = collect (patVars C.syn P) bs ++ b2 := by
  rw [Matches]
  rw [if_pos (show C.syn.ell e = true from he)]

theorem matches_plain (C : Cfg) (P Q F : Form) (b : Binding)
    (he : ellNext C Q = false) :
    Matches C.syn (.cons P Q) F b ↔
      ∃ F1 F2 b1 b2, F = .cons F1 F2 ∧ Matches C.syn P F1 b1 ∧
        Matches C.syn Q F2 b2 ∧ b = b1 ++ b2 := by
  cases Q with
  | cons a q =>
    cases a with
    | sym e =>
      rw [Matches]
      rw [if_neg (show ¬ C.syn.ell e = true by
        have : C.ell e = false := he
        simp [Cfg.syn, this])]
    | _ => rw [Matches]; intro _ _ h; cases h
  | _ => rw [Matches]; intro _ _ h; cases h

/-! ## The compiler's cases -/

theorem compPat_skip (C : Cfg) (lev : Nat) (a d : Form) (s : Bool) (k : Nat)
    (c : Ctx) (vs : List PVRef) :
    compPat C lev (.cons a d) (.tail s (k + 1)) c vs =
      compPat C lev d (.tail s k) c vs := by
  rw [compPat]

/-- Modes in which a pair is compiled as an element and a rest. -/
theorem compPat_cons (C : Cfg) (lev : Nat) (a d : Form) (m : Mode)
    (c : Ctx) (vs : List PVRef) (hm : m.skip = 0) :
    compPat C lev (.cons a d) m c vs =
      if m = .head ∧ ellHead C a d = true then none
      else if ellNext C d then
        if m.seen then none
        else
          match compPat C (lev + 1) a .head
              { c with maxlev := bumpLev c.maxlev (lev + 1) } [] with
          | none => none
          | some (p, c1, v1) =>
            match compPat C lev d (.tail true 1) c1 (vs ++ v1) with
            | none => none
            | some (q, c2, v2) =>
              some (.cons (.ell (lev + 1) (trailing d) v1 p) q, c2, v2)
      else
        match compPat C lev a .head c vs with
        | none => none
        | some (p, c1, v1) =>
          match compPat C lev d (.tail m.seen 0) c1 v1 with
          | none => none
          | some (q, c2, v2) => some (.cons p q, c2, v2) := by
  cases m with
  | head => rw [compPat] <;> first | rfl | (intro _ _ h; cases h)
  | tail s k =>
    cases k with
    | zero => rw [compPat] <;> first | rfl | (intro _ _ h; cases h)
    | succ k => cases hm

/-- What a successful compilation of a pair looks like. -/
theorem compPat_cons_some {C : Cfg} {lev : Nat} {a d : Form} {m : Mode}
    {c : Ctx} {vs : List PVRef} {r : Pat × Ctx × List PVRef} (hm : m.skip = 0)
    (h : compPat C lev (.cons a d) m c vs = some r) :
    (∃ e Q p c1 v1 q, d = .cons (.sym e) Q ∧ C.ell e = true ∧ m.seen = false ∧
      compPat C (lev + 1) a .head
        { c with maxlev := bumpLev c.maxlev (lev + 1) } [] = some (p, c1, v1) ∧
      compPat C lev Q (.tail true 0) c1 (vs ++ v1) = some (q, r.2.1, r.2.2) ∧
      r.1 = .cons (.ell (lev + 1) Q.pairs v1 p) q) ∨
    (∃ p c1 v1 q, ellNext C d = false ∧
      compPat C lev a .head c vs = some (p, c1, v1) ∧
      compPat C lev d (.tail m.seen 0) c1 v1 = some (q, r.2.1, r.2.2) ∧
      r.1 = .cons p q) := by
  rw [compPat_cons C lev a d m c vs hm] at h
  by_cases h1 : m = .head ∧ ellHead C a d = true
  · rw [if_pos h1] at h; cases h
  rw [if_neg h1] at h
  by_cases h2 : ellNext C d = true
  · rw [if_pos h2] at h
    by_cases h3 : m.seen = true
    · rw [if_pos h3] at h; cases h
    rw [if_neg h3] at h
    obtain ⟨e, Q, rfl, he⟩ := ellNext_cases h2
    cases h4 : compPat C (lev + 1) a .head
        { c with maxlev := bumpLev c.maxlev (lev + 1) } [] with
    | none => rw [h4] at h; cases h
    | some r1 =>
      obtain ⟨p, c1, v1⟩ := r1
      rw [h4] at h
      simp only [compPat_skip] at h
      cases h5 : compPat C lev Q (.tail true 0) c1 (vs ++ v1) with
      | none => rw [h5] at h; cases h
      | some r2 =>
        obtain ⟨q, c2, v2⟩ := r2
        rw [h5] at h
        injection h with h
        subst h
        exact .inl ⟨e, Q, p, c1, v1, q, rfl, he, by simpa using h3, rfl, h5, rfl⟩
  · rw [if_neg h2] at h
    cases h4 : compPat C lev a .head c vs with
    | none => rw [h4] at h; cases h
    | some r1 =>
      obtain ⟨p, c1, v1⟩ := r1
      rw [h4] at h
      dsimp only at h
      cases h5 : compPat C lev d (.tail m.seen 0) c1 v1 with
      | none => rw [h5] at h; cases h
      | some r2 =>
        obtain ⟨q, c2, v2⟩ := r2
        rw [h5] at h
        injection h with h
        subst h
        exact .inr ⟨p, c1, v1, q, by simpa using h2, rfl, h5, rfl⟩

/-- Compilation of a vector. -/
theorem compPat_vec_some {C : Cfg} {lev : Nat} {l : Form} {m : Mode}
    {c : Ctx} {vs : List PVRef} {r : Pat × Ctx × List PVRef}
    (h : compPat C lev (.vec l) m c vs = some r) :
    ∃ p, compPat C lev l .head c vs = some (p, r.2.1, r.2.2) ∧ r.1 = .vec p := by
  rw [compPat] at h
  cases h4 : compPat C lev l .head c vs with
  | none => rw [h4] at h; cases h
  | some r1 =>
    obtain ⟨p, c1, v1⟩ := r1
    rw [h4] at h
    injection h with h
    subst h
    exact ⟨p, rfl, rfl⟩

/-- Compilation of an identifier. -/
theorem compPat_sym_some {C : Cfg} {lev : Nat} {x : Nat} {m : Mode}
    {c : Ctx} {vs : List PVRef} {r : Pat × Ctx × List PVRef}
    (h : compPat C lev (.sym x) m c vs = some r) :
    C.ell x = false ∧
    ((C.syn.lit x = true ∧ r = (.ident x, c, vs)) ∨
     (C.syn.lit x = false ∧ C.isWild x = true ∧ r = (.under, c, vs)) ∨
     (C.syn.lit x = false ∧ C.isWild x = false ∧ lookupPv x c.pvars = none ∧
      r = (.pv lev c.pvcnt,
        { c with pvars := (x, (lev, c.pvcnt)) :: c.pvars, pvcnt := c.pvcnt + 1 },
        (lev, c.pvcnt) :: vs))) := by
  rw [compPat] at h
  by_cases h1 : C.ell x = true
  · rw [if_pos h1] at h; cases h
  rw [if_neg h1] at h
  refine ⟨by simpa using h1, ?_⟩
  by_cases h2 : C.lits.contains x = true
  · rw [if_pos h2] at h
    injection h with h
    exact .inl ⟨h2, h.symm⟩
  rw [if_neg h2] at h
  have h2' : C.syn.lit x = false := by
    show C.lits.contains x = false
    simpa using h2
  by_cases h3 : C.isWild x = true
  · rw [if_pos h3] at h
    injection h with h
    exact .inr (.inl ⟨h2', h3, h.symm⟩)
  rw [if_neg h3] at h
  rw [addPvar] at h
  by_cases h4 : lev > 255
  · rw [if_pos h4] at h; cases h
  rw [if_neg h4] at h
  by_cases h5 : c.pvcnt > 255
  · rw [if_pos h5] at h; cases h
  rw [if_neg h5] at h
  by_cases h6 : (lookupPv x c.pvars).isSome = true
  · rw [if_pos h6] at h; cases h
  rw [if_neg h6] at h
  injection h with h
  exact .inr (.inr ⟨h2', by simpa using h3, by simpa using h6, h.symm⟩)

/-- In mode `tail` with nothing to pass over, and at the start, a form that is no
pair is treated the same; induction on the pattern goes by modes. -/
theorem compPat_nil {C : Cfg} {lev : Nat} {m : Mode} {c : Ctx} {vs : List PVRef} :
    compPat C lev .nil m c vs = some (.nil, c, vs) := by
  rw [compPat]

theorem compPat_atom {C : Cfg} {lev k : Nat} {m : Mode} {c : Ctx} {vs : List PVRef} :
    compPat C lev (.atom k) m c vs = some (.atom k, c, vs) := by
  rw [compPat]

/-! ## Variables -/

/-- `c'` extends `c` by the variables `xs`, of level `lev` at least. -/
structure Ext (lev : Nat) (c c' : Ctx) (xs : List Nat) : Prop where
  new : ∀ x ∈ xs, lookupPv x c.pvars = none ∧
    ∃ l n, lookupPv x c'.pvars = some (l, n) ∧ lev ≤ l ∧ c.pvcnt ≤ n ∧ n < c'.pvcnt
  old : ∀ x, x ∉ xs → lookupPv x c'.pvars = lookupPv x c.pvars
  nodup : xs.Nodup
  mono : c.pvcnt ≤ c'.pvcnt

theorem Ext.refl (lev : Nat) (c : Ctx) : Ext lev c c [] :=
  ⟨(fun _ h => by cases h), fun _ _ => rfl, List.nodup_nil, Nat.le_refl _⟩

theorem Ext.keep {lev : Nat} {c c' : Ctx} {xs : List Nat} (h : Ext lev c c' xs)
    {x : Nat} {r : PVRef} (hx : lookupPv x c.pvars = some r) :
    lookupPv x c'.pvars = some r := by
  rw [h.old x (fun hm => by rw [(h.new x hm).1] at hx; cases hx)]
  exact hx

theorem Ext.trans {lev : Nat} {c c1 c2 : Ctx} {xs ys : List Nat}
    (h1 : Ext lev c c1 xs) (h2 : Ext lev c1 c2 ys) : Ext lev c c2 (xs ++ ys) := by
  refine ⟨?_, ?_, ?_, Nat.le_trans h1.mono h2.mono⟩
  · intro x hx
    by_cases hm : x ∈ xs
    · obtain ⟨hn, l, n, hl, h3, h4, h5⟩ := h1.new x hm
      exact ⟨hn, l, n, h2.keep hl, h3, h4, Nat.lt_of_lt_of_le h5 h2.mono⟩
    · have hy : x ∈ ys := by
        rcases List.mem_append.1 hx with h | h
        · exact absurd h hm
        · exact h
      obtain ⟨hn, l, n, hl, h3, h4, h5⟩ := h2.new x hy
      refine ⟨?_, l, n, hl, h3, Nat.le_trans h1.mono h4, h5⟩
      rw [← h1.old x hm]; exact hn
  · intro x hx
    rw [List.mem_append, not_or] at hx
    rw [h2.old x hx.2, h1.old x hx.1]
  · rw [List.nodup_append]
    refine ⟨h1.nodup, h2.nodup, ?_⟩
    intro a ha b hb hab
    subst hab
    obtain ⟨_, l, n, hl, _⟩ := h1.new a ha
    rw [(h2.new a hb).1] at hl
    cases hl

theorem Ext.weaken {lev lev' : Nat} {c c' : Ctx} {xs : List Nat}
    (h : Ext lev' c c' xs) (hl : lev ≤ lev') : Ext lev c c' xs :=
  ⟨fun x hx => by
    obtain ⟨hn, l, n, h1, h2, h3⟩ := h.new x hx
    exact ⟨hn, l, n, h1, Nat.le_trans hl h2, h3⟩, h.old, h.nodup, h.mono⟩

theorem Ext.maxlev {lev : Nat} {c c' : Ctx} {xs : List Nat} {ml : Nat}
    (h : Ext lev { c with maxlev := ml } c' xs) : Ext lev c c' xs :=
  ⟨h.new, h.old, h.nodup, h.mono⟩

/-- The compiler numbers exactly the pattern variables of the pattern, and
collects their references. -/
theorem compPat_ext (C : Cfg) (P : Form) :
    ∀ (lev : Nat) (m : Mode) (c : Ctx) (vs : List PVRef)
      (r : Pat × Ctx × List PVRef), compPat C lev P m c vs = some r →
      Ext lev c r.2.1 (patVars C.syn (skipF m.skip P)) ∧
      (∀ v, v ∈ r.2.2 ↔ v ∈ vs ∨
        ∃ x ∈ patVars C.syn (skipF m.skip P), lookupPv x r.2.1.pvars = some v) := by
  have leaf : ∀ (P' : Form), patVars C.syn P' = [] →
      ∀ lev c (vs : List PVRef), Ext lev c c (patVars C.syn P') ∧
      (∀ v, v ∈ vs ↔ v ∈ vs ∨
        ∃ x ∈ patVars C.syn P', lookupPv x c.pvars = some v) := by
    intro P' hP lev c vs
    rw [hP]
    refine ⟨Ext.refl lev c, fun v => ⟨.inl, ?_⟩⟩
    rintro (h | ⟨x, hx, _⟩)
    · exact h
    · cases hx
  induction P with
  | nil =>
    intro lev m c vs r h
    rw [compPat_nil] at h
    injection h with h
    subst h
    have : skipF m.skip .nil = .nil := by cases m.skip <;> rfl
    rw [this]
    exact leaf .nil rfl lev c vs
  | atom k =>
    intro lev m c vs r h
    rw [compPat_atom] at h
    injection h with h
    subst h
    have : skipF m.skip (.atom k) = .atom k := by cases m.skip <;> rfl
    rw [this]
    exact leaf (.atom k) rfl lev c vs
  | sym x =>
    intro lev m c vs r h
    have : skipF m.skip (.sym x) = .sym x := by cases m.skip <;> rfl
    rw [this]
    obtain ⟨he, h⟩ := compPat_sym_some h
    have he' : C.syn.ell x = false := he
    rcases h with ⟨h1, rfl⟩ | ⟨h1, h2, rfl⟩ | ⟨h1, h2, h3, rfl⟩
    · exact leaf (.sym x) (by rw [patVars]; simp [h1]) lev c vs
    · have h2' : C.syn.wild x = true := h2
      exact leaf (.sym x) (by rw [patVars]; simp [h2']) lev c vs
    · have h2' : C.syn.wild x = false := h2
      have hv : patVars C.syn (.sym x) = [x] := by rw [patVars]; simp [h1, h2', he']
      rw [hv]
      refine ⟨⟨?_, ?_, by simp, Nat.le_succ _⟩, ?_⟩
      · intro y hy
        rw [List.mem_singleton] at hy
        subst hy
        exact ⟨h3, lev, c.pvcnt, by simp [lookupPv], Nat.le_refl _, Nat.le_refl _,
          Nat.lt_succ_self _⟩
      · intro y hy
        rw [List.mem_singleton] at hy
        simp [lookupPv, hy]
      · intro v
        simp only [List.mem_cons, List.mem_singleton, exists_eq_left, lookupPv,
          if_true, Option.some.injEq, List.not_mem_nil, or_false]
        constructor
        · rintro (h | h)
          · exact .inr h.symm
          · exact .inl h
        · rintro (h | h)
          · exact .inr h
          · exact .inl h.symm
  | vec l ih =>
    intro lev m c vs r h
    have : skipF m.skip (.vec l) = .vec l := by cases m.skip <;> rfl
    rw [this]
    obtain ⟨p, h1, h2⟩ := compPat_vec_some h
    have := ih lev .head c vs _ h1
    rw [Mode.skip, skipF_zero] at this
    exact this
  | cons a d iha ihd =>
    intro lev m c vs r h
    by_cases hm : m.skip = 0
    · rw [hm, skipF_zero]
      rcases compPat_cons_some hm h with
        ⟨e, Q, p, c1, v1, q, rfl, he, hs, h1, h2, h3⟩ | ⟨p, c1, v1, q, he, h1, h2, h3⟩
      · have A := iha _ _ _ _ _ h1
        have B := ihd lev (.tail true 1) c1 (vs ++ v1) (q, r.2.1, r.2.2)
          (by rw [compPat_skip]; exact h2)
        simp only [Mode.skip, skipF, skipF_zero] at A B
        have he' : C.syn.ell e = true := he
        have hv : patVars C.syn (.cons a (.cons (.sym e) Q)) =
            patVars C.syn a ++ patVars C.syn Q := by
          rw [patVars, patVars]
          congr 1
          rw [patVars]
          simp [he']
        rw [hv]
        have hA := (A.1.maxlev).weaken (Nat.le_succ lev)
        refine ⟨hA.trans B.1, ?_⟩
        intro v
        rw [B.2 v, List.mem_append, A.2 v]
        constructor
        · rintro ((h | h | ⟨x, hx, hl⟩) | ⟨x, hx, hl⟩)
          · exact .inl h
          · cases h
          · exact .inr ⟨x, List.mem_append_left _ hx, B.1.keep hl⟩
          · exact .inr ⟨x, List.mem_append_right _ hx, hl⟩
        · rintro (h | ⟨x, hx, hl⟩)
          · exact .inl (.inl h)
          · rcases List.mem_append.1 hx with hx | hx
            · obtain ⟨_, l, n, h4, _⟩ := A.1.new x hx
              have h5 := B.1.keep h4
              rw [hl] at h5
              injection h5 with h5
              subst h5
              exact .inl (.inr (.inr ⟨x, hx, h4⟩))
            · exact .inr ⟨x, hx, hl⟩
      · have A := iha _ _ _ _ _ h1
        have B := ihd _ _ _ _ _ h2
        simp only [Mode.skip, skipF_zero] at A B
        rw [patVars]
        refine ⟨A.1.trans B.1, ?_⟩
        intro v
        rw [B.2 v, A.2 v]
        constructor
        · rintro ((h | ⟨x, hx, hl⟩) | ⟨x, hx, hl⟩)
          · exact .inl h
          · exact .inr ⟨x, List.mem_append_left _ hx, B.1.keep hl⟩
          · exact .inr ⟨x, List.mem_append_right _ hx, hl⟩
        · rintro (h | ⟨x, hx, hl⟩)
          · exact .inl (.inl h)
          · rcases List.mem_append.1 hx with hx | hx
            · obtain ⟨_, l, n, h4, _⟩ := A.1.new x hx
              have h5 := B.1.keep h4
              rw [hl] at h5
              injection h5 with h5
              subst h5
              exact .inl (.inr ⟨x, hx, h4⟩)
            · exact .inr ⟨x, hx, hl⟩
    · cases m with
      | head => exact absurd rfl hm
      | tail s k =>
        cases k with
        | zero => exact absurd rfl hm
        | succ k =>
          rw [compPat_skip] at h
          exact ihd _ _ _ _ _ h

end Gauche.SynRules

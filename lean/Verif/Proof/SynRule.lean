import Verif.Proof.SynTop

/-! # Rules as a whole (2) -/
namespace Gauche.SynRules
open Form

theorem env_some {x : Nat} : ∀ {b : Binding}, x ∈ b.map Prod.fst →
    b.env x = some (getB x b) := by
  intro b
  induction b with
  | nil => intro h; cases h
  | cons e b ih =>
    intro h
    obtain ⟨y, t⟩ := e
    rw [Binding.env, List.find?_cons, getB]
    by_cases hx : y = x
    · subst hx; simp
    · have hx' : ¬ x = y := fun h => hx h.symm
      rw [if_neg hx']
      rw [List.map_cons, List.mem_cons] at h
      rcases h with h | h
      · exact absurd h hx'
      · have := ih h
        rw [Binding.env] at this
        simp only [beq_iff_eq, hx, beq_eq_false_iff_ne.2 hx]
        exact this

theorem env_none {x : Nat} : ∀ {b : Binding}, x ∉ b.map Prod.fst → b.env x = none := by
  intro b
  induction b with
  | nil => intro _; rfl
  | cons e b ih =>
    intro h
    obtain ⟨y, t⟩ := e
    rw [List.map_cons, List.mem_cons, not_or] at h
    rw [Binding.env, List.find?_cons]
    have hx : ¬ y = x := fun he => h.1 he.symm
    have := ih h.2
    rw [Binding.env] at this
    simp only [beq_eq_false_iff_ne.2 hx]
    exact this

theorem patVars_not {S : Syn} {x : Nat} (h : S.lit x = true ∨ S.ell x = true) (P : Form) :
    x ∉ patVars S P := by
  induction P with
  | sym y =>
    rw [patVars]
    by_cases hy : (S.ell y || S.lit y || S.wild y) = true
    · rw [if_pos hy]; intro h; cases h
    · rw [if_neg hy, List.mem_singleton]
      rintro rfl
      rcases h with h | h <;> simp [h] at hy
  | cons a d iha ihd =>
    rw [patVars, List.mem_append, not_or]; exact ⟨iha, ihd⟩
  | vec l ih => rw [patVars]; exact ih
  | _ => intro h; cases h

/-- The match variables hold what the specification says. -/
structure Roots (C : Cfg) (pvars : List (Nat × PVRef)) (b : Binding) (m : MVec) : Prop where
  val : ∀ x l n, lookupPv x pvars = some (l, n) →
    ∃ t, b.env x = some t ∧ HasDepth l t ∧ (m n).root = enc t
  out : ∀ x, lookupPv x pvars = none → b.env x = none
  lit : ∀ x, (C.lits.contains x = true ∨ C.ell x = true) → lookupPv x pvars = none

theorem pat_spec {C : Cfg} {Q F : Form} {p : Pat} {c : Ctx} {vs : List PVRef}
    (h : compPat C 0 Q .head ⟨[], 0, 0⟩ [] = some (p, c, vs)) (hQ : Q.WF) (hF : F.WF) :
    ((matchSyn C p F initMvec).isSome = true ↔ ∃ b, Matches C.syn Q F b) ∧
    (VecOK C.syn false Q → ∀ b m, matchSyn C p F initMvec = some m →
      Matches C.syn Q F b → Roots C c.pvars b m) := by
  have h1 := compPat_matches (m := initMvec) Q h hQ hF
  simp only [Mode.skip, skipF_zero] at h1
  refine ⟨h1, ?_⟩
  intro hv b m hm hb
  have hext := (compPat_ext C Q _ _ _ _ _ h).1
  simp only [Mode.skip, skipF_zero] at hext
  have hn := matches_names Q h (F := F) (b := b) (by simpa only [Mode.skip, skipF_zero] using hb)
  simp only [Mode.skip, skipF_zero] at hn
  refine ⟨?_, ?_, ?_⟩
  · intro x l n hl
    have hx : x ∈ patVars C.syn Q := by
      by_cases hx : x ∈ patVars C.syn Q
      · exact hx
      · rw [hext.old x hx] at hl; cases hl
    have hx' : x ∈ b.map Prod.fst := by rw [hn]; exact hx
    refine ⟨getB x b, env_some hx', ?_, ?_⟩
    · have := matches_depth Q h (pvars := c.pvars) (fun _ _ h => h)
        (F := F) (b := b) (by simpa only [Mode.skip, skipF_zero] using hb) x _ (getB_mem hx')
        l n hl
      rw [Nat.sub_zero] at this
      exact this
    · have := compPat_bound Q h hQ hF (by
          simp only [Mode.skip, skipF_zero]; exact hv)
        (pvars := c.pvars) (fun _ _ h => h) hm
        (b := b) (by simpa only [Mode.skip, skipF_zero] using hb) (by
          intro x _ l n _
          rw [Pre, if_pos rfl]
          exact ⟨rfl, rfl⟩) x _ (getB_mem hx') l n hl
      rw [Eff, if_pos rfl] at this
      exact this
  · intro x hl
    refine env_none ?_
    rw [hn]
    intro hx
    obtain ⟨_, l, n, h2, _⟩ := hext.new x hx
    rw [hl] at h2; cases h2
  · intro x hx
    rw [hext.old x (patVars_not hx Q)]; rfl

theorem try_true (C : Cfg) (r : Rule) (use : Form) : tryRule C true r use =
    if r.pat.isPair || use.isSym then matchSyn C r.pat use initMvec else none := by
  cases use <;> simp only [tryRule, if_true]

theorem try_false (C : Cfg) (r : Rule) (use : Form) : tryRule C false r use =
    if r.pat = .under then some initMvec
    else match use with
      | .cons _ d => matchSyn C r.pat d initMvec
      | _ => none := by
  cases use <;> simp only [tryRule, Bool.false_eq_true, if_false]

/-- Uses for which the model's and the specification's notions of applying agree:
every use but a bare identifier when the head of patterns is ignored. -/
def IsCall (head : Bool) (use : Form) : Prop := head = true ∨ ∃ kw F, use = .cons kw F

theorem compPat_isPair {C : Cfg} {a d : Form} {p : Pat} {c : Ctx} {vs : List PVRef}
    (h : compPat C 0 (.cons a d) .head ⟨[], 0, 0⟩ [] = some (p, c, vs)) : p.isPair = true := by
  rcases compPat_cons_some rfl h with ⟨e, Q, p', c1, v1, q, _, _, _, _, _, h⟩ |
    ⟨p', c1, v1, q, _, _, _, h⟩
  · have h : p = _ := h
    rw [h]; rfl
  · have h : p = _ := h
    rw [h]; rfl

theorem compPat_sym_notPair {C : Cfg} {x : Nat} {p : Pat} {c : Ctx} {vs : List PVRef}
    (h : compPat C 0 (.sym x) .head ⟨[], 0, 0⟩ [] = some (p, c, vs)) : p.isPair = false := by
  rcases (compPat_sym_some h).2 with ⟨_, h⟩ | ⟨_, _, h⟩ | ⟨_, _, _, h⟩ <;>
    (injection h with h; rw [h]; rfl)

theorem try_spec {C : Cfg} {head : Bool} {P use : Form} {p : Pat} {c : Ctx} {vs : List PVRef}
    (hc : compPattern C head P = some (p, c, vs)) (hP : P.WF) (hu : use.WF)
    (hcall : IsCall head use) (t : Pat) (np ml : Nat) :
    ((tryRule C head ⟨p, t, np, ml⟩ use).isSome = true ↔ ∃ b, Applies C.syn head P use b) ∧
    (VecOK C.syn false (matched head P) → ∀ b m,
      tryRule C head ⟨p, t, np, ml⟩ use = some m →
      Applies C.syn head P use b → Roots C c.pvars b m) := by
  cases head with
  | true =>
    cases P with
    | cons a d =>
      rw [compPattern] at hc
      by_cases hh : headOK C a d = true
      · rw [if_pos hh] at hc
        have := pat_spec hc hP hu
        have ht : tryRule C true ⟨p, t, np, ml⟩ use = matchSyn C p use initMvec := by
          rw [try_true, if_pos (by rw [show _ = true from compPat_isPair hc]; rfl)]
        rw [ht]
        exact this
      · rw [if_neg hh] at hc; cases hc
    | sym x =>
      rw [compPattern] at hc
      have := pat_spec hc hP hu
      have ht : tryRule C true ⟨p, t, np, ml⟩ use =
          if use.isSym then matchSyn C p use initMvec else none := by
        rw [try_true]
        simp only [compPat_sym_notPair hc, Bool.false_or]
      rw [ht]
      by_cases hs : use.isSym = true
      · obtain ⟨y, rfl⟩ : ∃ y, use = .sym y := by
          cases use <;> first | exact ⟨_, rfl⟩ | cases hs
        rw [if_pos hs]
        refine ⟨?_, ?_⟩
        · rw [this.1]
          exact ⟨fun ⟨b, h⟩ => ⟨b, ⟨y, rfl⟩, h⟩, fun ⟨b, _, h⟩ => ⟨b, h⟩⟩
        · intro hv b m hm hb
          exact this.2 hv b m hm hb.2
      · rw [if_neg hs]
        refine ⟨⟨(fun h => by cases h), ?_⟩, (fun _ _ _ h => by cases h)⟩
        rintro ⟨b, ⟨y, rfl⟩, _⟩
        exact absurd rfl hs
    | nil => cases hc
    | atom k => cases hc
    | vec l => cases hc
  | false =>
    obtain ⟨kw, F, rfl⟩ : ∃ kw F, use = .cons kw F := by
      rcases hcall with h | h
      · cases h
      · exact h
    cases P with
    | cons a d =>
      rw [compPattern] at hc
      have := pat_spec hc hP.2 hu.2
      have ht : tryRule C false ⟨p, t, np, ml⟩ (.cons kw F) = matchSyn C p F initMvec := by
        rw [try_false]
        by_cases hp : p = .under
        · subst hp; rw [if_pos rfl, matchSyn]
        · rw [if_neg hp]
      rw [ht]
      refine ⟨?_, ?_⟩
      · rw [this.1]
        constructor
        · rintro ⟨b, h⟩; exact ⟨b, kw, F, rfl, h⟩
        · rintro ⟨b, kw', F', h1, h⟩; injection h1 with _ h1; subst h1; exact ⟨b, h⟩
      · intro hv b m hm hb
        obtain ⟨kw', F', h1, h⟩ := hb
        injection h1 with _ h1; subst h1
        exact this.2 hv b m hm h
    | sym x =>
      rw [compPattern] at hc
      injection hc with hc
      injection hc with hc1 hc2
      injection hc2 with hc2 _
      subst hc1 hc2
      refine ⟨⟨fun _ => ⟨[], rfl⟩, fun _ => rfl⟩, ?_⟩
      intro _ b m hm hb
      have hb : b = [] := hb
      subst hb
      exact ⟨(fun _ _ _ h => by cases h), fun _ _ => rfl, fun _ _ => rfl⟩
    | nil => cases hc
    | atom k => cases hc
    | vec l => cases hc

theorem compRule_some {C : Cfg} {head : Bool} {P T : Form} {r : Rule}
    (h : compRule C head P T = some r) :
    ∃ p c vs t ml vt, compPattern C head P = some (p, c, vs) ∧
      compTmpl C c.pvars true 0 T .head c.maxlev [] = some (t, ml, vt) ∧
      r = ⟨p, t, c.pvcnt, ml⟩ := by
  rw [compRule] at h
  cases h1 : compPattern C head P with
  | none => rw [h1] at h; cases h
  | some w =>
    obtain ⟨p, c, vs⟩ := w
    rw [h1] at h
    dsimp only at h
    cases h2 : compTmpl C c.pvars true 0 T .head c.maxlev [] with
    | none => rw [h2] at h; cases h
    | some w =>
      obtain ⟨t, ml, vt⟩ := w
      rw [h2] at h
      injection h with h
      exact ⟨p, c, vs, t, ml, vt, rfl, h2, h.symm⟩

/-- Match variables the code made are of bounded size. -/
theorem rounds_bound {C : Cfg} {head : Bool} {P T : Form} {r : Rule}
    (h : compRule C head P T = some r) : ∀ m : MVec,
    (∀ n, r.numPvars ≤ n → m n = initMvec n) → ∃ N, ∀ n, fsize (m n).root ≤ N := by
  intro m hm
  have : ∀ k, ∃ N, ∀ n, n < k → fsize (m n).root ≤ N := by
    intro k
    induction k with
    | zero => exact ⟨0, fun n h => by omega⟩
    | succ k ih =>
      obtain ⟨N, hN⟩ := ih
      refine ⟨N + fsize (m k).root, fun n hn => ?_⟩
      by_cases h : n = k
      · subst h; omega
      · have := hN n (by omega); omega
  obtain ⟨N, hN⟩ := this r.numPvars
  refine ⟨N, fun n => ?_⟩
  by_cases hn : n < r.numPvars
  · exact hN n hn
  · rw [hm n (by omega)]
    exact Nat.zero_le _

theorem try_frame {C : Cfg} {head : Bool} {P T use : Form} {r : Rule} {m : MVec}
    (h : compRule C head P T = some r) (hm : tryRule C head r use = some m) :
    ∀ n, r.numPvars ≤ n → m n = initMvec n := by
  obtain ⟨p, c, vs, t, ml, vt, h1, h2, rfl⟩ := compRule_some h
  intro n hn
  have key : ∀ (Q F : Form), compPat C 0 Q .head ⟨[], 0, 0⟩ [] = some (p, c, vs) →
      matchSyn C p F initMvec = some m → m n = initMvec n := by
    intro Q F hQ hF
    refine (match_frame C n p).1 ?_ F _ _ hF
    intro ho
    have := compPat_occ Q hQ ho
    have : n < c.pvcnt := this.2
    have hn : c.pvcnt ≤ n := hn
    omega
  cases head with
  | true =>
    rw [try_true] at hm
    by_cases hp : (p.isPair || use.isSym) = true
    · rw [if_pos hp] at hm
      cases P with
      | cons a d =>
        rw [compPattern] at h1
        by_cases hh : headOK C a d = true
        · rw [if_pos hh] at h1
          exact key _ _ h1 hm
        · rw [if_neg hh] at h1; cases h1
      | sym x => exact key _ _ h1 hm
      | nil => cases h1
      | atom k => cases h1
      | vec l => cases h1
    · rw [if_neg hp] at hm; cases hm
  | false =>
    rw [try_false] at hm
    by_cases hp : p = .under
    · rw [if_pos hp] at hm
      injection hm with hm
      rw [hm]
    · rw [if_neg hp] at hm
      cases use with
      | cons kw F =>
        cases P with
        | cons a d => exact key _ _ h1 hm
        | sym x =>
          rw [compPattern] at h1
          injection h1 with h1
          injection h1 with h1 _
          exact absurd h1.symm hp
        | nil => cases h1
        | atom k => cases h1
        | vec l => cases h1
      | nil => cases hm
      | atom k => cases hm
      | sym x => cases hm
      | vec l => cases hm

/-- Expansion by one rule. -/
theorem rule_real {C : Cfg} {head : Bool} {P T use : Form} {r : Rule} {m : MVec} {b : Binding}
    (h : compRule C head P T = some r) (hP : P.WF) (hu : use.WF) (hcall : IsCall head use)
    (hv : VecOK C.syn false (matched head P)) (hm : tryRule C head r use = some m)
    (hb : Applies C.syn head P use b)
    (hinst : ∃ ρ R, Inst C.syn ρ true T .start b.env R) (base : Nat) :
    ∃ N, ∀ fuel, N ≤ fuel → ∃ ρ R, (∀ x y, ρ x = ρ y → x = y) ∧ (∀ x, base ≤ ρ x) ∧
      Inst C.syn ρ true T .start b.env R ∧
      (realize fuel m r.tmpl 0 (fun _ => 0) ⟨base, []⟩).1 = .ok R := by
  obtain ⟨N, hN⟩ := rounds_bound h m (try_frame h hm)
  obtain ⟨p, c, vs, t, ml, vt, h1, h2, rfl⟩ := compRule_some h
  have hr := (try_spec h1 hP hu hcall t c.pvcnt ml).2 hv b m hm hb
  refine ⟨N + 1, fun fuel hf => ?_⟩
  have hfr : Fresh base (realize fuel m t 0 (fun _ => 0) ⟨base, []⟩).2 :=
    realize_pres (P := Fresh base) fresh_rename fuel m t 0 _ _
      ⟨rfl, (fun x y h => by cases h), (fun x x' y h => by cases h)⟩
  obtain ⟨ρ0, R0, hR0⟩ := hinst
  obtain ⟨R, hR⟩ := Inst_rename (ρ' := (realize fuel m t 0 (fun _ => 0) ⟨base, []⟩).2.ren) T hR0
  refine ⟨_, R, fun x y => ren_inj hfr, ren_fresh hfr, hR, ?_⟩
  refine real_ok (fun n => by have := hN n; omega) hr.lit T h2 ?_ hR (ren_agrees _)
  intro x _
  refine ⟨hr.out x, ?_⟩
  intro l n hl
  obtain ⟨tr, h3, h4, h5⟩ := hr.val x l n hl
  refine ⟨tr, h3, by rw [Nat.sub_zero]; exact h4, ?_⟩
  rw [Nat.min_zero, getPv, h5]

/-- With no consecutive ellipses the expansion ends. -/
theorem rule_total {C : Cfg} {head : Bool} {P T use : Form} {r : Rule} {m : MVec}
    (h : compRule C head P T = some r) (hs : SingleElls C.syn true T .start)
    (hm : tryRule C head r use = some m) (base : Nat) :
    ∃ N, ∀ fuel, N ≤ fuel → ∃ R,
      (realize fuel m r.tmpl 0 (fun _ => 0) ⟨base, []⟩).1 = .ok R := by
  obtain ⟨N, hN⟩ := rounds_bound h m (try_frame h hm)
  obtain ⟨p, c, vs, t, ml, vt, h1, h2, rfl⟩ := compRule_some h
  have ho := compTmpl_ownEll T h2 hs
  refine ⟨N + 1, fun fuel hf => ?_⟩
  have h3 := real_ne_more hN (by omega : N < fuel) (sizeOf t + 1) t (by omega) 0
    (fun _ => 0) ⟨base, []⟩ ho
  have h4 := real_unbound (fuel := fuel) (m := m) t 0 (fun _ => 0) ⟨base, []⟩
  cases h5 : (realize fuel m t 0 (fun _ => 0) ⟨base, []⟩).1 with
  | ok R => exact ⟨R, rfl⟩
  | more => exact absurd h5 h3
  | unbound e => have := h4 e ho h5; omega

theorem compRules_app {C : Cfg} {head : Bool} {P T : Form} {post : List (Form × Form)} :
    ∀ {pre : List (Form × Form)} {l : List Rule},
    compRules C head (pre ++ (P, T) :: post) = some l →
    ∃ l1 r l2, l = l1 ++ r :: l2 ∧ compRules C head pre = some l1 ∧
      compRule C head P T = some r := by
  intro pre
  induction pre with
  | nil =>
    intro l h
    rw [List.nil_append, compRules] at h
    cases h1 : compRule C head P T with
    | none => rw [h1] at h; cases h
    | some r =>
      rw [h1] at h
      dsimp only at h
      cases h2 : compRules C head post with
      | none => rw [h2] at h; cases h
      | some l2 =>
        rw [h2] at h
        injection h with h
        exact ⟨[], r, l2, h.symm, rfl, rfl⟩
  | cons pt pre ih =>
    intro l h
    obtain ⟨p, t⟩ := pt
    rw [List.cons_append, compRules] at h
    rw [compRules]
    cases h1 : compRule C head p t with
    | none => rw [h1] at h; cases h
    | some r1 =>
      rw [h1] at h
      dsimp only at h ⊢
      cases h2 : compRules C head (pre ++ (P, T) :: post) with
      | none => rw [h2] at h; cases h
      | some l2 =>
        rw [h2] at h
        injection h with h
        obtain ⟨l1, r, l3, h3, h4, h5⟩ := ih h2
        rw [h4]
        exact ⟨r1 :: l1, r, l3, by rw [← h, h3]; rfl, rfl, h5⟩

theorem expand_skip {C : Cfg} {head : Bool} {use : Form} (hu : use.WF)
    (hcall : IsCall head use) (fuel base : Nat) (l2 : List Rule) :
    ∀ {pre : List (Form × Form)} {l1 : List Rule}, compRules C head pre = some l1 →
    (∀ pt ∈ pre, pt.1.WF) →
    (∀ pt ∈ pre, ∀ b, ¬ Applies C.syn head pt.1 use b) →
    expand C head fuel base (l1 ++ l2) use = expand C head fuel base l2 use := by
  intro pre
  induction pre with
  | nil => intro l1 h _ _; rw [compRules] at h; injection h with h; subst h; rfl
  | cons pt pre ih =>
    intro l1 h hw hno
    obtain ⟨p, t⟩ := pt
    rw [compRules] at h
    cases h1 : compRule C head p t with
    | none => rw [h1] at h; cases h
    | some r1 =>
      rw [h1] at h
      dsimp only at h
      cases h2 : compRules C head pre with
      | none => rw [h2] at h; cases h
      | some l2 =>
        rw [h2] at h
        injection h with h
        subst h
        obtain ⟨p', c, vs, t', ml, vt, h3, h4, rfl⟩ := compRule_some h1
        have := (try_spec h3 (hw _ List.mem_cons_self) hu hcall t' c.pvcnt ml).1
        rw [List.cons_append, expand]
        cases h5 : tryRule C head ⟨p', t', c.pvcnt, ml⟩ use with
        | some m =>
          rw [h5] at this
          obtain ⟨b, hb⟩ := this.1 rfl
          exact absurd hb (hno _ List.mem_cons_self b)
        | none =>
          exact ih h2 (fun pt h => hw pt (List.mem_cons_of_mem _ h))
            (fun pt h => hno pt (List.mem_cons_of_mem _ h))

/-! ## The array of loop indices -/

theorem le_bumpLev (ml n : Nat) : n ≤ bumpLev ml n ∧ ml ≤ bumpLev ml n := by
  rw [bumpLev]
  by_cases h : ml < n
  · rw [if_pos h]; omega
  · rw [if_neg h]; omega

theorem touched_nest {p : Pat} {K : Nat} :
    ∀ (n lev : Nat) (vs : List PVRef), lev + n ≤ K →
    (∀ i ∈ touched p (lev + n), i ≤ K) → ∀ i ∈ touched (nestEll vs p lev n) lev, i ≤ K := by
  intro n
  induction n with
  | zero => intro lev vs _ h i hi; exact h i hi
  | succ n ih =>
    intro lev vs hK h i hi
    rw [nestEll, touched] at hi
    rcases List.mem_cons.1 hi with hi | hi
    · omega
    · exact ih (lev + 1) [] (by omega)
        (by rw [show lev + 1 + n = lev + (n + 1) by omega]; exact h) i hi

/-- The compiler's count of levels covers the cells. -/
theorem compTmpl_touched {C : Cfg} {pv : List (Nat × PVRef)} (T : Form) :
    ∀ {on : Bool} {lev : Nat} {m : Mode} {ml : Nat} {vs : List PVRef}
    {r : Pat × Nat × List PVRef}, compTmpl C pv on lev T m ml vs = some r →
    ml ≤ r.2.1 ∧ ∀ i ∈ touched r.1 lev, i ≤ max lev r.2.1 := by
  induction T using Form.ind2 with
  | hnil =>
    intro on lev m ml vs r h; rw [compTmpl_nil] at h; injection h with h; subst h
    exact ⟨Nat.le_refl _, (fun i h => by cases h)⟩
  | hatom k =>
    intro on lev m ml vs r h; rw [compTmpl_atom] at h; injection h with h; subst h
    exact ⟨Nat.le_refl _, (fun i h => by cases h)⟩
  | hsym x =>
    intro on lev m ml vs r h
    rcases (compTmpl_sym_some h).2 with ⟨_, rfl⟩ | ⟨_, _, rfl⟩ | ⟨_, l, n, _, hl, rfl⟩
    · exact ⟨Nat.le_refl _, (fun i h => by cases h)⟩
    · exact ⟨Nat.le_refl _, (fun i h => by cases h)⟩
    · refine ⟨Nat.le_refl _, fun i hi => ?_⟩
      rw [touched, List.mem_map] at hi
      obtain ⟨j, hj, rfl⟩ := hi
      rw [List.mem_range] at hj
      show j + 1 ≤ max lev ml
      omega
  | hvec l ih =>
    intro on lev m ml vs r h
    obtain ⟨p, h1, _, h2⟩ := compTmpl_vec_some h
    rw [h2]
    exact ih h1
  | hcons a d iha ihd iht =>
    intro on lev m ml vs r h
    by_cases hm : m.skip = 0
    · rcases compTmpl_cons_some hm h with
        ⟨t, u, h1, h2, h3⟩ | ⟨p, ml1, v1, q, h1, h2, h3, h4, h5⟩ |
        ⟨n, p, ml1, v1, q, h1, h2, h3, h4, h5, h6⟩
      · exact iht t u h2 h3
      · obtain ⟨a1, a2⟩ := iha h3
        obtain ⟨b1, b2⟩ := ihd h4
        dsimp only at a1 a2 b1 b2
        refine ⟨by omega, ?_⟩
        rw [h5, touched]
        intro i hi
        rcases List.mem_append.1 hi with hi | hi
        · have := a2 i hi; omega
        · exact b2 i hi
      · obtain ⟨a1, a2⟩ := iha h3
        obtain ⟨b1, b2⟩ := ihd h5
        dsimp only at a1 a2 b1 b2
        have hb := le_bumpLev ml (lev + (n + 1))
        refine ⟨by omega, ?_⟩
        rw [h6, touched]
        intro i hi
        rcases List.mem_append.1 hi with hi | hi
        · exact touched_nest (n + 1) lev v1 (by omega)
            (fun i hi => by have := a2 i hi; omega) i hi
        · exact b2 i hi
    · cases m with
      | head => exact absurd rfl hm
      | tail s k =>
        cases k with
        | zero => exact absurd rfl hm
        | succ k => rw [compTmpl_skip] at h; exact ihd h

theorem rule_touched {C : Cfg} {head : Bool} {P T : Form} {r : Rule}
    (h : compRule C head P T = some r) : ∀ i ∈ allTouched r, i ≤ r.maxLevel := by
  obtain ⟨p, c, vs, t, ml, vt, h1, h2, rfl⟩ := compRule_some h
  intro i hi
  rw [allTouched] at hi
  rcases List.mem_append.1 hi with hi | hi
  · have := List.mem_range.1 hi; omega
  · have := (compTmpl_touched T h2).2 i hi
    show i ≤ ml
    have : i ≤ max 0 ml := this
    omega

end Gauche.SynRules

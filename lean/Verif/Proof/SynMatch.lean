import Verif.Proof.SynPat

/-! # The matcher accepts exactly the forms that match -/
namespace Gauche.SynRules
open Form

/-! ## Lists -/

def dropF : Nat → Form → Form
  | n + 1, .cons _ d => dropF n d
  | _, f => f

theorem dropF_zero (f : Form) : dropF 0 f = f := by cases f <;> rfl

theorem pairs_prepend (fs : List Form) (t : Form) :
    (prepend fs t).pairs = fs.length + t.pairs := by
  induction fs with
  | nil => simp [prepend]
  | cons f fs ih => simp [prepend, pairs, ih]; omega

theorem dropF_prepend (fs : List Form) (t : Form) :
    dropF fs.length (prepend fs t) = t := by
  induction fs with
  | nil => exact dropF_zero t
  | cons f fs ih => exact ih

theorem pairs_dropF (n : Nat) : ∀ f : Form, n ≤ f.pairs → (dropF n f).pairs = f.pairs - n := by
  induction n with
  | zero => intro f _; rw [dropF_zero]; omega
  | succ n ih =>
    intro f h
    cases f with
    | cons a d =>
      rw [pairs] at h
      rw [dropF, ih d (by omega), pairs]; omega
    | _ => simp [pairs] at h

theorem WF_dropF (n : Nat) : ∀ f : Form, f.WF → (dropF n f).WF := by
  induction n with
  | zero => intro f h; rw [dropF_zero]; exact h
  | succ n ih =>
    intro f h
    cases f with
    | cons a d => exact ih d h.2
    | _ => exact h

/-! ## The loop over the repeated elements -/

/-- Loop and specification of its elements. -/
theorem matchLoop_some {M : Form → MVec → Option MVec} {R : Form → Binding → Prop}
    (hM : ∀ f m m', f.WF → M f m = some m' → ∃ b, R f b) :
    ∀ (n : Nat) (f : Form) (m : MVec) (r : Form × MVec), f.WF → n ≤ f.pairs →
      matchLoop M n f m = some r →
      r.1 = dropF n f ∧ ∃ fs bs, f = prepend fs (dropF n f) ∧ fs.length = n ∧ Each R fs bs := by
  intro n
  induction n with
  | zero =>
    intro f m r hf _ h
    rw [matchLoop] at h
    injection h with h
    subst h
    rw [dropF_zero]
    exact ⟨rfl, [], [], rfl, rfl, trivial⟩
  | succ n ih =>
    intro f m r hf hn h
    cases f with
    | cons a d =>
      rw [matchLoop] at h
      cases h1 : M a m with
      | none => rw [h1] at h; cases h
      | some m1 =>
        rw [h1] at h
        obtain ⟨h2, fs, bs, h3, h4, h5⟩ := ih d m1 r hf.2 (by rw [pairs] at hn; omega) h
        obtain ⟨b, hb⟩ := hM a m m1 hf.1 h1
        rw [dropF]
        refine ⟨h2, a :: fs, b :: bs, ?_, by simp [h4], hb, h5⟩
        rw [prepend, ← h3]
    | _ => simp [pairs] at hn

theorem matchLoop_total {M : Form → MVec → Option MVec} {R : Form → Binding → Prop}
    (hM : ∀ f b m, f.WF → R f b → ∃ m', M f m = some m') :
    ∀ (fs : List Form) (bs : List Binding) (t : Form) (m : MVec),
      (prepend fs t).WF → Each R fs bs →
      ∃ m', matchLoop M fs.length (prepend fs t) m = some (t, m') := by
  intro fs
  induction fs with
  | nil => intro bs t m _ _; exact ⟨m, by rw [List.length_nil, matchLoop]; rfl⟩
  | cons f fs ih =>
    intro bs t m hw h
    cases bs with
    | nil => cases h
    | cons b bs =>
      obtain ⟨m1, h1⟩ := hM f b m hw.1 h.1
      obtain ⟨m2, h2⟩ := ih bs t m1 hw.2 h.2
      refine ⟨m2, ?_⟩
      rw [List.length_cons, prepend, matchLoop, h1]
      exact h2

/-! ## Shapes of compiled lists -/

def PProper : Pat → Prop
  | .nil => True
  | .cons _ d => PProper d
  | _ => False

/-- At most one ellipsis in a list, with the right number of elements after. -/
def SpineOK : Pat → Prop
  | .cons (.ell _ nf _ _) q => nf = q.len ∧ q.hasElli = false ∧ SpineOK q
  | .cons _ q => SpineOK q
  | _ => True

/-- Compilation never yields a bare repetition. -/
theorem compPat_notEll {C : Cfg} (P : Form) :
    ∀ {lev : Nat} {m : Mode} {c : Ctx} {vs : List PVRef}
    {r : Pat × Ctx × List PVRef}, compPat C lev P m c vs = some r →
    r.1.isEll = false := by
  induction P with
  | nil => intro lev m c vs r h; rw [compPat_nil] at h; injection h with h; subst h; rfl
  | atom k => intro lev m c vs r h; rw [compPat_atom] at h; injection h with h; subst h; rfl
  | sym x =>
    intro lev m c vs r h
    rcases (compPat_sym_some h).2 with ⟨_, rfl⟩ | ⟨_, _, rfl⟩ | ⟨_, _, _, rfl⟩ <;> rfl
  | vec l _ =>
    intro lev m c vs r h
    obtain ⟨p, _, h2⟩ := compPat_vec_some h
    rw [h2]; rfl
  | cons a d _ ihd =>
    intro lev m c vs r h
    by_cases hm : m.skip = 0
    · rcases compPat_cons_some hm h with
        ⟨e, Q, p, c1, v1, q, rfl, he, hs, h1, h2, h3⟩ | ⟨p, c1, v1, q, he, h1, h2, h3⟩
      · rw [h3]; rfl
      · rw [h3]; rfl
    · cases m with
      | head => exact absurd rfl hm
      | tail s k =>
        cases k with
        | zero => exact absurd rfl hm
        | succ k => rw [compPat_skip] at h; exact ihd h

theorem hasElli_cons {p q : Pat} : (Pat.cons p q).hasElli = (p.isEll || q.hasElli) := rfl

theorem spineOK_cons {p q : Pat} (h : p.isEll = false) :
    SpineOK (.cons p q) ↔ SpineOK q := by
  cases p <;> first | rfl | cases h

/-- The shape of a compiled list. -/
theorem compPat_spine {C : Cfg} (P : Form) :
    ∀ {lev : Nat} {m : Mode} {c : Ctx} {vs : List PVRef}
    {r : Pat × Ctx × List PVRef}, compPat C lev P m c vs = some r →
    SpineOK r.1 ∧
    (m.seen = true → r.1.hasElli = false ∧ r.1.len = (skipF m.skip P).pairs) ∧
    ((skipF m.skip P).proper → PProper r.1) := by
  induction P with
  | nil =>
    intro lev m c vs r h; rw [compPat_nil] at h; injection h with h; subst h
    have : skipF m.skip .nil = .nil := by cases m.skip <;> rfl
    rw [this]
    exact ⟨trivial, fun _ => ⟨rfl, rfl⟩, fun _ => trivial⟩
  | atom k =>
    intro lev m c vs r h; rw [compPat_atom] at h; injection h with h; subst h
    have : skipF m.skip (.atom k) = .atom k := by cases m.skip <;> rfl
    rw [this]
    exact ⟨trivial, fun _ => ⟨rfl, rfl⟩, fun h => h.elim⟩
  | sym x =>
    intro lev m c vs r h
    have : skipF m.skip (.sym x) = .sym x := by cases m.skip <;> rfl
    rw [this]
    rcases (compPat_sym_some h).2 with ⟨_, rfl⟩ | ⟨_, _, rfl⟩ | ⟨_, _, _, rfl⟩ <;>
      exact ⟨trivial, fun _ => ⟨rfl, rfl⟩, fun h => h.elim⟩
  | vec l _ =>
    intro lev m c vs r h
    have : skipF m.skip (.vec l) = .vec l := by cases m.skip <;> rfl
    rw [this]
    obtain ⟨p, _, h2⟩ := compPat_vec_some h
    rw [h2]
    exact ⟨trivial, fun _ => ⟨rfl, rfl⟩, fun h => h.elim⟩
  | cons a d _ ihd =>
    intro lev m c vs r h
    by_cases hm : m.skip = 0
    · rw [hm, skipF_zero]
      rcases compPat_cons_some hm h with
        ⟨e, Q, p, c1, v1, q, rfl, he, hs, h1, h2, h3⟩ | ⟨p, c1, v1, q, he, h1, h2, h3⟩
      · have B := ihd (lev := lev) (m := .tail true 1) (c := c1) (vs := vs ++ v1)
          (r := (q, r.2.1, r.2.2)) (by rw [compPat_skip]; exact h2)
        simp only [Mode.skip, skipF, skipF_zero, Mode.seen] at B
        obtain ⟨B1, B2, B3⟩ := B
        obtain ⟨B2, B4⟩ := B2 trivial
        rw [h3]
        refine ⟨⟨B4.symm, B2, B1⟩, ?_, ?_⟩
        · intro h; rw [hs] at h; cases h
        · intro h; exact B3 h
      · have B := ihd h2
        have hp := compPat_notEll a h1
        simp only [Mode.skip, skipF_zero, Mode.seen] at B
        obtain ⟨B1, B2, B3⟩ := B
        rw [h3]
        refine ⟨(spineOK_cons hp).2 B1, ?_, ?_⟩
        · intro h
          obtain ⟨B2, B4⟩ := B2 h
          refine ⟨by rw [hasElli_cons, B2]; simpa using hp, ?_⟩
          rw [Pat.len, pairs, B4]
        · intro h; exact B3 h
    · cases m with
      | head => exact absurd rfl hm
      | tail s k =>
        cases k with
        | zero => exact absurd rfl hm
        | succ k => rw [compPat_skip] at h; exact ihd h

/-! ## Vectors -/

theorem matchSyn_plain (C : Cfg) (p q : Pat) (f : Form) (m : MVec)
    (hp : p.isEll = false) :
    matchSyn C (.cons p q) f m =
      match f with
      | .cons a d =>
        match matchSyn C p a m with
        | none => none
        | some m1 => matchSyn C q d m1
      | _ => none := by
  cases p with
  | ell => cases hp
  | _ => cases f <;> simp only [matchSyn] <;> rfl

theorem matchVec_plain (C : Cfg) (p q : Pat) (f : Form) (m : MVec)
    (hp : p.isEll = false) :
    matchVec C (.cons p q) f m =
      match f with
      | .cons a d =>
        match matchSyn C p a m with
        | none => none
        | some m1 => matchVec C q d m1
      | _ => none := by
  cases p with
  | ell => cases hp
  | _ => cases f <;> simp only [matchVec] <;> rfl

theorem isEll_cases {p : Pat} (h : p.isEll = true) :
    ∃ l nf vs p', p = .ell l nf vs p' := by
  cases p <;> first | exact ⟨_, _, _, _, rfl⟩ | cases h

/-- How long a form a list pattern can match. -/
theorem matchSyn_len {C : Cfg} (q : Pat) :
    ∀ {f : Form} {m m' : MVec}, PProper q → SpineOK q →
      matchSyn C q f m = some m' →
      if q.hasElli then q.len ≤ f.pairs + 1 else f.pairs = q.len := by
  induction q with
  | nil =>
    intro f m m' _ _ h
    rw [matchSyn] at h
    by_cases hf : f = .nil
    · subst hf; simp [Pat.hasElli, pairs, Pat.len]
    · rw [if_neg hf] at h; cases h
  | cons p q _ ihq =>
    intro f m m' hp hs h
    by_cases he : p.isEll = true
    · obtain ⟨l, nf, vs, p', rfl⟩ := isEll_cases he
      obtain ⟨hn, hq, hs'⟩ := hs
      have h0 : (Pat.cons (.ell l nf vs p') q).hasElli = true := rfl
      rw [h0, if_pos rfl]
      rw [matchSyn] at h
      cases h1 : matchLoop (matchSyn C p') (f.pairs - nf) f (enterSub l vs m) with
      | none => rw [h1] at h; cases h
      | some r =>
        obtain ⟨f', m1⟩ := r
        rw [h1] at h
        have h2 := ihq hp hs' h
        rw [hq] at h2
        simp only [Bool.false_eq_true, if_false] at h2
        -- f' has no more pairs than f
        have h3 : ∀ (n : Nat) (g : Form) (k : MVec) (r : Form × MVec),
            matchLoop (matchSyn C p') n g k = some r → r.1.pairs ≤ g.pairs := by
          intro n
          induction n with
          | zero => intro g k r h; rw [matchLoop] at h; injection h with h; subst h; exact Nat.le_refl _
          | succ n ih =>
            intro g k r h
            cases g with
            | cons a d =>
              rw [matchLoop] at h
              cases h4 : matchSyn C p' a k with
              | none => rw [h4] at h; cases h
              | some k1 =>
                rw [h4] at h
                have := ih d k1 r h
                rw [pairs]; omega
            | nil => rw [matchLoop] at h; injection h with h; subst h; exact Nat.le_refl _; intro a d h; cases h
            | sym x => rw [matchLoop] at h; injection h with h; subst h; exact Nat.le_refl _; intro a d h; cases h
            | atom x => rw [matchLoop] at h; injection h with h; subst h; exact Nat.le_refl _; intro a d h; cases h
            | vec x => rw [matchLoop] at h; injection h with h; subst h; exact Nat.le_refl _; intro a d h; cases h
        have := h3 _ _ _ _ h1
        rw [Pat.len]
        dsimp only at this
        omega
    · have he : p.isEll = false := by simpa using he
      rw [matchSyn_plain C p q f m he] at h
      rw [hasElli_cons, he, Bool.false_or]
      cases f with
      | cons a d =>
        dsimp only at h
        cases h1 : matchSyn C p a m with
        | none => rw [h1] at h; cases h
        | some m1 =>
          rw [h1] at h
          have := ihq hp ((spineOK_cons he).1 hs) h
          rw [Pat.len, pairs]
          by_cases hq : q.hasElli = true
          · rw [if_pos hq] at this ⊢; omega
          · rw [if_neg hq] at this ⊢; omega
      | _ => cases h
  | _ => intro f m m' hp; exact hp.elim

/-- Length condition in the form in which it passes to the rest of a vector. -/
def LenOK (ps : Pat) (n : Nat) : Prop :=
  if ps.hasElli then ps.len ≤ n + 1 else n = ps.len

theorem vecLenOK_iff (ps : Pat) (n : Nat) : vecLenOK ps n = true ↔ LenOK ps n := by
  rw [vecLenOK, LenOK]
  by_cases h0 : ps.len = 0
  · have : ps.hasElli = false := by
      cases ps <;> first | rfl | (simp [Pat.len] at h0)
    rw [if_pos h0, this, h0]
    simp
  · rw [if_neg h0]
    by_cases h : ps.hasElli = true
    · rw [if_pos h, if_pos h, decide_eq_true_iff]; omega
    · rw [if_neg h, if_neg h, beq_iff_eq]; exact eq_comm

theorem proper_pairs_zero {g : Form} (h : g.proper) (h0 : g.pairs = 0) : g = .nil := by
  cases g with
  | nil => rfl
  | cons a d => simp [pairs] at h0
  | _ => exact h.elim

/-- Where the elements run out right at the ellipsis. -/
def AtEllipsis : Pat → Form → Prop
  | .cons (.ell _ _ _ _) _, g => g = .nil
  | .cons _ q, .cons _ g => AtEllipsis q g
  | _, _ => False

theorem atEllipsis_plain {p q : Pat} {a g : Form} (h : p.isEll = false) :
    AtEllipsis (.cons p q) (.cons a g) ↔ AtEllipsis q g := by
  cases p <;> first | rfl | cases h

/-- Unless the elements run out right at the ellipsis, a vector is matched like a
list. -/
theorem matchVec_eq {C : Cfg} (ps : Pat) :
    ∀ {g : Form} {m : MVec}, PProper ps → SpineOK ps → g.proper → LenOK ps g.pairs →
      ¬ AtEllipsis ps g → matchVec C ps g m = matchSyn C ps g m := by
  induction ps with
  | nil =>
    intro g m _ _ hg hl _
    have h0 : g.pairs = 0 := by simpa [LenOK, Pat.hasElli, Pat.len] using hl
    rw [proper_pairs_zero hg h0, matchVec, matchSyn, if_pos rfl]
    all_goals (intros; contradiction)
  | cons p q _ ihq =>
    intro g m hp hs hg hl ha
    by_cases he : p.isEll = true
    · obtain ⟨l, nf, vs, p', rfl⟩ := isEll_cases he
      cases g with
      | nil => exact absurd rfl ha
      | cons a d => rw [matchVec, matchSyn]
      | _ => exact hg.elim
    · have he : p.isEll = false := by simpa using he
      rw [matchVec_plain C p q g m he, matchSyn_plain C p q g m he]
      cases g with
      | cons a d =>
        dsimp only
        cases h1 : matchSyn C p a m with
        | none => rfl
        | some m1 =>
          refine ihq hp ((spineOK_cons he).1 hs) hg ?_ ?_
          · rw [LenOK, hasElli_cons, he, Bool.false_or, Pat.len, pairs] at hl
            rw [LenOK]
            by_cases hq : q.hasElli = true
            · rw [if_pos hq] at hl ⊢; omega
            · rw [if_neg hq] at hl ⊢; omega
          · rw [atEllipsis_plain he] at ha; exact ha
      | _ => rfl
  | _ => intro g m hp; exact hp.elim

theorem pproper_len_zero {q : Pat} (h : PProper q) (h0 : q.len = 0) : q = .nil := by
  cases q with
  | nil => rfl
  | cons a d => simp [Pat.len] at h0
  | _ => exact h.elim

theorem atEllipsis_hasElli (q : Pat) : ∀ {g : Form}, AtEllipsis q g → q.hasElli = true := by
  induction q with
  | cons p q _ ihq =>
    intro g h
    by_cases he : p.isEll = true
    · rw [hasElli_cons, he]; rfl
    · have he : p.isEll = false := by simpa using he
      cases g with
      | cons a d =>
        rw [atEllipsis_plain he] at h
        rw [hasElli_cons, ihq h, Bool.or_true]
      | _ => cases p <;> first | exact h.elim | cases he
  | _ => intro g h; exact h.elim

/-- When they do, both match or neither does. -/
theorem matchVec_atEllipsis {C : Cfg} (ps : Pat) :
    ∀ {g : Form} {m : MVec}, PProper ps → SpineOK ps → LenOK ps g.pairs →
      AtEllipsis ps g →
      (matchVec C ps g m).isSome = (matchSyn C ps g m).isSome := by
  induction ps with
  | cons p q _ ihq =>
    intro g m hp hs hl ha
    by_cases he : p.isEll = true
    · obtain ⟨l, nf, vs, p', rfl⟩ := isEll_cases he
      have ha : g = .nil := ha
      subst ha
      have hq : q = .nil := by
        refine pproper_len_zero hp ?_
        rw [LenOK, hasElli_cons, he, Bool.true_or, if_pos rfl, Pat.len] at hl
        have : Form.nil.pairs = 0 := rfl
        omega
      subst hq
      simp [matchVec, pairs, matchLoop, matchSyn]
    · have he : p.isEll = false := by simpa using he
      rw [matchVec_plain C p q g m he, matchSyn_plain C p q g m he]
      cases g with
      | cons a d =>
        dsimp only
        cases h1 : matchSyn C p a m with
        | none => rfl
        | some m1 =>
          refine ihq hp ((spineOK_cons he).1 hs) ?_ ((atEllipsis_plain he).1 ha)
          rw [LenOK, hasElli_cons, he, Bool.false_or, Pat.len, pairs] at hl
          rw [LenOK]
          by_cases hq : q.hasElli = true
          · rw [if_pos hq] at hl ⊢; omega
          · rw [if_neg hq] at hl ⊢; omega
      | _ => rfl
  | _ => intro g m _ _ _ ha; exact ha.elim

/-- A vector pattern accepts a vector just if the list of its elements is accepted. -/
theorem matchSyn_vec_isSome {C : Cfg} {ps : Pat} {g : Form} {m : MVec}
    (hp : PProper ps) (hs : SpineOK ps) (hg : g.proper) :
    (matchSyn C (.vec ps) (.vec g) m).isSome = (matchSyn C ps g m).isSome := by
  rw [matchSyn]
  by_cases hl : vecLenOK ps g.pairs = true
  · rw [if_pos hl]
    have hl := (vecLenOK_iff ps g.pairs).1 hl
    by_cases ha : AtEllipsis ps g
    · exact matchVec_atEllipsis ps hp hs hl ha
    · rw [matchVec_eq ps hp hs hg hl ha]
  · rw [if_neg hl]
    cases h : matchSyn C ps g m with
    | none => rfl
    | some m' =>
      exact absurd ((vecLenOK_iff ps g.pairs).2 (matchSyn_len ps hp hs h)) hl

/-! ## The main equivalence -/

/-- Patterns whose vectors are well formed; forms likewise. -/
theorem matches_pairs {C : Cfg} (Q : Form) :
    ∀ {lev : Nat} {m : Mode} {c : Ctx} {vs : List PVRef}
    {r : Pat × Ctx × List PVRef} {F : Form} {b : Binding},
    m.skip = 0 → m.seen = true → compPat C lev Q m c vs = some r →
    Matches C.syn Q F b → Q.pairs ≤ F.pairs := by
  induction Q with
  | cons a d _ ihd =>
    intro lev m c vs r F b hm hs h hb
    rcases compPat_cons_some hm h with
      ⟨e, Q, p, c1, v1, q, rfl, he, hs', h1, h2, h3⟩ | ⟨p, c1, v1, q, he, h1, h2, h3⟩
    · rw [hs] at hs'; cases hs'
    · obtain ⟨F1, F2, b1, b2, rfl, _, hb2, _⟩ := (matches_plain C a d F b he).1 hb
      have := ihd (m := .tail m.seen 0) rfl hs h2 hb2
      rw [pairs, pairs]; omega
  | _ => intros; exact Nat.zero_le _

theorem compPat_matches {C : Cfg} (P : Form) :
    ∀ {lev : Nat} {md : Mode} {c : Ctx} {vs : List PVRef}
    {r : Pat × Ctx × List PVRef} {F : Form} {m : MVec},
    compPat C lev P md c vs = some r → P.WF → F.WF →
    ((matchSyn C r.1 F m).isSome = true ↔
      ∃ b, Matches C.syn (skipF md.skip P) F b) := by
  induction P with
  | nil =>
    intro lev md c vs r F m h _ _
    rw [compPat_nil] at h; injection h with h; subst h
    have : skipF md.skip .nil = .nil := by cases md.skip <;> rfl
    rw [this, matchSyn]
    by_cases hf : F = .nil
    · rw [if_pos hf]; exact ⟨fun _ => ⟨[], hf, rfl⟩, fun _ => rfl⟩
    · rw [if_neg hf]
      exact ⟨(fun h => by cases h), fun ⟨b, h, _⟩ => absurd h hf⟩
  | atom k =>
    intro lev md c vs r F m h _ _
    rw [compPat_atom] at h; injection h with h; subst h
    have : skipF md.skip (.atom k) = .atom k := by cases md.skip <;> rfl
    rw [this, matchSyn]
    by_cases hf : F = .atom k
    · rw [if_pos hf]; exact ⟨fun _ => ⟨[], hf, rfl⟩, fun _ => rfl⟩
    · rw [if_neg hf]
      exact ⟨(fun h => by cases h), fun ⟨b, h, _⟩ => absurd h hf⟩
  | sym x =>
    intro lev md c vs r F m h _ _
    have : skipF md.skip (.sym x) = .sym x := by cases md.skip <;> rfl
    rw [this]
    simp only [Matches]
    rcases (compPat_sym_some h).2 with ⟨h1, rfl⟩ | ⟨h1, h2, rfl⟩ | ⟨h1, h2, h3, rfl⟩
    · rw [matchSyn]
      simp only [h1, if_true]
      by_cases hf : C.same x F = true
      · rw [if_pos hf]; exact ⟨fun _ => ⟨[], hf, rfl⟩, fun _ => rfl⟩
      · rw [if_neg hf]
        exact ⟨(fun h => by cases h), fun ⟨b, h, _⟩ => absurd h hf⟩
    · have h2' : C.syn.wild x = true := h2
      rw [matchSyn]
      simp only [h1, h2', Bool.false_eq_true, if_false, if_true]
      exact ⟨fun _ => ⟨_, rfl⟩, fun _ => rfl⟩
    · have h2' : C.syn.wild x = false := h2
      rw [matchSyn]
      simp only [h1, h2', Bool.false_eq_true, if_false]
      exact ⟨fun _ => ⟨_, rfl⟩, fun _ => rfl⟩
  | vec l ih =>
    intro lev md c vs r F m h hP hF
    have : skipF md.skip (.vec l) = .vec l := by cases md.skip <;> rfl
    rw [this]
    obtain ⟨p, h1, h2⟩ := compPat_vec_some h
    rw [h2]
    simp only [Matches]
    have hsp := compPat_spine l h1
    simp only [Mode.skip, skipF_zero] at hsp
    cases F with
    | vec g =>
      rw [matchSyn_vec_isSome (hsp.2.2 hP.1) hsp.1 hF.1, ih h1 hP.2 hF.2]
      simp only [Mode.skip, skipF_zero]
      constructor
      · rintro ⟨b, hb⟩; exact ⟨b, g, rfl, hb⟩
      · rintro ⟨b, g', hg, hb⟩; injection hg with hg; subst hg; exact ⟨b, hb⟩
    | _ =>
      simp only [matchSyn]
      exact ⟨(fun h => by cases h), fun ⟨b, g, h, _⟩ => by cases h⟩
  | cons a d iha ihd =>
    intro lev md c vs r F m h hP hF
    by_cases hm : md.skip = 0
    · rw [hm, skipF_zero]
      rcases compPat_cons_some hm h with
        ⟨e, Q, p, c1, v1, q, rfl, he, hs, h1, h2, h3⟩ | ⟨p, c1, v1, q, he, h1, h2, h3⟩
      · have IQ : ∀ {F : Form} {m : MVec}, F.WF → ((matchSyn C q F m).isSome = true ↔
            ∃ b, Matches C.syn Q F b) := by
          intro F m hF
          have := ihd (lev := lev) (md := .tail true 1) (c := c1) (vs := vs ++ v1)
            (r := (q, r.2.1, r.2.2)) (F := F) (m := m)
            (by rw [compPat_skip]; exact h2) hP.2 hF
          simpa only [Mode.skip, skipF, skipF_zero] using this
        have IA : ∀ {F : Form} {m : MVec}, F.WF → ((matchSyn C p F m).isSome = true ↔
            ∃ b, Matches C.syn a F b) := by
          intro F m hF
          have := iha (F := F) (m := m) h1 hP.1 hF
          simpa only [Mode.skip, skipF_zero] using this
        rw [h3, matchSyn]
        simp only [matches_ell C a Q F e _ he]
        constructor
        · intro hsome
          cases hl : matchLoop (matchSyn C p) (F.pairs - Q.pairs) F
              (enterSub (lev + 1) v1 m) with
          | none => rw [hl] at hsome; cases hsome
          | some rr =>
            rw [hl] at hsome
            dsimp only at hsome
            obtain ⟨g1, fs, bs, g2, g3, g4⟩ := matchLoop_some (R := Matches C.syn a)
              (fun f m m' hf h => (IA hf).1 (by rw [h]; rfl))
              _ _ _ _ hF (Nat.sub_le _ _) hl
            rw [g1] at hsome
            obtain ⟨b2, hb2⟩ := (IQ (WF_dropF _ _ hF)).1 hsome
            refine ⟨_, fs, _, bs, b2, g2, ?_, g4, hb2, rfl⟩
            have hle := matches_pairs Q (m := .tail true 0) rfl rfl h2 hb2
            rw [pairs_dropF _ _ (Nat.sub_le _ _)] at hle ⊢
            omega
        · rintro ⟨b, fs, F2, bs, b2, rfl, g2, g3, g4, rfl⟩
          have hn : (prepend fs F2).pairs - Q.pairs = fs.length := by
            rw [pairs_prepend, g2]; omega
          obtain ⟨m', hm'⟩ := matchLoop_total (M := matchSyn C p)
            (R := Matches C.syn a)
            (fun f b m hf h => by
              have := (IA (m := m) hf).2 ⟨b, h⟩
              exact Option.isSome_iff_exists.1 this)
            fs bs F2 (enterSub (lev + 1) v1 m) hF g3
          rw [hn, hm']
          refine (IQ ?_).2 ⟨b2, g4⟩
          have := WF_dropF fs.length _ hF
          rwa [dropF_prepend] at this
      · have hp := compPat_notEll a h1
        rw [h3, matchSyn_plain C p q F m hp]
        simp only [matches_plain C a d F _ he]
        cases F with
        | cons f1 f2 =>
          dsimp only
          have IA := iha (F := f1) (m := m) h1 hP.1 hF.1
          simp only [Mode.skip, skipF_zero] at IA
          cases h5 : matchSyn C p f1 m with
          | none =>
            rw [h5] at IA
            constructor
            · intro h; cases h
            · rintro ⟨b, F1, F2, b1, b2, hc, hb1, _⟩
              injection hc with hc1 hc2
              subst hc1
              exact absurd (IA.2 ⟨b1, hb1⟩) (by simp)
          | some m1 =>
            have ID := ihd (F := f2) (m := m1) h2 hP.2 hF.2
            simp only [Mode.skip, skipF_zero] at ID
            rw [h5] at IA
            obtain ⟨b1, hb1⟩ := IA.1 rfl
            dsimp only
            rw [ID]
            constructor
            · rintro ⟨b2, hb2⟩
              exact ⟨_, f1, f2, b1, b2, rfl, hb1, hb2, rfl⟩
            · rintro ⟨b, F1, F2, b1', b2, hc, _, hb2, _⟩
              injection hc with hc1 hc2
              subst hc2
              exact ⟨b2, hb2⟩
        | _ =>
          exact ⟨(fun h => by cases h), fun ⟨b, F1, F2, b1, b2, h, _⟩ => by cases h⟩
    · cases md with
      | head => exact absurd rfl hm
      | tail s k =>
        cases k with
        | zero => exact absurd rfl hm
        | succ k => rw [compPat_skip] at h; exact ihd h hP.2 hF

end Gauche.SynRules

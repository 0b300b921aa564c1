import Verif.Proof.SynBind

/-! # The bindings the matcher leaves behind are those of the specification -/
namespace Gauche.SynRules
open Form

/-! ## Names -/

theorem collect_names (xs : List Nat) (bs : List Binding) :
    (collect xs bs).map Prod.fst = xs := by
  rw [collect, List.map_map]
  induction xs with
  | nil => rfl
  | cons x xs ih => rw [List.map_cons, ih]; rfl

theorem matches_names {C : Cfg} (P : Form) :
    ∀ {lev : Nat} {md : Mode} {c : Ctx} {vs : List PVRef}
    {r : Pat × Ctx × List PVRef} {F : Form} {b : Binding},
    compPat C lev P md c vs = some r → Matches C.syn (skipF md.skip P) F b →
    b.map Prod.fst = patVars C.syn (skipF md.skip P) := by
  induction P with
  | nil =>
    intro lev md c vs r F b h hb
    have : skipF md.skip .nil = .nil := by cases md.skip <;> rfl
    rw [this] at hb ⊢
    rw [hb.2]; rfl
  | atom k =>
    intro lev md c vs r F b h hb
    have : skipF md.skip (.atom k) = .atom k := by cases md.skip <;> rfl
    rw [this] at hb ⊢
    rw [hb.2]; rfl
  | sym x =>
    intro lev md c vs r F b h hb
    have : skipF md.skip (.sym x) = .sym x := by cases md.skip <;> rfl
    rw [this] at hb ⊢
    rw [Matches] at hb
    rw [patVars]
    obtain ⟨he, h⟩ := compPat_sym_some h
    have he' : C.syn.ell x = false := he
    rcases h with ⟨h1, rfl⟩ | ⟨h1, h2, rfl⟩ | ⟨h1, h2, h3, rfl⟩
    · rw [if_pos h1] at hb
      rw [hb.2]; simp [h1]
    · have h2' : C.syn.wild x = true := h2
      rw [if_neg (by simp [h1]), if_pos h2'] at hb
      rw [hb]; simp [h2']
    · have h2' : C.syn.wild x = false := h2
      rw [if_neg (by simp [h1]), if_neg (by simp [h2'])] at hb
      rw [hb]; simp [h1, h2', he']
  | vec l ih =>
    intro lev md c vs r F b h hb
    have : skipF md.skip (.vec l) = .vec l := by cases md.skip <;> rfl
    rw [this] at hb ⊢
    obtain ⟨p, h1, h2⟩ := compPat_vec_some h
    obtain ⟨g, _, hb⟩ := hb
    have := ih (F := g) (b := b) h1 (by simpa only [Mode.skip, skipF_zero] using hb)
    simp only [Mode.skip, skipF_zero] at this
    exact this
  | cons a d iha ihd =>
    intro lev md c vs r F b h hb
    by_cases hm : md.skip = 0
    · rw [hm, skipF_zero] at hb ⊢
      rcases compPat_cons_some hm h with
        ⟨e, Q, p, c1, v1, q, rfl, he, hs, h1, h2, h3⟩ | ⟨p, c1, v1, q, he, h1, h2, h3⟩
      · obtain ⟨fs, F2, bs, b2, _, _, _, hb2, rfl⟩ := (matches_ell C a Q F e b he).1 hb
        have B := ihd (lev := lev) (md := .tail true 1) (c := c1) (vs := vs ++ v1)
            (r := (q, r.2.1, r.2.2)) (F := F2) (b := b2)
            (by rw [compPat_skip]; exact h2)
            (by simpa only [Mode.skip, skipF, skipF_zero] using hb2)
        simp only [Mode.skip, skipF, skipF_zero] at B
        have he' : C.syn.ell e = true := he
        rw [List.map_append, collect_names, B, patVars, patVars]
        congr 1
        rw [patVars]
        simp [he']
      · obtain ⟨F1, F2, b1, b2, _, hb1, hb2, rfl⟩ := (matches_plain C a d F b he).1 hb
        have A := iha (F := F1) (b := b1) h1
          (by simpa only [Mode.skip, skipF_zero] using hb1)
        have B := ihd (F := F2) (b := b2) h2
          (by simpa only [Mode.skip, skipF_zero] using hb2)
        simp only [Mode.skip, skipF_zero] at A B
        rw [List.map_append, A, B, patVars]
    · cases md with
      | head => exact absurd rfl hm
      | tail s k =>
        cases k with
        | zero => exact absurd rfl hm
        | succ k => rw [compPat_skip] at h; exact ihd h hb

theorem getB_mem {x : Nat} : ∀ {b : Binding}, x ∈ b.map Prod.fst → (x, getB x b) ∈ b := by
  intro b
  induction b with
  | nil => intro h; cases h
  | cons e b ih =>
    intro h
    obtain ⟨y, t⟩ := e
    rw [getB]
    by_cases hx : x = y
    · rw [if_pos hx, hx]; exact List.mem_cons_self
    · rw [if_neg hx]
      rw [List.map_cons, List.mem_cons] at h
      rcases h with h | h
      · exact absurd h hx
      · exact List.mem_cons_of_mem _ (ih h)

/-! ## One variable -/

/-- What an entry must look like before its variable is matched at `lev`. -/
def Pre (lev l : Nat) (mv : MatchVar) : Prop :=
  if lev = 0 then mv.root = .nil ∧ mv.branch = []
  else if l = lev then True else mv.branch = []

/-- What matching its variable at `lev` with the value `v` makes of an entry. -/
def Eff (lev l : Nat) (v : Form) (mv mv' : MatchVar) : Prop :=
  if lev = 0 then mv'.root = v
  else if l = lev then
    mv'.root = mv.root ∧ mv'.branch = v :: mv.branch ∧ mv'.sprout = mv.sprout
  else mv'.root = appendAt (lev - 1) v mv.root ∧ mv'.branch = []

/-- An entry after the rounds of an ellipsis at level `lev + 1`. -/
def Rounds (lev l : Nat) (vs : List Form) (mv mv' : MatchVar) : Prop :=
  if l = lev + 1 then
    mv'.root = mv.root ∧ mv'.branch = vs.reverse ++ mv.branch ∧ mv'.sprout = mv.sprout
  else mv'.root = vs.foldl (fun r v => appendAt lev v r) mv.root ∧ mv'.branch = []

/-- Entering, the rounds and leaving together match the variable at the outer
level. -/
theorem rounds_eff {lev l n : Nat} {vs : List Form} {mv mv2 : MatchVar}
    (hl : lev + 1 ≤ l) (hpre : Pre lev l mv)
    (h : Rounds lev l vs (growBranch mv (lev + 1)) mv2) :
    Eff lev l (ofList vs) mv (exitVar (lev + 1) (l, n) mv2) := by
  have hne : l ≠ lev := by omega
  rw [Rounds] at h
  rw [Pre] at hpre
  rw [Eff]
  by_cases h0 : lev = 0
  · subst h0
    rw [if_pos rfl] at hpre ⊢
    have hg : growBranch mv (0 + 1) = mv := by rw [growBranch, if_pos (by omega)]
    rw [hg] at h
    by_cases h1 : l = 0 + 1
    · rw [if_pos h1] at h
      rw [exitVar, if_pos h1, if_pos rfl]
      dsimp only
      rw [h.2.1, hpre.2, List.append_nil, List.reverse_reverse]
    · rw [if_neg h1] at h
      rw [exitVar, if_neg h1, h.1, hpre.1]
      exact foldl_append0 vs []
  · rw [if_neg h0, if_neg hne] at hpre ⊢
    have hg : growBranch mv (lev + 1) =
        { mv with root := appendAt (lev - 1) .nil mv.root, sprout := lev + 1 } := by
      rw [growBranch, if_neg (by omega), growAt_eq]
      have : lev + 1 - 2 = lev - 1 := by omega
      rw [this]
    rw [hg] at h
    by_cases h1 : l = lev + 1
    · rw [if_pos h1] at h
      rw [exitVar, if_pos h1, if_neg (by omega)]
      dsimp only at h ⊢
      rw [h.2.1, hpre, List.append_nil, List.reverse_reverse, h.1, h.2.2]
      have : lev + 1 - 2 = lev - 1 := by omega
      rw [this, setSprout_appendAt]
      exact ⟨rfl, rfl⟩
    · rw [if_neg h1] at h
      rw [exitVar, if_neg h1]
      refine ⟨?_, h.2⟩
      rw [h.1]
      dsimp only
      have := foldl_appendSucc (lev - 1) vs mv.root []
      have hl' : lev - 1 + 1 = lev := by omega
      rw [hl'] at this
      exact this

/-! ## Vectors -/

/-- The last element of a compiled list is a repetition. -/
def Pat.lastEll : Pat → Bool
  | .cons p .nil => p.isEll
  | .cons _ d => d.lastEll
  | _ => false

theorem lastEll_cons {p d : Pat} (h : d ≠ .nil) :
    (Pat.cons p d).lastEll = d.lastEll := by
  cases d <;> first | exact absurd rfl h | rfl

theorem atEllipsis_last (ps : Pat) : ∀ {g : Form}, PProper ps → SpineOK ps →
    LenOK ps g.pairs → AtEllipsis ps g → ps.lastEll = true := by
  induction ps with
  | cons p q _ ihq =>
    intro g hp hs hl ha
    by_cases he : p.isEll = true
    · obtain ⟨l, nf, vs, p', rfl⟩ := isEll_cases he
      have ha : g = .nil := ha
      subst ha
      have hq : q = .nil := by
        refine pproper_len_zero hp ?_
        rw [LenOK, hasElli_cons, he, Bool.true_or, if_pos rfl, Pat.len] at hl
        have : Form.nil.pairs = 0 := rfl
        omega
      subst hq
      rfl
    · have he : p.isEll = false := by simpa using he
      cases g with
      | cons a d =>
        have ha := (atEllipsis_plain he).1 ha
        have hq : q ≠ .nil := by intro h; subst h; exact ha.elim
        rw [lastEll_cons hq]
        refine ihq hp ((spineOK_cons he).1 hs) ?_ ha
        rw [LenOK, hasElli_cons, he, Bool.false_or, Pat.len, pairs] at hl
        rw [LenOK]
        by_cases hq : q.hasElli = true
        · rw [if_pos hq] at hl ⊢; omega
        · rw [if_neg hq] at hl ⊢; omega
      | _ => cases p <;> first | exact ha.elim | cases he
  | _ => intro g _ _ _ ha; exact ha.elim

theorem endsEll_cons {S : Syn} {a d : Form} (h : d ≠ .nil) :
    endsEll S (.cons a d) = endsEll S d := by
  cases d with
  | nil => exact absurd rfl h
  | _ => cases a <;> rfl

theorem compPat_nil_inv {C : Cfg} {lev : Nat} {d : Form} {m : Mode} {c : Ctx}
    {vs : List PVRef} {r : Ctx × List PVRef} (hm : m.skip = 0)
    (h : compPat C lev d m c vs = some (.nil, r)) : d = .nil := by
  cases d with
  | nil => rfl
  | atom k => rw [compPat_atom] at h; injection h with h; injection h with h; cases h
  | sym x =>
    rcases (compPat_sym_some h).2 with ⟨_, h⟩ | ⟨_, _, h⟩ | ⟨_, _, _, h⟩ <;>
      (injection h with h; cases h)
  | vec l =>
    obtain ⟨p, _, h2⟩ := compPat_vec_some h
    cases h2
  | cons a d =>
    rcases compPat_cons_some hm h with
      ⟨e, Q, p, c1, v1, q, rfl, he, hs, h1, h2, h3⟩ | ⟨p, c1, v1, q, he, h1, h2, h3⟩
    · cases h3
    · cases h3

theorem compPat_lastEll {C : Cfg} (P : Form) :
    ∀ {lev : Nat} {m : Mode} {c : Ctx} {vs : List PVRef}
    {r : Pat × Ctx × List PVRef}, compPat C lev P m c vs = some r →
    r.1.lastEll = true → endsEll C.syn (skipF m.skip P) = true := by
  induction P with
  | nil =>
    intro lev m c vs r h hl
    rw [compPat_nil] at h; injection h with h; subst h; cases hl
  | atom k =>
    intro lev m c vs r h hl
    rw [compPat_atom] at h; injection h with h; subst h; cases hl
  | sym x =>
    intro lev m c vs r h hl
    rcases (compPat_sym_some h).2 with ⟨_, rfl⟩ | ⟨_, _, rfl⟩ | ⟨_, _, _, rfl⟩ <;> cases hl
  | vec l _ =>
    intro lev m c vs r h hl
    obtain ⟨p, _, h2⟩ := compPat_vec_some h
    rw [h2] at hl
    cases hl
  | cons a d _ ihd =>
    intro lev m c vs r h hl
    by_cases hm : m.skip = 0
    · rw [hm, skipF_zero]
      rcases compPat_cons_some hm h with
        ⟨e, Q, p, c1, v1, q, rfl, he, hs, h1, h2, h3⟩ | ⟨p, c1, v1, q, he, h1, h2, h3⟩
      · rw [h3] at hl
        rw [endsEll_cons (by simp)]
        by_cases hq : q = .nil
        · subst hq
          have : Q = .nil := compPat_nil_inv (m := .tail true 0) rfl h2
          subst this
          exact he
        · rw [lastEll_cons hq] at hl
          have hQ : Q ≠ .nil := by
            intro h; subst h; rw [compPat_nil] at h2
            injection h2 with h2; injection h2 with h2 _; exact hq h2.symm
          rw [endsEll_cons hQ]
          have := ihd (lev := lev) (m := .tail true 1) (c := c1) (vs := vs ++ v1)
            (r := (q, r.2.1, r.2.2)) (by rw [compPat_skip]; exact h2) hl
          simpa only [Mode.skip, skipF, skipF_zero] using this
      · rw [h3] at hl
        by_cases hq : q = .nil
        · subst hq
          have hp := compPat_notEll a h1
          have hl : p.isEll = true := hl
          dsimp only at hp
          rw [hp] at hl
          cases hl
        · rw [lastEll_cons hq] at hl
          have hd : d ≠ .nil := by
            intro h; subst h; rw [compPat_nil] at h2
            injection h2 with h2; injection h2 with h2 _; exact hq h2.symm
          rw [endsEll_cons hd]
          have := ihd (r := (q, r.2.1, r.2.2)) h2 hl
          simpa only [Mode.skip, skipF_zero] using this
    · cases m with
      | head => exact absurd rfl hm
      | tail s k =>
        cases k with
        | zero => exact absurd rfl hm
        | succ k => rw [compPat_skip] at h; exact ihd h hl

/-! ## The main theorem -/

/-- Every variable of the bindings has its value in its entry. -/
def Bound (lev : Nat) (pvars : List (Nat × PVRef)) (b : Binding) (m m' : MVec) : Prop :=
  ∀ x t, (x, t) ∈ b → ∀ l n, lookupPv x pvars = some (l, n) →
    Eff lev l (enc t) (m n) (m' n)

/-- Every variable is ready to be matched. -/
def Ready (lev : Nat) (pvars : List (Nat × PVRef)) (xs : List Nat) (m : MVec) : Prop :=
  ∀ x ∈ xs, ∀ l n, lookupPv x pvars = some (l, n) → Pre lev l (m n)

/-- The rounds of an ellipsis. -/
theorem loop_rounds {C : Cfg} {lev : Nat} {pvars : List (Nat × PVRef)} {a : Form}
    {p : Pat} (hlev : ∀ x ∈ patVars C.syn a, ∀ l n, lookupPv x pvars = some (l, n) →
      lev + 1 ≤ l)
    (hn : ∀ F b, Matches C.syn a F b → b.map Prod.fst = patVars C.syn a)
    (ih : ∀ F m m' b, F.WF → matchSyn C p F m = some m' → Matches C.syn a F b →
      Ready (lev + 1) pvars (patVars C.syn a) m → Bound (lev + 1) pvars b m m') :
    ∀ (fs : List Form) (bs : List Binding) (t : Form) (m : MVec) (r : Form × MVec),
      (prepend fs t).WF → Each (Matches C.syn a) fs bs →
      Ready (lev + 1) pvars (patVars C.syn a) m →
      matchLoop (matchSyn C p) fs.length (prepend fs t) m = some r →
      r.1 = t ∧ ∀ x ∈ patVars C.syn a, ∀ l n, lookupPv x pvars = some (l, n) →
        Rounds lev l (bs.map (fun b => enc (getB x b))) (m n) (r.2 n) := by
  intro fs
  induction fs with
  | nil =>
    intro bs t m r hw he hr h
    cases bs with
    | cons b bs => cases he
    | nil =>
      rw [List.length_nil, prepend, matchLoop] at h
      injection h with h
      subst h
      refine ⟨rfl, ?_⟩
      intro x hx l n hl
      rw [Rounds]
      have := hr x hx l n hl
      rw [Pre, if_neg (by omega)] at this
      by_cases h1 : l = lev + 1
      · rw [if_pos h1]; exact ⟨rfl, rfl, rfl⟩
      · rw [if_neg h1] at this ⊢; exact ⟨rfl, this⟩
  | cons f fs ihf =>
    intro bs t m r hw he hr h
    cases bs with
    | nil => cases he
    | cons b bs =>
      rw [List.length_cons, prepend, matchLoop] at h
      cases h1 : matchSyn C p f m with
      | none => rw [h1] at h; cases h
      | some m1 =>
        rw [h1] at h
        have hb := ih f m m1 b hw.1 h1 he.1 hr
        have hb' : ∀ x ∈ patVars C.syn a, ∀ l n, lookupPv x pvars = some (l, n) →
            Eff (lev + 1) l (enc (getB x b)) (m n) (m1 n) := by
          intro x hx l n hl
          exact hb x _ (getB_mem (by rw [hn f b he.1]; exact hx)) l n hl
        have hr1 : Ready (lev + 1) pvars (patVars C.syn a) m1 := by
          intro x hx l n hl
          have := hb' x hx l n hl
          rw [Eff, if_neg (by omega)] at this
          rw [Pre, if_neg (by omega)]
          by_cases h2 : l = lev + 1
          · rw [if_pos h2]; trivial
          · rw [if_neg h2] at this ⊢; exact this.2
        obtain ⟨hr2, hrest⟩ := ihf bs t m1 r hw.2 he.2 hr1 h
        refine ⟨hr2, ?_⟩
        intro x hx l n hl
        have A := hb' x hx l n hl
        have B := hrest x hx l n hl
        rw [Eff, if_neg (by omega)] at A
        rw [Rounds] at B ⊢
        by_cases h2 : l = lev + 1
        · rw [if_pos h2] at A B ⊢
          refine ⟨by rw [B.1, A.1], ?_, by rw [B.2.2, A.2.2]⟩
          rw [B.2.1, A.2.1, List.map_cons, List.reverse_cons, List.append_assoc]
          rfl
        · rw [if_neg h2] at A B ⊢
          refine ⟨?_, B.2⟩
          rw [B.1, A.1, List.map_cons, List.foldl_cons, Nat.add_sub_cancel]

/-- The level flag of the specification's condition on vectors. -/
def below (lev : Nat) : Bool := decide (0 < lev)

theorem compPat_bound {C : Cfg} (P : Form) :
    ∀ {lev : Nat} {md : Mode} {c : Ctx} {vs : List PVRef}
    {r : Pat × Ctx × List PVRef} {pvars : List (Nat × PVRef)}
    {F : Form} {m m' : MVec} {b : Binding},
    compPat C lev P md c vs = some r → P.WF → F.WF →
    VecOK C.syn (below lev) (skipF md.skip P) →
    (∀ x l, lookupPv x r.2.1.pvars = some l → lookupPv x pvars = some l) →
    matchSyn C r.1 F m = some m' → Matches C.syn (skipF md.skip P) F b →
    Ready lev pvars (patVars C.syn (skipF md.skip P)) m →
    Bound lev pvars b m m' := by
  induction P with
  | nil =>
    intro lev md c vs r pvars F m m' b h _ _ _ hpv hm hb hr
    have : skipF md.skip .nil = .nil := by cases md.skip <;> rfl
    rw [this] at hb
    rw [hb.2]
    intro x t hx; cases hx
  | atom k =>
    intro lev md c vs r pvars F m m' b h _ _ _ hpv hm hb hr
    have : skipF md.skip (.atom k) = .atom k := by cases md.skip <;> rfl
    rw [this] at hb
    rw [hb.2]
    intro x t hx; cases hx
  | sym x =>
    intro lev md c vs r pvars F m m' b h _ _ _ hpv hm hb hr
    have : skipF md.skip (.sym x) = .sym x := by cases md.skip <;> rfl
    rw [this] at hb
    rw [Matches] at hb
    rcases (compPat_sym_some h).2 with ⟨h1, rfl⟩ | ⟨h1, h2, rfl⟩ | ⟨h1, h2, h3, rfl⟩
    · rw [if_pos h1] at hb
      rw [hb.2]; intro x t hx; cases hx
    · have h2' : C.syn.wild x = true := h2
      rw [if_neg (by simp [h1]), if_pos h2'] at hb
      rw [hb]; intro x t hx; cases hx
    · have h2' : C.syn.wild x = false := h2
      rw [if_neg (by simp [h1]), if_neg (by simp [h2'])] at hb
      rw [hb]
      intro y t hy l n hl
      rw [List.mem_singleton] at hy
      injection hy with hy1 hy2
      subst hy1 hy2
      have := hpv y (lev, c.pvcnt) (by simp [lookupPv])
      rw [this] at hl
      injection hl with hl
      injection hl with hl1 hl2
      subst hl1 hl2
      rw [matchSyn] at hm
      injection hm with hm
      subst hm
      rw [matchInsert, upd_same, Eff]
      by_cases h0 : lev = 0
      · rw [if_pos h0, if_pos h0]; rfl
      · rw [if_neg h0, if_neg h0, if_pos rfl]; exact ⟨rfl, rfl, rfl⟩
  | vec l ih =>
    intro lev md c vs r pvars F m m' b h hP hF hv hpv hm hb hr
    have : skipF md.skip (.vec l) = .vec l := by cases md.skip <;> rfl
    rw [this] at hb hv hr
    rw [patVars] at hr
    obtain ⟨p, h1, h2⟩ := compPat_vec_some h
    obtain ⟨g, rfl, hb⟩ := hb
    rw [h2] at hm
    have hsp := compPat_spine l h1
    simp only [Mode.skip, skipF_zero] at hsp
    have hpp := hsp.2.2 hP.1
    rw [matchSyn] at hm
    by_cases hlen : vecLenOK p g.pairs = true
    · rw [if_pos hlen] at hm
      have hlen := (vecLenOK_iff p g.pairs).1 hlen
      by_cases ha : AtEllipsis p g
      · -- the elements run out at an ellipsis, which is the last element
        have hlast := atEllipsis_last p hpp hsp.1 hlen ha
        have hends := compPat_lastEll l h1 hlast
        simp only [Mode.skip, skipF_zero] at hends
        by_cases h0 : lev = 0
        · -- at the outer level the entries stay empty
          subst h0
          -- compare with matching the elements as a list
          have key : ∀ (ps : Pat) (l : Form) (g : Form) (b : Binding)
              (m m' : MVec) (md : Mode) (c : Ctx) (vs : List PVRef)
              (c' : Ctx) (vs' : List PVRef),
              md.skip = 0 → SpineOK ps → PProper ps → LenOK ps g.pairs → AtEllipsis ps g →
              matchVec C ps g m = some m' → Matches C.syn l g b →
              (∀ n, n < c.pvcnt → True) →
              compPat C 0 l md c vs = some (ps, c', vs') → l.WF →
              Ready 0 pvars (patVars C.syn l) m →
              (∀ x r, lookupPv x c'.pvars = some r → lookupPv x pvars = some r) →
              ∃ m2, matchSyn C ps g m = some m2 ∧
                (∀ n, (m n).root = .nil → (m n).branch = [] → (m2 n).root = (m' n).root) := by
            intro ps
            induction ps with
            | cons p q ihp ihq =>
              intro l g b m m' md c vs c' vs' hmd hs hp hl ha hmv hb _ hc hw hr hpv
              by_cases he : p.isEll = true
              · obtain ⟨l', nf, vs1, p', rfl⟩ := isEll_cases he
                have ha : g = .nil := ha
                subst ha
                have hq : q = .nil := by
                  refine pproper_len_zero hp ?_
                  rw [LenOK, hasElli_cons, he, Bool.true_or, if_pos rfl, Pat.len] at hl
                  have : Form.nil.pairs = 0 := rfl
                  omega
                subst hq
                rw [matchVec] at hmv
                rotate_left
                · intro a d h; cases h
                injection hmv with hmv
                subst hmv
                refine ⟨exitSub l' vs1 (enterSub l' vs1 m), ?_, ?_⟩
                · simp [matchSyn, pairs, matchLoop]
                · intro n hn1 hn2
                  have hlv : l' = 1 := by
                    cases l with
                    | cons a d =>
                      rcases compPat_cons_some hmd hc with
                        ⟨e, Q, p2, c1, v1, q, rfl, he, hs, h1, h2, h3⟩ |
                        ⟨p2, c1, v1, q, he, h1, h2, h3⟩
                      · injection h3 with h3 _
                        injection h3 with h3
                      · injection h3 with h3 _
                        have := compPat_notEll a h1
                        dsimp only at this
                        rw [← h3] at this
                        cases this
                    | nil => rw [compPat_nil] at hc; cases hc
                    | atom k => rw [compPat_atom] at hc; cases hc
                    | sym x =>
                      rcases (compPat_sym_some hc).2 with ⟨_, h⟩ | ⟨_, _, h⟩ | ⟨_, _, _, h⟩ <;>
                        (injection h with h; cases h)
                    | vec l =>
                      obtain ⟨p, _, h2⟩ := compPat_vec_some hc
                      cases h2
                  subst hlv
                  have henter : ∀ (vs : List PVRef) (m : MVec), enterSub 1 vs m = m := by
                    intro vs
                    induction vs with
                    | nil => intro m; rfl
                    | cons r vs ih =>
                      intro m
                      rw [enterSub]
                      have : m.upd r.2 (fun mv => growBranch mv 1) = m := by
                        funext i
                        rw [MVec.upd]
                        by_cases hi : i = r.2
                        · rw [if_pos hi]; rfl
                        · rw [if_neg hi]
                      rw [this, ih]
                  have hexit : ∀ (vs : List PVRef) (m : MVec), (m n).root = .nil →
                      (m n).branch = [] →
                      (exitSub 1 vs m n).root = .nil := by
                    intro vs
                    induction vs with
                    | nil => intro m h _; exact h
                    | cons r vs ih =>
                      intro m h1 h2
                      rw [exitSub]
                      refine ih _ ?_ ?_
                      · rw [MVec.upd]
                        by_cases hi : n = r.2
                        · rw [if_pos hi, exitVar]
                          by_cases hr : r.1 = 1
                          · rw [if_pos hr, if_pos rfl]
                            show Form.ofList (m n).branch.reverse = .nil
                            rw [h2]; rfl
                          · rw [if_neg hr]; exact h1
                        · rw [if_neg hi]; exact h1
                      · rw [MVec.upd]
                        by_cases hi : n = r.2
                        · rw [if_pos hi, exitVar]
                          by_cases hr : r.1 = 1
                          · rw [if_pos hr, if_pos rfl]; exact h2
                          · rw [if_neg hr]; exact h2
                        · rw [if_neg hi]; exact h2
                  rw [henter, hexit vs1 m hn1 hn2, hn1]
              · have he : p.isEll = false := by simpa using he
                rw [matchVec_plain C p q g m he] at hmv
                cases g with
                | cons f1 f2 =>
                  dsimp only at hmv
                  cases h5 : matchSyn C p f1 m with
                  | none => rw [h5] at hmv; cases hmv
                  | some m1 =>
                    rw [h5] at hmv
                    dsimp only at hmv
                    cases l with
                    | cons a d =>
                      rcases compPat_cons_some hmd hc with
                        ⟨e, Q, p2, c1, v1, q2, rfl, he', hs, h1, h2, h3⟩ |
                        ⟨p2, c1, v1, q2, he', h1, h2, h3⟩
                      · injection h3 with h3 _
                        rw [h3] at he
                        cases he
                      · injection h3 with h3 h4
                        subst h3 h4
                        obtain ⟨F1, F2, b1, b2, hF, hb1, hb2, rfl⟩ :=
                          (matches_plain C a d _ b he').1 hb
                        injection hF with hF1 hF2
                        subst hF1 hF2
                        have E1 := compPat_ext C a _ _ _ _ _ h1
                        have E2 := compPat_ext C d _ _ _ _ _ h2
                        simp only [Mode.skip, skipF_zero] at E1 E2
                        have fr : ∀ n, ¬ occ n p → m1 n = m n := fun n hn =>
                          (match_frame C n p).1 hn _ _ _ h5
                        obtain ⟨m2, hm2, hm2'⟩ := ihq d f2 b2 m1 m' (.tail md.seen 0) c1 v1
                          c' vs' rfl ((spineOK_cons he).1 hs) hp (by
                            rw [LenOK, hasElli_cons, he, Bool.false_or, Pat.len, pairs] at hl
                            rw [LenOK]
                            by_cases hq : q.hasElli = true
                            · rw [if_pos hq] at hl ⊢; omega
                            · rw [if_neg hq] at hl ⊢; omega)
                          ((atEllipsis_plain he).1 ha) hmv hb2 (fun _ _ => trivial) h2 hw.2
                          (by
                            intro x hx l n hl
                            have := hr x (by rw [patVars]; exact List.mem_append_right _ hx) l n hl
                            rw [fr n]
                            · exact this
                            · intro ho
                              have := compPat_occ a h1 ho
                              obtain ⟨_, l', n', h6, _, h7, _⟩ := E2.1.new x hx
                              have h8 := hpv x _ h6
                              rw [h8] at hl
                              injection hl with hl
                              injection hl with _ hl
                              dsimp only at this h7
                              omega) hpv
                        refine ⟨m2, ?_, ?_⟩
                        · rw [matchSyn_plain C p q _ m he]
                          dsimp only
                          rw [h5]
                          exact hm2
                        · intro n hn1 hn2
                          by_cases ho : occ n p
                          · -- not touched by the rest
                            have hn : ¬ occ n q := by
                              intro ho2
                              have A := compPat_occ a h1 ho
                              have B := compPat_occ d h2 ho2
                              dsimp only at A B
                              omega
                            rw [(match_frame C n q).1 hn _ _ _ hm2,
                              (match_frame C n q).2.1 hn _ _ _ hmv]
                          · have := fr n ho
                            exact hm2' n (by rw [this]; exact hn1) (by rw [this]; exact hn2)
                    | nil => rw [compPat_nil] at hc; cases hc
                    | atom k => rw [compPat_atom] at hc; cases hc
                    | sym x =>
                      rcases (compPat_sym_some hc).2 with ⟨_, h⟩ | ⟨_, _, h⟩ | ⟨_, _, _, h⟩ <;>
                        (injection h with h; cases h)
                    | vec l =>
                      obtain ⟨p, _, h2⟩ := compPat_vec_some hc
                      cases h2
                | _ => cases hmv
            | _ => intro l g b m m' md c vs c' vs' _ _ _ _ ha; exact ha.elim
          obtain ⟨m2, hm2, hm2'⟩ := key p l g b m m' .head c vs r.2.1 r.2.2 rfl hsp.1 hpp hlen ha
            hm hb (fun _ _ => trivial) h1 hP.2 hr hpv
          have hlist := ih (md := .head) (F := g) (m := m) (m' := m2) (b := b) (pvars := pvars)
            h1 hP.2 hF.2
            (by simpa only [Mode.skip, skipF_zero] using hv.2) hpv hm2
            (by simpa only [Mode.skip, skipF_zero] using hb)
            (by simpa only [Mode.skip, skipF_zero] using hr)
          intro x t hx lx n hl
          have A := hlist x t hx lx n hl
          rw [Eff, if_pos rfl] at A ⊢
          have hx' : x ∈ patVars C.syn l := by
            have := matches_names l (md := .head) h1
              (by simpa only [Mode.skip, skipF_zero] using hb)
            simp only [Mode.skip, skipF_zero] at this
            rw [← this]
            exact List.mem_map.2 ⟨_, hx, rfl⟩
          have hpre := hr x hx' lx n hl
          rw [Pre, if_pos rfl] at hpre
          rw [← hm2' n hpre.1 hpre.2]
          exact A
        · exfalso
          have := hv.1 (by rw [below, decide_eq_true_iff]; omega)
          rw [this] at hends
          cases hends
      · rw [matchVec_eq p hpp hsp.1 hF.1 hlen ha] at hm
        exact ih (md := .head) (F := g) (m := m) (m' := m') (b := b) (pvars := pvars)
          (r := (p, r.2.1, r.2.2)) h1 hP.2 hF.2
          (by simpa only [Mode.skip, skipF_zero] using hv.2) hpv hm
          (by simpa only [Mode.skip, skipF_zero] using hb)
          (by simpa only [Mode.skip, skipF_zero] using hr)
    · rw [if_neg hlen] at hm; cases hm
  | cons a d iha ihd =>
    intro lev md c vs r pvars F m m' b h hP hF hv hpv hm hb hr
    by_cases hsk : md.skip = 0
    · rw [hsk, skipF_zero] at hb hv hr
      rcases compPat_cons_some hsk h with
        ⟨e, Q, p, c1, v1, q, rfl, he, hs, h1, h2, h3⟩ | ⟨p, c1, v1, q, he, h1, h2, h3⟩
      · obtain ⟨fs, F2, bs, b2, rfl, g2, g3, hb2, rfl⟩ := (matches_ell C a Q F e b he).1 hb
        have E1 := compPat_ext C a _ _ _ _ _ h1
        have E2 := compPat_ext C Q _ _ _ _ _ h2
        simp only [Mode.skip, skipF_zero] at E1 E2
        have he' : C.syn.ell e = true := he
        have hvars : patVars C.syn (.cons a (.cons (.sym e) Q)) =
            patVars C.syn a ++ patVars C.syn Q := by
          rw [patVars, patVars]
          congr 1
          rw [patVars]
          simp [he']
        rw [hvars] at hr
        have hpv1 : ∀ x l, lookupPv x c1.pvars = some l → lookupPv x pvars = some l :=
          fun x l hl => hpv x l (E2.1.keep hl)
        rw [h3, matchSyn] at hm
        have hn : (prepend fs F2).pairs - Q.pairs = fs.length := by
          rw [pairs_prepend, g2]; omega
        rw [hn] at hm
        cases hl : matchLoop (matchSyn C p) fs.length (prepend fs F2)
            (enterSub (lev + 1) v1 m) with
        | none => rw [hl] at hm; cases hm
        | some rr =>
          rw [hl] at hm
          obtain ⟨f', m2⟩ := rr
          dsimp only at hm
          have hnd := compPat_nodup a h1 (fun v hv => by cases hv) List.nodup_nil
          have hnd := hnd.2
          dsimp only at hnd
          -- the entries of the variables of `a`
          have hent : ∀ x ∈ patVars C.syn a, ∀ l n, lookupPv x pvars = some (l, n) →
              (l, n) ∈ v1 ∧ lev + 1 ≤ l ∧ n < c1.pvcnt := by
            intro x hx l n hln
            obtain ⟨_, l', n', h6, h7, h8, h9⟩ := E1.1.new x hx
            have h10 := hpv1 x _ h6
            rw [hln] at h10
            injection h10 with h10
            injection h10 with h10 h11
            subst h10 h11
            exact ⟨(E1.2 _).2 (.inr ⟨x, hx, h6⟩), h7, h9⟩
          have hready : Ready (lev + 1) pvars (patVars C.syn a) (enterSub (lev + 1) v1 m) := by
            intro x hx l n hln
            obtain ⟨hm1, hm2, _⟩ := hent x hx l n hln
            rw [enterSub_mem v1 hnd hm1]
            have hpre := hr x (List.mem_append_left _ hx) l n hln
            rw [Pre, if_neg (by omega)]
            by_cases h12 : l = lev + 1
            · rw [if_pos h12]; trivial
            · rw [if_neg h12]
              have hbr : (growBranch (m n) (lev + 1)).branch = (m n).branch := by
                rw [growBranch]
                by_cases h13 : lev + 1 ≤ 1
                · rw [if_pos h13]
                · rw [if_neg h13]
              rw [hbr]
              rw [Pre] at hpre
              by_cases h14 : lev = 0
              · rw [if_pos h14] at hpre; exact hpre.2
              · rw [if_neg h14, if_neg (by omega)] at hpre; exact hpre
          have hva : VecOK C.syn (below (lev + 1)) a := by
            have := hv.1
            have hne : nextEll C.syn (.cons (.sym e) Q) = true := he'
            rw [hne, Bool.or_true] at this
            have hbl : below (lev + 1) = true := by simp [below]
            rw [hbl]
            exact this
          obtain ⟨hr1, hrounds⟩ := loop_rounds (C := C) (lev := lev) (pvars := pvars)
            (a := a) (p := p)
            (fun x hx l n hln => (hent x hx l n hln).2.1)
            (fun F b hb => by
              have := matches_names a (md := .head) h1 (F := F) (b := b)
                (by simpa only [Mode.skip, skipF_zero] using hb)
              simpa only [Mode.skip, skipF_zero] using this)
            (fun F m m' b hF hm hb hr =>
              iha (md := .head) (r := (p, c1, v1)) h1 hP.1 hF
                (by simpa only [Mode.skip, skipF_zero] using hva) hpv1 hm
                (by simpa only [Mode.skip, skipF_zero] using hb)
                (by simpa only [Mode.skip, skipF_zero] using hr))
            fs bs F2 _ _ hF g3 hready hl
          dsimp only at hr1 hrounds
          subst hr1
          -- after leaving
          have hleft : ∀ x ∈ patVars C.syn a, ∀ l n, lookupPv x pvars = some (l, n) →
              Eff lev l (ofList (bs.map (fun b => enc (getB x b)))) (m n)
                (exitSub (lev + 1) v1 m2 n) := by
            intro x hx l n hln
            obtain ⟨hm1, hm2, _⟩ := hent x hx l n hln
            rw [exitSub_mem v1 hnd hm1]
            refine rounds_eff hm2 (hr x (List.mem_append_left _ hx) l n hln) ?_
            have := hrounds x hx l n hln
            rw [enterSub_mem v1 hnd hm1] at this
            exact this
          -- the entries of the variables of the rest
          have hrestn : ∀ x ∈ patVars C.syn Q, ∀ l n, lookupPv x pvars = some (l, n) →
              c1.pvcnt ≤ n := by
            intro x hx l n hln
            obtain ⟨_, l', n', h6, h7, h8, h9⟩ := E2.1.new x hx
            have h10 := hpv x _ h6
            rw [hln] at h10
            injection h10 with h10
            injection h10 with h10 h11
            subst h11
            exact h8
          have hsame : ∀ n, c1.pvcnt ≤ n → exitSub (lev + 1) v1 m2 n = m n := by
            intro n hn
            have hno : ¬ ∃ l, (l, n) ∈ v1 := by
              rintro ⟨l, hln⟩
              have := (compPat_nodup a h1 (fun v hv => by cases hv) List.nodup_nil).1 _ hln
              dsimp only at this
              omega
            have hno2 : ¬ occ n p := by
              intro ho
              have := compPat_occ a h1 ho
              dsimp only at this
              omega
            have := matchLoop_frame (n := n) (match_frame C n p |>.1 hno2) _ _ _ _ hl
            dsimp only at this
            rw [exitSub_other v1 hno, this, enterSub_other v1 hno]
          have IQ := ihd (lev := lev) (md := .tail true 1) (c := c1) (vs := vs ++ v1)
            (r := (q, r.2.1, r.2.2)) (pvars := pvars) (F := f') (b := b2)
            (m := exitSub (lev + 1) v1 m2) (m' := m')
            (by rw [compPat_skip]; exact h2) hP.2
            (by
              have := WF_dropF fs.length _ hF
              rwa [dropF_prepend] at this)
            (by simpa only [Mode.skip, skipF, skipF_zero] using hv.2.2) hpv hm
            (by simpa only [Mode.skip, skipF, skipF_zero] using hb2)
            (by
              simp only [Mode.skip, skipF, skipF_zero]
              intro x hx l n hln
              rw [hsame n (hrestn x hx l n hln)]
              exact hr x (List.mem_append_right _ hx) l n hln)
          intro x t hx l n hln
          rcases List.mem_append.1 hx with hx | hx
          · rw [collect] at hx
            obtain ⟨y, hy, hyt⟩ := List.mem_map.1 hx
            injection hyt with hy1 hy2
            subst hy1 hy2
            have := hleft y hy l n hln
            have hno2 : ¬ occ n q := by
              intro ho
              have h12 := compPat_occ Q h2 ho
              have h13 := hent y hy l n hln
              dsimp only at h12
              omega
            rw [(match_frame C n q).1 hno2 _ _ _ hm]
            rw [enc, encs_eq, List.map_map]
            exact this
          · have A := IQ x t hx l n hln
            have hx' : x ∈ patVars C.syn Q := by
              have := matches_names Q (md := .tail true 0) h2
                (by simpa only [Mode.skip, skipF_zero] using hb2)
              simp only [Mode.skip, skipF_zero] at this
              rw [← this]
              exact List.mem_map.2 ⟨_, hx, rfl⟩
            rw [hsame n (hrestn x hx' l n hln)] at A
            exact A
      · have hp := compPat_notEll a h1
        dsimp only at hp
        obtain ⟨F1, F2, b1, b2, rfl, hb1, hb2, rfl⟩ := (matches_plain C a d F b he).1 hb
        have E1 := compPat_ext C a _ _ _ _ _ h1
        have E2 := compPat_ext C d _ _ _ _ _ h2
        simp only [Mode.skip, skipF_zero] at E1 E2
        rw [patVars] at hr
        have hpv1 : ∀ x l, lookupPv x c1.pvars = some l → lookupPv x pvars = some l :=
          fun x l hl => hpv x l (E2.1.keep hl)
        rw [h3, matchSyn_plain C p q _ m hp] at hm
        dsimp only at hm
        cases h5 : matchSyn C p F1 m with
        | none => rw [h5] at hm; cases hm
        | some m1 =>
          rw [h5] at hm
          dsimp only at hm
          have hne : nextEll C.syn d = false := by
            cases d with
            | cons a' d' => cases a' <;> first | rfl | exact he
            | _ => rfl
          have hva := hv.1
          rw [hne, Bool.or_false] at hva
          have IA := iha (md := .head) (r := (p, c1, v1)) (pvars := pvars) (F := F1) (m := m)
            (m' := m1) (b := b1) h1 hP.1 hF.1
            (by simpa only [Mode.skip, skipF_zero] using hva) hpv1 h5
            (by simpa only [Mode.skip, skipF_zero] using hb1)
            (by
              simp only [Mode.skip, skipF_zero]
              intro x hx l n hln
              exact hr x (List.mem_append_left _ hx) l n hln)
          have hrestn : ∀ x ∈ patVars C.syn d, ∀ l n, lookupPv x pvars = some (l, n) →
              c1.pvcnt ≤ n := by
            intro x hx l n hln
            obtain ⟨_, l', n', h6, h7, h8, h9⟩ := E2.1.new x hx
            have h10 := hpv x _ h6
            rw [hln] at h10
            injection h10 with h10
            injection h10 with h10 h11
            subst h11
            exact h8
          have hsame : ∀ n, c1.pvcnt ≤ n → m1 n = m n := by
            intro n hn
            refine (match_frame C n p).1 ?_ _ _ _ h5
            intro ho
            have := compPat_occ a h1 ho
            dsimp only at this
            omega
          have IQ := ihd (md := .tail md.seen 0) (r := (q, r.2.1, r.2.2)) (pvars := pvars)
            (F := F2) (b := b2) (m := m1) (m' := m') h2 hP.2 hF.2
            (by simpa only [Mode.skip, skipF_zero] using hv.2) hpv hm
            (by simpa only [Mode.skip, skipF_zero] using hb2)
            (by
              simp only [Mode.skip, skipF_zero]
              intro x hx l n hln
              rw [hsame n (hrestn x hx l n hln)]
              exact hr x (List.mem_append_right _ hx) l n hln)
          intro x t hx l n hln
          rcases List.mem_append.1 hx with hx | hx
          · have A := IA x t hx l n hln
            have hx' : x ∈ patVars C.syn a := by
              have := matches_names a (md := .head) h1
                (by simpa only [Mode.skip, skipF_zero] using hb1)
              simp only [Mode.skip, skipF_zero] at this
              rw [← this]
              exact List.mem_map.2 ⟨_, hx, rfl⟩
            have hno2 : ¬ occ n q := by
              intro ho
              have h12 := compPat_occ d h2 ho
              obtain ⟨_, l', n', h6, h7, h8, h9⟩ := E1.1.new x hx'
              have h10 := hpv1 x _ h6
              rw [hln] at h10
              injection h10 with h10
              injection h10 with h10 h11
              subst h11
              dsimp only at h12 h9
              omega
            rw [(match_frame C n q).1 hno2 _ _ _ hm]
            exact A
          · have A := IQ x t hx l n hln
            have hx' : x ∈ patVars C.syn d := by
              have := matches_names d (md := .tail md.seen 0) h2
                (by simpa only [Mode.skip, skipF_zero] using hb2)
              simp only [Mode.skip, skipF_zero] at this
              rw [← this]
              exact List.mem_map.2 ⟨_, hx, rfl⟩
            rw [hsame n (hrestn x hx' l n hln)] at A
            exact A
    · cases md with
      | head => exact absurd rfl hsk
      | tail s k =>
        cases k with
        | zero => exact absurd rfl hsk
        | succ k => rw [compPat_skip] at h; exact ihd h hP.2 hF hv hpv hm hb hr

end Gauche.SynRules

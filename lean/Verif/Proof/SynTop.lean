import Verif.Proof.SynReal

/-! # Rules as a whole -/
namespace Gauche.SynRules
open Form

/-! ## The depth of bindings -/

theorem each_mem {α β : Type} {R : α → β → Prop} : ∀ {as : List α} {bs : List β},
    Each R as bs → ∀ b ∈ bs, ∃ a, R a b := by
  intro as
  induction as with
  | nil =>
    intro bs h b hb
    cases bs with
    | nil => cases hb
    | cons _ _ => exact h.elim
  | cons a as ih =>
    intro bs h b hb
    cases bs with
    | nil => cases hb
    | cons b' bs =>
      rcases List.mem_cons.1 hb with rfl | hb
      · exact ⟨a, h.1⟩
      · exact ih h.2 b hb

theorem matches_depth {C : Cfg} (P : Form) :
    ∀ {lev : Nat} {md : Mode} {c : Ctx} {vs : List PVRef}
    {r : Pat × Ctx × List PVRef} {pvars : List (Nat × PVRef)} {F : Form} {b : Binding},
    compPat C lev P md c vs = some r →
    (∀ x l, lookupPv x r.2.1.pvars = some l → lookupPv x pvars = some l) →
    Matches C.syn (skipF md.skip P) F b →
    ∀ x t, (x, t) ∈ b → ∀ l n, lookupPv x pvars = some (l, n) → HasDepth (l - lev) t := by
  induction P with
  | nil =>
    intro lev md c vs r pvars F b h _ hb x t hx
    have : skipF md.skip .nil = .nil := by cases md.skip <;> rfl
    rw [this] at hb
    rw [hb.2] at hx; cases hx
  | atom k =>
    intro lev md c vs r pvars F b h _ hb x t hx
    have : skipF md.skip (.atom k) = .atom k := by cases md.skip <;> rfl
    rw [this] at hb
    rw [hb.2] at hx; cases hx
  | sym y =>
    intro lev md c vs r pvars F b h hp hb x t hx l n hl
    have : skipF md.skip (.sym y) = .sym y := by cases md.skip <;> rfl
    rw [this, Matches] at hb
    obtain ⟨he, h⟩ := compPat_sym_some h
    rcases h with ⟨h1, rfl⟩ | ⟨h1, h2, rfl⟩ | ⟨h1, h2, h3, rfl⟩
    · rw [if_pos h1] at hb
      rw [hb.2] at hx; cases hx
    · have h2' : C.syn.wild y = true := h2
      rw [if_neg (by simp [h1]), if_pos h2'] at hb
      rw [hb] at hx; cases hx
    · have h2' : C.syn.wild y = false := h2
      rw [if_neg (by simp [h1]), if_neg (by simp [h2'])] at hb
      rw [hb, List.mem_singleton] at hx
      injection hx with hx1 hx2
      subst hx1 hx2
      have := hp x (lev, c.pvcnt) (by rw [lookupPv, if_pos rfl])
      rw [this] at hl
      injection hl with hl
      injection hl with hl _
      subst hl
      rw [Nat.sub_self]; trivial
  | vec l ih =>
    intro lev md c vs r pvars F b h hp hb
    have : skipF md.skip (.vec l) = .vec l := by cases md.skip <;> rfl
    rw [this] at hb
    obtain ⟨p, h1, h2⟩ := compPat_vec_some h
    obtain ⟨g, _, hb⟩ := hb
    exact ih (F := g) (b := b) h1 hp (by simpa only [Mode.skip, skipF_zero] using hb)
  | cons a d iha ihd =>
    intro lev md c vs r pvars F b h hp hb
    by_cases hm : md.skip = 0
    · rw [hm, skipF_zero] at hb
      rcases compPat_cons_some hm h with
        ⟨e, Q, p, c1, v1, q, rfl, he, hs, h1, h2, h3⟩ | ⟨p, c1, v1, q, he, h1, h2, h3⟩
      · obtain ⟨fs, F2, bs, b2, _, _, hbs, hb2, rfl⟩ := (matches_ell C a Q F e b he).1 hb
        have hext := (compPat_ext C Q _ _ _ _ _ h2).1
        have hp1 : ∀ x l, lookupPv x c1.pvars = some l → lookupPv x pvars = some l :=
          fun x l hx => hp x l (hext.keep hx)
        intro x t hx l n hl
        rcases List.mem_append.1 hx with hx | hx
        · rw [collect, List.mem_map] at hx
          obtain ⟨y, hy, hx⟩ := hx
          injection hx with hx1 hx2
          subst hx1 hx2
          have hexa := (compPat_ext C a _ _ _ _ _ h1).1
          simp only [Mode.skip, skipF_zero] at hexa
          obtain ⟨_, l', n', hl', hle, _⟩ := hexa.new y hy
          have := hp1 y _ hl'
          rw [this] at hl
          injection hl with hl
          injection hl with hl hl2
          subst hl hl2
          rw [show l' - lev = (l' - (lev + 1)) + 1 by omega]
          intro t ht
          obtain ⟨b', hb', rfl⟩ := List.mem_map.1 ht
          obtain ⟨f, hf⟩ := each_mem hbs b' hb'
          have hn := matches_names a h1 (by simpa only [Mode.skip, skipF_zero] using hf)
          simp only [Mode.skip, skipF_zero] at hn
          exact iha h1 hp1 (by simpa only [Mode.skip, skipF_zero] using hf) y _
            (getB_mem (by rw [hn]; exact hy)) l' n' this
        · exact ihd (lev := lev) (md := .tail true 1) (c := c1) (vs := vs ++ v1)
            (r := (q, r.2.1, r.2.2)) (F := F2) (b := b2)
            (by rw [compPat_skip]; exact h2) hp
            (by simpa only [Mode.skip, skipF, skipF_zero] using hb2) x t hx l n hl
      · obtain ⟨F1, F2, b1, b2, _, hb1, hb2, rfl⟩ := (matches_plain C a d F b he).1 hb
        have hext := (compPat_ext C d _ _ _ _ _ h2).1
        intro x t hx l n hl
        rcases List.mem_append.1 hx with hx | hx
        · exact iha (F := F1) (b := b1) h1 (fun x l hx => hp x l (hext.keep hx))
            (by simpa only [Mode.skip, skipF_zero] using hb1) x t hx l n hl
        · exact ihd (F := F2) (b := b2) h2 hp
            (by simpa only [Mode.skip, skipF_zero] using hb2) x t hx l n hl
    · cases md with
      | head => exact absurd rfl hm
      | tail s k =>
        cases k with
        | zero => exact absurd rfl hm
        | succ k => rw [compPat_skip] at h; exact ihd h hp hb

/-! ## Fresh identifiers -/

theorem realLoop_pres {P : Ids → Prop} {B : Nat → Ids → Res × Ids}
    (hB : ∀ (i : Nat) (s : Ids), P s → P (B i s).2)
    {level : Nat} {splice : Bool} : ∀ (n i : Nat) (h : List Form) (s : Ids), P s →
    P (realLoop B level splice n i h s).2 := by
  intro n
  induction n with
  | zero => intro i h s hs; exact hs
  | succ n ih =>
    intro i h s hs
    have h1 := hB i s hs
    rw [realLoop]
    rcases hb : B i s with ⟨r, s1⟩
    rw [hb] at h1
    cases r with
    | more => exact h1
    | unbound e => exact h1
    | ok r => exact ih _ _ _ h1

theorem realize_pres {P : Ids → Prop} (hP : ∀ s x, P s → P (rename s x).2)
    (fuel : Nat) (m : MVec) (p : Pat) :
    ∀ (lev : Nat) (idx : Nat → Nat) (s : Ids), P s → P (realize fuel m p lev idx s).2 := by
  induction p with
  | pv l n => intro lev idx s h; exact h
  | under => intro lev idx s h; exact h
  | nil => intro lev idx s h; exact h
  | atom k => intro lev idx s h; exact h
  | ident x => intro lev idx s h; exact hP s x h
  | ell l nf vs p ih =>
    intro lev idx s h
    rw [realize]
    exact realLoop_pres (fun i s' => ih _ _ _) _ _ _ _ h
  | vec l ih =>
    intro lev idx s hs
    have h1 := ih lev idx s hs
    rw [realize]
    rcases h : realize fuel m l lev idx s with ⟨r, s1⟩
    rw [h] at h1
    cases r <;> exact h1
  | cons a d iha ihd =>
    intro lev idx s hs
    have h1 := iha lev idx s hs
    rw [realize]
    rcases h : realize fuel m a lev idx s with ⟨r, s1⟩
    rw [h] at h1
    cases r with
    | more => exact h1
    | unbound e => exact h1
    | ok r =>
      have h2 := ihd lev idx s1 h1
      dsimp only
      rcases h' : realize fuel m d lev idx s1 with ⟨r2, s2⟩
      rw [h'] at h2
      cases r2 <;> exact h2

/-- Only new identifiers are in the table, and none twice. -/
def Fresh (base : Nat) (s : Ids) : Prop :=
  s.base = base ∧
  (∀ x y, s.find x = some y → base ≤ y ∧ y < base + s.tab.length) ∧
  (∀ x x' y, s.find x = some y → s.find x' = some y → x = x')

theorem fresh_rename {base : Nat} (s : Ids) (x : Nat) (h : Fresh base s) :
    Fresh base (rename s x).2 := by
  obtain ⟨h1, h2, h3⟩ := h
  rw [rename]
  cases hf : s.find x with
  | some y => exact ⟨h1, h2, h3⟩
  | none =>
    have key : ∀ z w, (Ids.mk s.base ((x, s.base + s.tab.length) :: s.tab)).find z = some w →
        (x = z ∧ w = base + s.tab.length) ∨ (x ≠ z ∧ s.find z = some w) := by
      intro z w hz
      rw [find_cons] at hz
      by_cases hx : x = z
      · rw [if_pos hx] at hz
        injection hz with hz
        exact .inl ⟨hx, by omega⟩
      · rw [if_neg hx] at hz
        exact .inr ⟨hx, hz⟩
    refine ⟨h1, ?_, ?_⟩
    · intro z w hz
      show base ≤ w ∧ w < base + (s.tab.length + 1)
      rcases key z w hz with ⟨_, h⟩ | ⟨_, h⟩
      · omega
      · have := h2 z w h; omega
    · intro z z' w hz hz'
      rcases key z w hz with ⟨h, hw⟩ | ⟨_, h⟩ <;> rcases key z' w hz' with ⟨h', hw'⟩ | ⟨_, h'⟩
      · rw [← h, ← h']
      · have := h2 z' w h'; omega
      · have := h2 z w h; omega
      · exact h3 z z' w h h'

/-- The renaming a table stands for, extended to all identifiers. -/
def Ids.ren (s : Ids) (x : Nat) : Nat :=
  match s.find x with
  | some y => y
  | none => s.base + s.tab.length + x

theorem ren_agrees (s : Ids) : agrees s.ren s := by
  intro x y h
  rw [Ids.ren, h]

theorem ren_fresh {base : Nat} {s : Ids} (h : Fresh base s) (x : Nat) : base ≤ s.ren x := by
  rw [Ids.ren]
  cases hf : s.find x with
  | some y => exact (h.2.1 x y hf).1
  | none => have := h.1; show base ≤ s.base + s.tab.length + x; omega

theorem ren_inj {base : Nat} {s : Ids} (h : Fresh base s) {x x' : Nat}
    (he : s.ren x = s.ren x') : x = x' := by
  obtain ⟨h1, h2, h3⟩ := h
  rw [Ids.ren, Ids.ren] at he
  cases hf : s.find x with
  | some y =>
    rw [hf] at he
    cases hf' : s.find x' with
    | some y' =>
      rw [hf'] at he
      have he : y = y' := he
      subst he
      exact h3 x x' y hf hf'
    | none =>
      rw [hf'] at he
      have he : y = s.base + s.tab.length + x' := he
      have := (h2 x y hf).2; omega
  | none =>
    rw [hf] at he
    cases hf' : s.find x' with
    | some y' =>
      rw [hf'] at he
      have he : s.base + s.tab.length + x = y' := he
      have := (h2 x' y' hf').2; omega
    | none =>
      rw [hf'] at he
      have he : s.base + s.tab.length + x = s.base + s.tab.length + x' := he
      omega

/-! ## Instantiation under another renaming -/

theorem Repeat_map {I J : Env → Form → Prop} {xs : List Nat}
    (h : ∀ env r, I env r → ∃ r', J env r') :
    ∀ (n : Nat) (env : Env) (rs : List Form), Repeat I xs n env rs →
      ∃ rs', Repeat J xs n env rs' := by
  intro n
  induction n with
  | zero =>
    rintro env rs ⟨r, h1, _⟩
    obtain ⟨r', hr⟩ := h env r h1
    exact ⟨[r'], r', hr, rfl⟩
  | succ n ih =>
    rintro env rs ⟨k, h1, h2, rss, h3, h4, _⟩
    have : ∀ (l : List (List Form)) (j : Nat),
        (∀ i rs', l[i]? = some rs' → ∃ rs'', Repeat J xs n (env.round (j + i)) rs'') →
        ∃ l' : List (List Form), l'.length = l.length ∧
          ∀ i rs', l'[i]? = some rs' → Repeat J xs n (env.round (j + i)) rs' := by
      intro l
      induction l with
      | nil => intro j _; exact ⟨[], rfl, fun i rs' h => by simp at h⟩
      | cons a l ihl =>
        intro j hl
        obtain ⟨a', ha'⟩ := hl 0 a rfl
        obtain ⟨l', h1, h2⟩ := ihl (j + 1) (fun i rs' hi => by
          have := hl (i + 1) rs' hi
          rw [show j + (i + 1) = j + 1 + i by omega] at this
          exact this)
        refine ⟨a' :: l', by simp [h1], ?_⟩
        intro i rs' hi
        cases i with
        | zero => injection hi with hi; subst hi; exact ha'
        | succ i =>
          rw [show j + (i + 1) = j + 1 + i by omega]
          exact h2 i rs' hi
    obtain ⟨l', hl1, hl2⟩ := this rss 0 (fun i rs' hi => by
      rw [Nat.zero_add]; exact ih _ _ (h4 i rs' hi))
    refine ⟨l'.flatten, k, h1, h2, l', by omega, ?_, rfl⟩
    intro i rs' hi
    have := hl2 i rs' hi
    rw [Nat.zero_add] at this
    exact this

theorem Inst_rename {S : Syn} {ρ ρ' : Nat → Nat} (T : Form) :
    ∀ {on : Bool} {pos : Pos} {env : Env} {R : Form}, Inst S ρ on T pos env R →
      ∃ R', Inst S ρ' on T pos env R' := by
  induction T using Form.ind2 with
  | hnil => intro on pos env R h; exact ⟨.nil, by rw [Inst]⟩
  | hatom k => intro on pos env R h; exact ⟨.atom k, by rw [Inst]⟩
  | hsym x =>
    intro on pos env R h
    rw [Inst] at h
    obtain ⟨h1, h2⟩ := h
    cases he : env x with
    | none => exact ⟨.sym (ρ' x), by rw [Inst, he]; exact ⟨h1, rfl⟩⟩
    | some t =>
      cases t with
      | leaf f => exact ⟨f, by rw [Inst, he]; exact ⟨h1, rfl⟩⟩
      | node ts => rw [he] at h2; exact h2.elim
  | hvec l ih =>
    intro on pos env R h
    rw [Inst] at h
    obtain ⟨R', h1, _⟩ := h
    obtain ⟨R2, h2⟩ := ih h1
    exact ⟨.vec R2, by rw [Inst]; exact ⟨R2, h2, rfl⟩⟩
  | hcons a d iha ihd iht =>
    intro on pos env R h
    have plain : (∀ k, pos ≠ .rest (k + 1)) → ∃ R', Inst S ρ' on (.cons a d) pos env R' := by
      intro hp
      by_cases he : escape S on pos a d = true
      · cases d with
        | cons t u =>
          rw [Inst_escape he] at h
          obtain ⟨R', h'⟩ := iht t u rfl h
          exact ⟨R', (Inst_escape he).2 h'⟩
        | _ => cases pos <;> cases a <;> simp [escape] at he
      · have he : escape S on pos a d = false := by simpa using he
        rw [Inst_plain hp he] at h
        obtain ⟨rs, R2, h1, h2, _⟩ := h
        obtain ⟨rs', h1'⟩ := Repeat_map (J := Inst S ρ' on a .start)
          (fun env r h => iha h) _ _ _ h1
        obtain ⟨R2', h2'⟩ := ihd h2
        exact ⟨_, (Inst_plain hp he).2 ⟨rs', R2', h1', h2', rfl⟩⟩
    cases pos with
    | start => exact plain (fun k h => by cases h)
    | rest k =>
      cases k with
      | zero => exact plain (fun k h => by cases h)
      | succ k =>
        rw [Inst_skip] at h
        obtain ⟨R', h'⟩ := ihd h
        exact ⟨R', Inst_skip.2 h'⟩

theorem Repeat_unique {I : Env → Form → Prop} {xs : List Nat}
    (h : ∀ env r r', I env r → I env r' → r = r') :
    ∀ (n : Nat) (env : Env) (rs rs' : List Form), Repeat I xs n env rs →
      Repeat I xs n env rs' → rs = rs' := by
  intro n
  induction n with
  | zero =>
    rintro env rs rs' ⟨r, h1, rfl⟩ ⟨r', h1', rfl⟩
    rw [h env r r' h1 h1']
  | succ n ih =>
    rintro env rs rs' ⟨k, ⟨x, hx, ts, hts⟩, h2, rss, h3, h4, rfl⟩ ⟨k', _, h2', rss', h3', h4', rfl⟩
    have hk : k = k' := by rw [← h2 x hx ts hts, ← h2' x hx ts hts]
    congr 1
    refine List.ext_getElem (by omega) ?_
    intro i hi hi'
    exact ih _ _ _ (h4 i _ (List.getElem?_eq_getElem hi)) (h4' i _ (List.getElem?_eq_getElem hi'))

/-- The specification of templates determines the result. -/
theorem Inst_unique {S : Syn} {ρ : Nat → Nat} (T : Form) :
    ∀ {on : Bool} {pos : Pos} {env : Env} {R R' : Form}, Inst S ρ on T pos env R →
      Inst S ρ on T pos env R' → R = R' := by
  induction T using Form.ind2 with
  | hnil => intro on pos env R R' h h'; rw [Inst] at h h'; rw [h, h']
  | hatom k => intro on pos env R R' h h'; rw [Inst] at h h'; rw [h, h']
  | hsym x =>
    intro on pos env R R' h h'
    rw [Inst] at h h'
    cases he : env x with
    | none => rw [he] at h h'; rw [h.2, h'.2]
    | some t =>
      cases t with
      | leaf f => rw [he] at h h'; rw [h.2, h'.2]
      | node ts => rw [he] at h; exact h.2.elim
  | hvec l ih =>
    intro on pos env R R' h h'
    rw [Inst] at h h'
    obtain ⟨R1, h1, rfl⟩ := h
    obtain ⟨R2, h2, rfl⟩ := h'
    rw [ih h1 h2]
  | hcons a d iha ihd iht =>
    intro on pos env R R' h h'
    have plain : (∀ k, pos ≠ .rest (k + 1)) → R = R' := by
      intro hp
      by_cases he : escape S on pos a d = true
      · cases d with
        | cons t u =>
          rw [Inst_escape he] at h h'
          exact iht t u rfl h h'
        | _ => cases pos <;> cases a <;> simp [escape] at he
      · have he : escape S on pos a d = false := by simpa using he
        rw [Inst_plain hp he] at h h'
        obtain ⟨rs, R2, h1, h2, rfl⟩ := h
        obtain ⟨rs', R2', h1', h2', rfl⟩ := h'
        rw [Repeat_unique (I := Inst S ρ on a .start) (fun env r r' h h' => iha h h') _ _ _ _ h1 h1',
          ihd h2 h2']
    cases pos with
    | start => exact plain (fun k h => by cases h)
    | rest k =>
      cases k with
      | zero => exact plain (fun k h => by cases h)
      | succ k =>
        rw [Inst_skip] at h h'
        exact ihd h h'

/-! ## Termination -/

/-- Each repetition has a variable of its own level, and levels are as deep as
the nesting. -/
def OwnEll (lev : Nat) : Pat → Prop
  | .pv l _ => l ≤ lev
  | .ell l _ _ p => l = lev + 1 ∧ HasPv l p ∧ OwnEll (lev + 1) p
  | .cons a d => OwnEll lev a ∧ OwnEll lev d
  | .vec l => OwnEll lev l
  | _ => True

theorem nth_none_of_le : ∀ (i : Nat) (f : Form), fsize f ≤ i → nth i f = none := by
  intro i
  induction i with
  | zero =>
    intro f h
    cases f with
    | cons a d => rw [fsize] at h; omega
    | _ => rfl
  | succ i ih =>
    intro f h
    cases f with
    | cons a d => rw [fsize] at h; exact ih d (by omega)
    | _ => rfl

theorem getPv_unbound {idx : Nat → Nat} : ∀ (n i e : Nat) (f : Form),
    getPv idx i n f = .unbound e → i ≤ e ∧ e < i + n := by
  intro n
  induction n with
  | zero => intro i e f h; cases h
  | succ n ih =>
    intro i e f h
    rw [getPv] at h
    cases h1 : nth (idx i) f with
    | none => rw [h1] at h; injection h with h; omega
    | some f' => rw [h1] at h; have := ih _ _ _ h; omega

theorem getPv_ne_more {idx : Nat → Nat} : ∀ (n i : Nat) (f : Form),
    getPv idx i n f ≠ .more := by
  intro n
  induction n with
  | zero => intro i f h; cases h
  | succ n ih =>
    intro i f h
    rw [getPv] at h
    cases h1 : nth (idx i) f with
    | none => rw [h1] at h; cases h
    | some f' => rw [h1] at h; exact ih _ _ h

/-- A variable that is read with an index that is too large at level `e` is
exhausted at level `e` or before. -/
theorem getPv_large {idx : Nat → Nat} {e N : Nat} (hN : N ≤ idx e) :
    ∀ (n i : Nat) (f : Form), fsize f ≤ N → i ≤ e → e < i + n →
      ∃ e', getPv idx i n f = .unbound e' ∧ e' ≤ e := by
  intro n
  induction n with
  | zero => intro i f _ h1 h2; omega
  | succ n ih =>
    intro i f hf h1 h2
    rw [getPv]
    cases hn : nth (idx i) f with
    | none => exact ⟨i, rfl, h1⟩
    | some f' =>
      have hi : i ≠ e := by
        intro he
        subst he
        rw [nth_none_of_le _ _ (Nat.le_trans hf hN)] at hn
        cases hn
      exact ih (i + 1) f' (Nat.le_trans (nth_fsize _ _ _ hn) hf) (by omega) (by omega)

/-- When a loop index is past all sizes nothing of its level can be read. -/
theorem real_large {fuel : Nat} {m : MVec} {N e : Nat} (hN : ∀ n, fsize (m n).root ≤ N)
    (hf : 0 < fuel) (he1 : 1 ≤ e) (p : Pat)
    (hmore : ∀ (p' : Pat) (lev : Nat) (idx : Nat → Nat) (s : Ids), OwnEll lev p' →
      sizeOf p' < sizeOf p → (realize fuel m p' lev idx s).1 ≠ .more) :
    ∀ (lev : Nat) (idx : Nat → Nat) (s : Ids), e ≤ lev → N ≤ idx e → OwnEll lev p →
    (∀ e', (realize fuel m p lev idx s).1 = .unbound e' → e' ≤ e) ∧
    (HasPv e p → ∀ f, (realize fuel m p lev idx s).1 ≠ .ok f) := by
  induction p with
  | pv l n =>
    intro lev idx s he hidx ho
    have hr : (realize fuel m (.pv l n) lev idx s).1 = getPv idx 1 l (m n).root := by
      rw [realize]
    rw [hr]
    by_cases hl : e ≤ l
    · obtain ⟨e', h1, h2⟩ := getPv_large hidx l 1 (m n).root (hN n) he1 (by omega)
      rw [h1]
      exact ⟨(fun e2 h => by injection h with h; omega), (fun _ f h => by cases h)⟩
    · refine ⟨fun e' h => ?_, ?_⟩
      · have := getPv_unbound _ _ _ _ h; omega
      · rintro ⟨w, hw, h⟩
        have hw : (l, n) = w := hw
        subst hw
        exact absurd h hl
  | under =>
    intro lev idx s _ _ _
    exact ⟨(fun e' h => by rw [realize] at h; cases h), fun ⟨w, h, _⟩ => h.elim⟩
  | nil =>
    intro lev idx s _ _ _
    exact ⟨(fun e' h => by rw [realize] at h; cases h), fun ⟨w, h, _⟩ => h.elim⟩
  | atom k =>
    intro lev idx s _ _ _
    exact ⟨(fun e' h => by rw [realize] at h; cases h), fun ⟨w, h, _⟩ => h.elim⟩
  | ident x =>
    intro lev idx s _ _ _
    exact ⟨(fun e' h => by rw [realize] at h; cases h), fun ⟨w, h, _⟩ => h.elim⟩
  | vec l ih =>
    intro lev idx s he hidx ho
    have h := ih (fun p' lev idx s h1 h2 => hmore p' lev idx s h1 (by
      simp only [Pat.vec.sizeOf_spec]; omega)) lev idx s he hidx ho
    rw [realize]
    rcases h1 : realize fuel m l lev idx s with ⟨r, s1⟩
    rw [h1] at h
    cases r with
    | more => exact ⟨(fun _ h => by cases h), (fun _ _ h => by cases h)⟩
    | unbound e2 => exact ⟨fun e' h' => h.1 e' h', (fun _ _ h => by cases h)⟩
    | ok f => exact ⟨fun e' h' => (by cases h'), fun hp => absurd rfl (h.2 hp f)⟩
  | ell l nf vs p ih =>
    intro lev idx s he hidx ho
    obtain ⟨ho1, ho2, ho3⟩ := ho
    obtain ⟨f, rfl⟩ : ∃ f, fuel = f + 1 := ⟨fuel - 1, by omega⟩
    have h := ih (fun p' lev idx s h1 h2 => hmore p' lev idx s h1 (by
      simp only [Pat.ell.sizeOf_spec]; omega)) (lev + 1) (setIdx idx (lev + 1) 0) s (by omega)
      (by rw [setIdx, if_neg (by omega)]; exact hidx) ho3
    have hm := hmore p (lev + 1) (setIdx idx (lev + 1) 0) s ho3 (by
      simp only [Pat.ell.sizeOf_spec]; omega)
    have hpv : HasPv e p := by
      obtain ⟨w, h1, h2⟩ := ho2
      exact ⟨w, h1, by omega⟩
    rw [realize, realLoop]
    rcases h1 : realize (f + 1) m p (lev + 1) (setIdx idx (lev + 1) 0) s with ⟨r, s1⟩
    rw [h1] at h hm
    cases r with
    | more => exact absurd rfl hm
    | ok g => exact absurd rfl (h.2 hpv g)
    | unbound e2 =>
      have := h.1 e2 rfl
      dsimp only
      rw [if_pos (by omega)]
      exact ⟨(fun e' h => by injection h with h; omega), (fun _ g h => by cases h)⟩
  | cons a d iha ihd =>
    intro lev idx s he hidx ho
    have h := iha (fun p' lev idx s h1 h2 => hmore p' lev idx s h1 (by
      simp only [Pat.cons.sizeOf_spec]; omega)) lev idx s he hidx ho.1
    rw [realize]
    rcases h1 : realize fuel m a lev idx s with ⟨r, s1⟩
    rw [h1] at h
    cases r with
    | more => exact ⟨(fun _ h => by cases h), (fun _ _ h => by cases h)⟩
    | unbound e2 => exact ⟨fun e' h' => h.1 e' h', (fun _ _ h => by cases h)⟩
    | ok f =>
      have h' := ihd (fun p' lev idx s h1 h2 => hmore p' lev idx s h1 (by
        simp only [Pat.cons.sizeOf_spec]; omega)) lev idx s1 he hidx ho.2
      dsimp only
      rcases h2 : realize fuel m d lev idx s1 with ⟨r2, s2⟩
      rw [h2] at h'
      cases r2 with
      | more => exact ⟨(fun _ h => by cases h), (fun _ _ h => by cases h)⟩
      | unbound e2 => exact ⟨fun e' hh => h'.1 e' hh, (fun _ _ h => by cases h)⟩
      | ok f2 =>
        refine ⟨(fun _ h => by cases h), ?_⟩
        rintro ⟨w, hw1, hw2⟩
        rcases hw1 with hw1 | hw1
        · exact absurd rfl (h.2 ⟨w, hw1, hw2⟩ f)
        · exact absurd rfl (h'.2 ⟨w, hw1, hw2⟩ f2)

theorem realLoop_stops {B : Nat → Ids → Res × Ids} {level N : Nat} {splice : Bool}
    (h1 : ∀ i s, (B i s).1 ≠ .more) (h2 : ∀ i s, N ≤ i → ∀ f, (B i s).1 ≠ .ok f) :
    ∀ (n i : Nat) (h : List Form) (s : Ids), i ≤ N → N < i + n →
      (realLoop B level splice n i h s).1 ≠ .more := by
  intro n
  induction n with
  | zero => intro i h s h1 hi; omega
  | succ n ih =>
    intro i h s hle hi
    rw [realLoop]
    have hm := h1 i s
    have hk := h2 i s
    rcases hb : B i s with ⟨r, s1⟩
    rw [hb] at hm hk
    cases r with
    | more => exact absurd rfl hm
    | unbound e =>
      dsimp only
      by_cases he : e < level
      · rw [if_pos he]; intro h; cases h
      · rw [if_neg he]; intro h; cases h
    | ok r =>
      dsimp only
      have : i < N := by
        by_cases h : N ≤ i
        · exact absurd rfl (hk h r)
        · omega
      exact ih (i + 1) _ s1 (by omega) (by omega)

theorem real_ne_more {fuel : Nat} {m : MVec} {N : Nat} (hN : ∀ n, fsize (m n).root ≤ N)
    (hf : N < fuel) : ∀ (k : Nat) (p : Pat), sizeOf p < k → ∀ (lev : Nat)
    (idx : Nat → Nat) (s : Ids), OwnEll lev p → (realize fuel m p lev idx s).1 ≠ .more := by
  intro k
  induction k with
  | zero => intro p h; omega
  | succ k ih =>
    intro p hk lev idx s ho
    cases p with
    | pv l n => rw [realize]; exact getPv_ne_more _ _ _
    | under => rw [realize]; intro h; cases h
    | nil => rw [realize]; intro h; cases h
    | atom k => rw [realize]; intro h; cases h
    | ident x => rw [realize]; intro h; cases h
    | vec l =>
      simp only [Pat.vec.sizeOf_spec] at hk
      have h := ih l (by omega) lev idx s ho
      rw [realize]
      rcases h1 : realize fuel m l lev idx s with ⟨r, s1⟩
      rw [h1] at h
      cases r with
      | more => exact absurd rfl h
      | unbound e => exact fun h => by cases h
      | ok f => exact fun h => by cases h
    | cons a d =>
      simp only [Pat.cons.sizeOf_spec] at hk
      have h := ih a (by omega) lev idx s ho.1
      rw [realize]
      rcases h1 : realize fuel m a lev idx s with ⟨r, s1⟩
      rw [h1] at h
      cases r with
      | more => exact absurd rfl h
      | unbound e => exact fun h => by cases h
      | ok f =>
        dsimp only
        have h := ih d (by omega) lev idx s1 ho.2
        rcases h2 : realize fuel m d lev idx s1 with ⟨r2, s2⟩
        rw [h2] at h
        cases r2 with
        | more => exact absurd rfl h
        | unbound e => exact fun h => by cases h
        | ok f => exact fun h => by cases h
    | ell l nf vs p =>
      simp only [Pat.ell.sizeOf_spec] at hk
      obtain ⟨ho1, ho2, ho3⟩ := ho
      rw [realize]
      refine realLoop_stops (N := N) (fun i s => ih p (by omega) _ _ _ ho3) ?_ fuel 0 [] s
        (by omega) (by omega)
      intro i s hi
      refine (real_large hN (by omega) (by omega : 1 ≤ lev + 1) p
        (fun p' lev idx s h1 h2 => ih p' (by omega) lev idx s h1) (lev + 1) _ s
        (Nat.le_refl _) ?_ ho3).2 ?_
      · rw [setIdx, if_pos rfl]; exact hi
      · rw [← ho1]; exact ho2

theorem realLoop_unbound {B : Nat → Ids → Res × Ids} {level : Nat} {splice : Bool}
    (h1 : ∀ i s e, (B i s).1 = .unbound e → 1 ≤ e) :
    ∀ (n i : Nat) (h : List Form) (s : Ids) (e : Nat),
      (realLoop B level splice n i h s).1 = .unbound e → 1 ≤ e ∧ e < level := by
  intro n
  induction n with
  | zero => intro i h s e he; cases he
  | succ n ih =>
    intro i h s e he
    rw [realLoop] at he
    have hm := h1 i s
    rcases hb : B i s with ⟨r, s1⟩
    rw [hb] at hm he
    cases r with
    | more => cases he
    | unbound e' =>
      dsimp only at he
      by_cases hl : e' < level
      · rw [if_pos hl] at he
        injection he with he
        subst he
        exact ⟨hm _ rfl, hl⟩
      · rw [if_neg hl] at he; cases he
    | ok r => exact ih _ _ _ _ he

/-- What is exhausted belongs to a loop around. -/
theorem real_unbound {fuel : Nat} {m : MVec} (p : Pat) :
    ∀ (lev : Nat) (idx : Nat → Nat) (s : Ids) (e : Nat), OwnEll lev p →
      (realize fuel m p lev idx s).1 = .unbound e → 1 ≤ e ∧ e ≤ lev := by
  induction p with
  | pv l n =>
    intro lev idx s e ho h
    rw [realize] at h
    have := getPv_unbound _ _ _ _ h
    have ho : l ≤ lev := ho
    omega
  | under => intro lev idx s e _ h; rw [realize] at h; cases h
  | nil => intro lev idx s e _ h; rw [realize] at h; cases h
  | atom k => intro lev idx s e _ h; rw [realize] at h; cases h
  | ident x => intro lev idx s e _ h; rw [realize] at h; cases h
  | vec l ih =>
    intro lev idx s e ho h
    have h' := ih lev idx s e ho
    rw [realize] at h
    rcases h1 : realize fuel m l lev idx s with ⟨r, s1⟩
    rw [h1] at h h'
    cases r with
    | more => cases h
    | unbound e' => exact h' h
    | ok f => cases h
  | ell l nf vs p ih =>
    intro lev idx s e ho h
    obtain ⟨ho1, _, ho3⟩ := ho
    rw [realize] at h
    have := realLoop_unbound (fun i s e h => (ih _ _ _ _ ho3 h).1) _ _ _ _ _ h
    omega
  | cons a d iha ihd =>
    intro lev idx s e ho h
    have h' := iha lev idx s e ho.1
    rw [realize] at h
    rcases h1 : realize fuel m a lev idx s with ⟨r, s1⟩
    rw [h1] at h h'
    cases r with
    | more => cases h
    | unbound e' => exact h' h
    | ok f =>
      dsimp only at h
      have h' := ihd lev idx s1 e ho.2
      rcases h2 : realize fuel m d lev idx s1 with ⟨r2, s2⟩
      rw [h2] at h h'
      cases r2 with
      | more => cases h
      | unbound e' => exact h' h
      | ok f => cases h

/-! ## Templates without consecutive ellipses -/

theorem SingleElls_plain {S : Syn} {on : Bool} {a d : Form} {p : Pos}
    (h : escape S on p a d = false) : SingleElls S on (.cons a d) p ↔
      ells S on d ≤ 1 ∧ SingleElls S on a .start ∧ SingleElls S on d (.rest 0) := by
  cases d <;> simp only [SingleElls, h, Bool.false_eq_true, if_false]

theorem SingleElls_escape {S : Syn} {on : Bool} {a t u : Form} {p : Pos}
    (h : escape S on p a (.cons t u) = true) :
    SingleElls S on (.cons a (.cons t u)) p ↔ SingleElls S false t .start := by
  simp only [SingleElls, h, if_true]

theorem SingleElls_rest {S : Syn} {on : Bool} (f : Form) (j k : Nat) :
    SingleElls S on f (.rest j) ↔ SingleElls S on f (.rest k) := by
  cases f with
  | cons a d =>
    rw [SingleElls_plain (escape_rest _ _ _ _ _), SingleElls_plain (escape_rest _ _ _ _ _)]
  | _ => simp only [SingleElls]

theorem compTmpl_ownEll {C : Cfg} {pv : List (Nat × PVRef)} (T : Form) :
    ∀ {on : Bool} {lev : Nat} {m : Mode} {ml : Nat} {vs : List PVRef}
    {r : Pat × Nat × List PVRef}, compTmpl C pv on lev T m ml vs = some r →
    SingleElls C.syn on T m.pos → OwnEll lev r.1 := by
  induction T using Form.ind2 with
  | hnil => intro on lev m ml vs r h _; rw [compTmpl_nil] at h; injection h with h; subst h; trivial
  | hatom k => intro on lev m ml vs r h _; rw [compTmpl_atom] at h; injection h with h; subst h; trivial
  | hsym x =>
    intro on lev m ml vs r h _
    rcases (compTmpl_sym_some h).2 with ⟨_, rfl⟩ | ⟨_, _, rfl⟩ | ⟨_, l, n, _, hl, rfl⟩
    · trivial
    · trivial
    · exact hl
  | hvec l ih =>
    intro on lev m ml vs r h hs
    obtain ⟨p, h1, _, h2⟩ := compTmpl_vec_some h
    rw [h2]
    rw [SingleElls] at hs
    exact ih h1 hs
  | hcons a d iha ihd iht =>
    intro on lev m ml vs r h hs
    by_cases hm : m.skip = 0
    · rcases compTmpl_cons_some hm h with
        ⟨t, u, h1, h2, h3⟩ | ⟨p, ml1, v1, q, h1, h2, h3, h4, h5⟩ |
        ⟨n, p, ml1, v1, q, h1, h2, h3, h4, h5, h6⟩
      · subst h2
        rw [SingleElls_escape h1] at hs
        exact iht t u rfl h3 hs
      · rw [SingleElls_plain h1] at hs
        rw [h5]; exact ⟨iha h3 hs.2.1, ihd h4 hs.2.2⟩
      · rw [SingleElls_plain h1, h2] at hs
        have hn : n = 0 := by omega
        subst hn
        rw [h6]
        refine ⟨⟨rfl, ?_, iha h3 hs.2.1⟩, ihd h5 ((SingleElls_rest d 0 _).1 hs.2.2)⟩
        obtain ⟨w, hw1, hw2⟩ := h4
        rcases (compTmpl_vars a h3 w).1 hw1 with h | h
        · cases h
        · exact ⟨w, h, by omega⟩
    · cases m with
      | head => exact absurd rfl hm
      | tail s k =>
        cases k with
        | zero => exact absurd rfl hm
        | succ k =>
          rw [compTmpl_skip] at h
          rw [Mode.pos, SingleElls_plain (escape_rest _ _ _ _ _)] at hs
          exact ihd h ((SingleElls_rest d 0 _).1 hs.2.2)

end Gauche.SynRules

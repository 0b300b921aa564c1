import Verif.Proof.SynEff

/-! # Realizing a compiled template gives what the specification says -/
namespace Gauche.SynRules
open Form

/-- Induction that also reaches the element after the first. -/
theorem Form.ind2 {P : Form → Prop} (hnil : P .nil) (hatom : ∀ k, P (.atom k))
    (hsym : ∀ x, P (.sym x)) (hvec : ∀ l, P l → P (.vec l))
    (hcons : ∀ a d, P a → P d → (∀ t u, d = .cons t u → P t) → P (.cons a d)) :
    ∀ f, P f := by
  have key : ∀ f, P f ∧ ∀ t u, f = .cons t u → P t := by
    intro f
    induction f with
    | nil => exact ⟨hnil, fun _ _ h => by cases h⟩
    | atom k => exact ⟨hatom k, fun _ _ h => by cases h⟩
    | sym x => exact ⟨hsym x, fun _ _ h => by cases h⟩
    | vec l ih => exact ⟨hvec l ih.1, fun _ _ h => by cases h⟩
    | cons a d iha ihd =>
      refine ⟨hcons a d iha.1 ihd.1 ihd.2, ?_⟩
      intro t u h
      injection h with h _
      subst h
      exact iha.1
  exact fun f => (key f).1

/-! ## The compiler's cases -/

def Mode.pos : Mode → Pos
  | .head => .start
  | .tail _ k => .rest k

theorem countElls_eq (C : Cfg) (on : Bool) (d : Form) :
    countElls C on d = ells C.syn on d := by
  induction d with
  | cons a d _ ih =>
    cases a with
    | sym e =>
      rw [countElls, ells, ih]
      rfl
    | _ => rfl
  | _ => rfl

theorem escape_eq (C : Cfg) (on : Bool) (m : Mode) (a d : Form) :
    escape C.syn on m.pos a d = true ↔ m = .head ∧ (on && ellHead C a d) = true := by
  cases m with
  | head =>
    cases a <;> cases d <;> simp [escape, Mode.pos, ellHead, Cfg.syn]
  | tail s k =>
    simp [escape, Mode.pos]

theorem escape_rest (S : Syn) (on : Bool) (k : Nat) (a d : Form) :
    escape S on (.rest k) a d = false := by
  cases a <;> cases d <;> rfl

theorem compTmpl_skip (C : Cfg) (pv : List (Nat × PVRef)) (on : Bool) (lev : Nat)
    (a d : Form) (s : Bool) (k ml : Nat) (vs : List PVRef) :
    compTmpl C pv on lev (.cons a d) (.tail s (k + 1)) ml vs =
      compTmpl C pv on lev d (.tail s k) ml vs := by
  rw [compTmpl]

theorem compTmpl_cons (C : Cfg) (pv : List (Nat × PVRef)) (on : Bool) (lev : Nat)
    (a d : Form) (m : Mode) (ml : Nat) (vs : List PVRef) (hm : m.skip = 0) :
    compTmpl C pv on lev (.cons a d) m ml vs =
      if m = .head ∧ (on && ellHead C a d) = true then
        match d with
        | .cons t _ => compTmpl C pv false lev t .head ml vs
        | _ => none
      else
        match countElls C on d with
        | 0 =>
          match compTmpl C pv on lev a .head ml vs with
          | none => none
          | some (p, ml1, v1) =>
            match compTmpl C pv on lev d (.tail false 0) ml1 v1 with
            | none => none
            | some (q, ml2, v2) => some (.cons p q, ml2, v2)
        | n + 1 =>
          match compTmpl C pv on (lev + (n + 1)) a .head
              (bumpLev ml (lev + (n + 1))) [] with
          | none => none
          | some (p, ml1, v1) =>
            if v1.any (fun r => lev + 1 ≤ r.1) then
              match compTmpl C pv on lev d (.tail false (n + 1)) ml1
                  (vs ++ v1) with
              | none => none
              | some (q, ml2, v2) =>
                some (.cons (nestEll v1 p lev (n + 1)) q, ml2, v2)
            else none := by
  cases m with
  | head => cases d <;> (simp only [compTmpl] <;> rfl)
  | tail s k =>
    cases k with
    | zero => cases d <;> (simp only [compTmpl] <;> rfl)
    | succ k => cases hm

theorem compTmpl_cons_some {C : Cfg} {pv : List (Nat × PVRef)} {on : Bool} {lev : Nat}
    {a d : Form} {m : Mode} {ml : Nat} {vs : List PVRef} {r : Pat × Nat × List PVRef}
    (hm : m.skip = 0) (h : compTmpl C pv on lev (.cons a d) m ml vs = some r) :
    (∃ t u, escape C.syn on m.pos a d = true ∧ d = .cons t u ∧
      compTmpl C pv false lev t .head ml vs = some r) ∨
    (∃ p ml1 v1 q, escape C.syn on m.pos a d = false ∧ ells C.syn on d = 0 ∧
      compTmpl C pv on lev a .head ml vs = some (p, ml1, v1) ∧
      compTmpl C pv on lev d (.tail false 0) ml1 v1 = some (q, r.2) ∧
      r.1 = .cons p q) ∨
    (∃ n p ml1 v1 q, escape C.syn on m.pos a d = false ∧ ells C.syn on d = n + 1 ∧
      compTmpl C pv on (lev + (n + 1)) a .head (bumpLev ml (lev + (n + 1))) [] =
        some (p, ml1, v1) ∧
      (∃ w ∈ v1, lev + 1 ≤ w.1) ∧
      compTmpl C pv on lev d (.tail false (n + 1)) ml1 (vs ++ v1) = some (q, r.2) ∧
      r.1 = .cons (nestEll v1 p lev (n + 1)) q) := by
  rw [compTmpl_cons C pv on lev a d m ml vs hm] at h
  by_cases h1 : escape C.syn on m.pos a d = true
  · rw [if_pos ((escape_eq C on m a d).1 h1)] at h
    cases d with
    | cons t u => exact .inl ⟨t, u, h1, rfl, h⟩
    | _ => cases h
  · rw [if_neg (fun h => h1 ((escape_eq C on m a d).2 h))] at h
    have h1 : escape C.syn on m.pos a d = false := by simpa using h1
    rw [countElls_eq] at h
    cases h2 : ells C.syn on d with
    | zero =>
      rw [h2] at h
      dsimp only at h
      cases h3 : compTmpl C pv on lev a .head ml vs with
      | none => rw [h3] at h; cases h
      | some r1 =>
        obtain ⟨p, ml1, v1⟩ := r1
        rw [h3] at h
        dsimp only at h
        cases h4 : compTmpl C pv on lev d (.tail false 0) ml1 v1 with
        | none => rw [h4] at h; cases h
        | some r2 =>
          obtain ⟨q, ml2, v2⟩ := r2
          rw [h4] at h
          injection h with h
          subst h
          exact .inr (.inl ⟨p, ml1, v1, q, h1, rfl, rfl, h4, rfl⟩)
    | succ n =>
      rw [h2] at h
      dsimp only at h
      cases h3 : compTmpl C pv on (lev + (n + 1)) a .head
          (bumpLev ml (lev + (n + 1))) [] with
      | none => rw [h3] at h; cases h
      | some r1 =>
        obtain ⟨p, ml1, v1⟩ := r1
        rw [h3] at h
        dsimp only at h
        by_cases h5 : v1.any (fun r => lev + 1 ≤ r.1) = true
        · rw [if_pos h5] at h
          cases h4 : compTmpl C pv on lev d (.tail false (n + 1)) ml1 (vs ++ v1) with
          | none => rw [h4] at h; cases h
          | some r2 =>
            obtain ⟨q, ml2, v2⟩ := r2
            rw [h4] at h
            injection h with h
            subst h
            obtain ⟨w, hw1, hw2⟩ := List.any_eq_true.1 h5
            exact .inr (.inr ⟨n, p, ml1, v1, q, h1, rfl, h3,
              ⟨w, hw1, by simpa using hw2⟩, h4, rfl⟩)
        · rw [if_neg h5] at h; cases h

theorem compTmpl_vec_some {C : Cfg} {pv : List (Nat × PVRef)} {on : Bool} {lev : Nat}
    {l : Form} {m : Mode} {ml : Nat} {vs : List PVRef} {r : Pat × Nat × List PVRef}
    (h : compTmpl C pv on lev (.vec l) m ml vs = some r) :
    ∃ p, compTmpl C pv on lev l .head ml vs = some (p, r.2) ∧ p.isList = true ∧
      r.1 = .vec p := by
  rw [compTmpl] at h
  cases h4 : compTmpl C pv on lev l .head ml vs with
  | none => rw [h4] at h; cases h
  | some r1 =>
    obtain ⟨p, c1, v1⟩ := r1
    rw [h4] at h
    dsimp only at h
    by_cases h5 : p.isList = true
    · rw [if_pos h5] at h
      injection h with h
      subst h
      exact ⟨p, rfl, h5, rfl⟩
    · rw [if_neg h5] at h; cases h

theorem compTmpl_sym_some {C : Cfg} {pv : List (Nat × PVRef)} {on : Bool} {lev : Nat}
    {x : Nat} {m : Mode} {ml : Nat} {vs : List PVRef} {r : Pat × Nat × List PVRef}
    (h : compTmpl C pv on lev (.sym x) m ml vs = some r) :
    (on && C.ell x) = false ∧
    ((C.lits.contains x = true ∧ r = (.ident x, ml, vs)) ∨
     (C.lits.contains x = false ∧ lookupPv x pv = none ∧ r = (.ident x, ml, vs)) ∨
     (C.lits.contains x = false ∧ ∃ l n, lookupPv x pv = some (l, n) ∧ l ≤ lev ∧
      r = (.pv l n, ml, (l, n) :: vs))) := by
  rw [compTmpl] at h
  by_cases h1 : (on && C.ell x) = true
  · rw [if_pos h1] at h; cases h
  rw [if_neg h1] at h
  refine ⟨by simpa using h1, ?_⟩
  by_cases h2 : C.lits.contains x = true
  · rw [if_pos h2] at h
    injection h with h
    exact .inl ⟨h2, h.symm⟩
  rw [if_neg h2] at h
  have h2 : C.lits.contains x = false := by simpa using h2
  cases h3 : lookupPv x pv with
  | none =>
    rw [h3] at h
    injection h with h
    exact .inr (.inl ⟨h2, rfl, h.symm⟩)
  | some w =>
    obtain ⟨l, n⟩ := w
    rw [h3] at h
    dsimp only at h
    by_cases h4 : l > lev
    · rw [if_pos h4] at h; cases h
    · rw [if_neg h4] at h
      injection h with h
      exact .inr (.inr ⟨h2, l, n, rfl, by omega, h.symm⟩)

theorem compTmpl_nil {C : Cfg} {pv : List (Nat × PVRef)} {on : Bool} {lev : Nat}
    {m : Mode} {ml : Nat} {vs : List PVRef} :
    compTmpl C pv on lev .nil m ml vs = some (.nil, ml, vs) := by
  rw [compTmpl]

theorem compTmpl_atom {C : Cfg} {pv : List (Nat × PVRef)} {on : Bool} {lev k : Nat}
    {m : Mode} {ml : Nat} {vs : List PVRef} :
    compTmpl C pv on lev (.atom k) m ml vs = some (.atom k, ml, vs) := by
  rw [compTmpl]

/-! ## Variables in compiled templates -/

/-- The reference occurs. -/
def pvIn (w : PVRef) : Pat → Prop
  | .pv l n => (l, n) = w
  | .ell _ _ _ p => pvIn w p
  | .cons a d => pvIn w a ∨ pvIn w d
  | .vec l => pvIn w l
  | _ => False

/-- A variable of level `e` at least occurs. -/
def HasPv (e : Nat) (p : Pat) : Prop := ∃ w, pvIn w p ∧ e ≤ w.1

theorem pvIn_nest (w : PVRef) (p : Pat) : ∀ (n lev : Nat) (vs : List PVRef),
    pvIn w (nestEll vs p lev n) ↔ pvIn w p := by
  intro n
  induction n with
  | zero => intro lev vs; rfl
  | succ n ih => intro lev vs; rw [nestEll, pvIn]; exact ih _ _

theorem isEll_nest (p : Pat) (n lev : Nat) (vs : List PVRef) :
    (nestEll vs p lev (n + 1)).isEll = true := rfl

theorem compTmpl_notEll {C : Cfg} {pv : List (Nat × PVRef)} (T : Form) :
    ∀ {on : Bool} {lev : Nat} {m : Mode} {ml : Nat} {vs : List PVRef}
    {r : Pat × Nat × List PVRef}, compTmpl C pv on lev T m ml vs = some r →
    r.1.isEll = false := by
  induction T using Form.ind2 with
  | hnil => intro on lev m ml vs r h; rw [compTmpl_nil] at h; injection h with h; subst h; rfl
  | hatom k => intro on lev m ml vs r h; rw [compTmpl_atom] at h; injection h with h; subst h; rfl
  | hsym x =>
    intro on lev m ml vs r h
    rcases (compTmpl_sym_some h).2 with ⟨_, rfl⟩ | ⟨_, _, rfl⟩ | ⟨_, l, n, _, _, rfl⟩ <;> rfl
  | hvec l _ =>
    intro on lev m ml vs r h
    obtain ⟨p, _, _, h2⟩ := compTmpl_vec_some h
    rw [h2]; rfl
  | hcons a d iha ihd iht =>
    intro on lev m ml vs r h
    by_cases hm : m.skip = 0
    · rcases compTmpl_cons_some hm h with
        ⟨t, u, h1, h2, h3⟩ | ⟨p, ml1, v1, q, h1, h2, h3, h4, h5⟩ |
        ⟨n, p, ml1, v1, q, h1, h2, h3, h4, h5, h6⟩
      · exact iht t u h2 h3
      · rw [h5]; rfl
      · rw [h6]; rfl
    · cases m with
      | head => exact absurd rfl hm
      | tail s k =>
        cases k with
        | zero => exact absurd rfl hm
        | succ k => rw [compTmpl_skip] at h; exact ihd h

/-- The list of variables the compiler keeps. -/
theorem compTmpl_vars {C : Cfg} {pv : List (Nat × PVRef)} (T : Form) :
    ∀ {on : Bool} {lev : Nat} {m : Mode} {ml : Nat} {vs : List PVRef}
    {r : Pat × Nat × List PVRef}, compTmpl C pv on lev T m ml vs = some r →
    ∀ w, w ∈ r.2.2 ↔ w ∈ vs ∨ pvIn w r.1 := by
  induction T using Form.ind2 with
  | hnil =>
    intro on lev m ml vs r h w; rw [compTmpl_nil] at h; injection h with h; subst h
    simp [pvIn]
  | hatom k =>
    intro on lev m ml vs r h w; rw [compTmpl_atom] at h; injection h with h; subst h
    simp [pvIn]
  | hsym x =>
    intro on lev m ml vs r h w
    rcases (compTmpl_sym_some h).2 with ⟨_, rfl⟩ | ⟨_, _, rfl⟩ | ⟨_, l, n, _, _, rfl⟩
    · simp [pvIn]
    · simp [pvIn]
    · simp only [pvIn, List.mem_cons]
      constructor
      · rintro (h | h)
        · exact .inr h.symm
        · exact .inl h
      · rintro (h | h)
        · exact .inr h
        · exact .inl h.symm
  | hvec l ih =>
    intro on lev m ml vs r h w
    obtain ⟨p, h1, _, h2⟩ := compTmpl_vec_some h
    rw [h2]
    exact ih h1 w
  | hcons a d iha ihd iht =>
    intro on lev m ml vs r h w
    by_cases hm : m.skip = 0
    · rcases compTmpl_cons_some hm h with
        ⟨t, u, h1, h2, h3⟩ | ⟨p, ml1, v1, q, h1, h2, h3, h4, h5⟩ |
        ⟨n, p, ml1, v1, q, h1, h2, h3, h4, h5, h6⟩
      · exact iht t u h2 h3 w
      · have A := iha h3 w
        have B := ihd h4 w
        dsimp only at A B
        rw [h5, B, A, pvIn, or_assoc]
      · have A := iha h3 w
        have B := ihd h5 w
        dsimp only at A B
        rw [h6, B, List.mem_append, A, pvIn, pvIn_nest]
        constructor
        · rintro ((h | h | h) | h)
          · exact .inl h
          · cases h
          · exact .inr (.inl h)
          · exact .inr (.inr h)
        · rintro (h | h | h)
          · exact .inl (.inl h)
          · exact .inl (.inr (.inr h))
          · exact .inr h
    · cases m with
      | head => exact absurd rfl hm
      | tail s k =>
        cases k with
        | zero => exact absurd rfl hm
        | succ k => rw [compTmpl_skip] at h; exact ihd h w

theorem tmplIds_plain {S : Syn} {on : Bool} {a d : Form} {p : Pos}
    (h : escape S on p a d = false) :
    tmplIds S on (.cons a d) p = tmplIds S on a .start ++ tmplIds S on d (.rest 0) := by
  cases d <;> simp only [tmplIds, h, Bool.false_eq_true, if_false]

theorem tmplIds_escape {S : Syn} {on : Bool} {a t u : Form} {p : Pos}
    (h : escape S on p a (.cons t u) = true) :
    tmplIds S on (.cons a (.cons t u)) p = tmplIds S false t .start := by
  simp only [tmplIds, h, if_true]

theorem tmplIds_rest {S : Syn} {on : Bool} (f : Form) (j k : Nat) :
    tmplIds S on f (.rest j) = tmplIds S on f (.rest k) := by
  cases f with
  | cons a d => rw [tmplIds_plain (escape_rest _ _ _ _ _), tmplIds_plain (escape_rest _ _ _ _ _)]
  | _ => simp only [tmplIds]

/-- References come from identifiers of the template. -/
theorem pvIn_ids {C : Cfg} {pv : List (Nat × PVRef)} (T : Form) :
    ∀ {on : Bool} {lev : Nat} {m : Mode} {ml : Nat} {vs : List PVRef}
    {r : Pat × Nat × List PVRef} {w : PVRef},
    compTmpl C pv on lev T m ml vs = some r → pvIn w r.1 →
    ∃ x ∈ tmplIds C.syn on T m.pos, lookupPv x pv = some w := by
  induction T using Form.ind2 with
  | hnil =>
    intro on lev m ml vs r w h hw; rw [compTmpl_nil] at h; injection h with h; subst h
    exact hw.elim
  | hatom k =>
    intro on lev m ml vs r w h hw; rw [compTmpl_atom] at h; injection h with h; subst h
    exact hw.elim
  | hsym x =>
    intro on lev m ml vs r w h hw
    rcases (compTmpl_sym_some h).2 with ⟨_, rfl⟩ | ⟨_, _, rfl⟩ | ⟨_, l, n, h1, h2, rfl⟩
    · exact hw.elim
    · exact hw.elim
    · have hw : (l, n) = w := hw
      subst hw
      exact ⟨x, by rw [tmplIds]; exact List.mem_singleton.2 rfl, h1⟩
  | hvec l ih =>
    intro on lev m ml vs r w h hw
    obtain ⟨p, h1, _, h2⟩ := compTmpl_vec_some h
    rw [h2] at hw
    obtain ⟨x, hx, hl⟩ := ih h1 hw
    exact ⟨x, by rw [tmplIds]; exact hx, hl⟩
  | hcons a d iha ihd iht =>
    intro on lev m ml vs r w h hw
    by_cases hm : m.skip = 0
    · rcases compTmpl_cons_some hm h with
        ⟨t, u, h1, h2, h3⟩ | ⟨p, ml1, v1, q, h1, h2, h3, h4, h5⟩ |
        ⟨n, p, ml1, v1, q, h1, h2, h3, h4, h5, h6⟩
      · obtain ⟨x, hx, hl⟩ := iht t u h2 h3 hw
        refine ⟨x, ?_, hl⟩
        subst h2
        rw [tmplIds_escape h1]
        exact hx
      · rw [h5] at hw
        have hids : tmplIds C.syn on (.cons a d) m.pos =
            tmplIds C.syn on a .start ++ tmplIds C.syn on d (.rest 0) := by
          rw [tmplIds_plain h1]
        rw [hids]
        rcases hw with hw | hw
        · obtain ⟨x, hx, hl⟩ := iha h3 hw
          exact ⟨x, List.mem_append_left _ hx, hl⟩
        · obtain ⟨x, hx, hl⟩ := ihd h4 hw
          exact ⟨x, List.mem_append_right _ hx, hl⟩
      · rw [h6] at hw
        have hids : tmplIds C.syn on (.cons a d) m.pos =
            tmplIds C.syn on a .start ++ tmplIds C.syn on d (.rest 0) := by
          rw [tmplIds_plain h1]
        rw [hids]
        rcases hw with hw | hw
        · obtain ⟨x, hx, hl⟩ := iha h3 ((pvIn_nest w p _ _ _).1 hw)
          exact ⟨x, List.mem_append_left _ hx, hl⟩
        · obtain ⟨x, hx, hl⟩ := ihd h5 hw
          refine ⟨x, List.mem_append_right _ ?_, hl⟩
          rw [tmplIds_rest d 0 (n + 1)]
          exact hx
    · cases m with
      | head => exact absurd rfl hm
      | tail s k =>
        cases k with
        | zero => exact absurd rfl hm
        | succ k =>
          rw [compTmpl_skip] at h
          obtain ⟨x, hx, hl⟩ := ihd h hw
          refine ⟨x, ?_, hl⟩
          rw [Mode.pos, tmplIds_plain (escape_rest _ _ _ _ _)]
          refine List.mem_append_right _ ?_
          rw [tmplIds_rest d 0 k]
          exact hx

/-- Identifiers after the ellipses. -/
theorem tmplIds_skip {S : Syn} {on : Bool} (n : Nat) : ∀ (d : Form) (x : Nat),
    n ≤ ells S on d → x ∈ tmplIds S on d (.rest 0) →
    S.ell x = true ∨ x ∈ tmplIds S on (skipF n d) (.rest 0) := by
  induction n with
  | zero => intro d x _ h; rw [skipF_zero]; exact .inr h
  | succ n ih =>
    intro d x hn h
    cases d with
    | cons a d =>
      cases a with
      | sym e =>
        rw [ells] at hn
        by_cases he : (on && S.ell e) = true
        · rw [if_pos he] at hn
          rw [tmplIds_plain (escape_rest _ _ _ _ _), tmplIds] at h
          rcases List.mem_append.1 h with h | h
          · rw [List.mem_singleton] at h
            subst h
            simp only [Bool.and_eq_true] at he
            exact .inl he.2
          · exact ih d x (by omega) h
        · rw [if_neg he] at hn; omega
      | _ => simp [ells] at hn
    | _ => simp [ells] at hn

/-- Identifiers that are pattern variables are referred to. -/
theorem ids_pvIn {C : Cfg} {pv : List (Nat × PVRef)}
    (hC : ∀ x, (C.lits.contains x = true ∨ C.ell x = true) → lookupPv x pv = none)
    (T : Form) :
    ∀ {on : Bool} {lev : Nat} {m : Mode} {ml : Nat} {vs : List PVRef}
    {r : Pat × Nat × List PVRef} {w : PVRef} {x : Nat},
    compTmpl C pv on lev T m ml vs = some r →
    x ∈ tmplIds C.syn on (skipF m.skip T) (if m.skip = 0 then m.pos else .rest 0) →
    lookupPv x pv = some w → pvIn w r.1 := by
  induction T using Form.ind2 with
  | hnil =>
    intro on lev m ml vs r w x h hx hl
    have : skipF m.skip .nil = .nil := by cases m.skip <;> rfl
    rw [this] at hx
    cases hx
  | hatom k =>
    intro on lev m ml vs r w x h hx hl
    have : skipF m.skip (.atom k) = .atom k := by cases m.skip <;> rfl
    rw [this] at hx
    cases hx
  | hsym y =>
    intro on lev m ml vs r w x h hx hl
    have : skipF m.skip (.sym y) = .sym y := by cases m.skip <;> rfl
    rw [this, tmplIds, List.mem_singleton] at hx
    subst hx
    rcases (compTmpl_sym_some h).2 with ⟨h1, rfl⟩ | ⟨_, h1, rfl⟩ | ⟨_, l, n, h1, h2, rfl⟩
    · rw [hC x (.inl h1)] at hl; cases hl
    · rw [h1] at hl; cases hl
    · rw [h1] at hl
      injection hl
  | hvec l ih =>
    intro on lev m ml vs r w x h hx hl
    have : skipF m.skip (.vec l) = .vec l := by cases m.skip <;> rfl
    rw [this, tmplIds] at hx
    obtain ⟨p, h1, _, h2⟩ := compTmpl_vec_some h
    rw [h2]
    refine ih h1 ?_ hl
    simpa only [Mode.skip, skipF_zero, if_true, Mode.pos] using hx
  | hcons a d iha ihd iht =>
    intro on lev m ml vs r w x h hx hl
    by_cases hm : m.skip = 0
    · rw [if_pos hm, hm, skipF_zero] at hx
      rcases compTmpl_cons_some hm h with
        ⟨t, u, h1, h2, h3⟩ | ⟨p, ml1, v1, q, h1, h2, h3, h4, h5⟩ |
        ⟨n, p, ml1, v1, q, h1, h2, h3, h4, h5, h6⟩
      · subst h2
        rw [tmplIds_escape h1] at hx
        refine iht t u rfl h3 ?_ hl
        simpa only [Mode.skip, skipF_zero, if_true, Mode.pos] using hx
      · rw [tmplIds_plain h1] at hx
        rw [h5]
        rcases List.mem_append.1 hx with hx | hx
        · exact .inl (iha h3 (by
            simpa only [Mode.skip, skipF_zero, if_true, Mode.pos] using hx) hl)
        · exact .inr (ihd h4 (by
            simpa only [Mode.skip, skipF_zero, if_true, Mode.pos] using hx) hl)
      · rw [tmplIds_plain h1] at hx
        rw [h6]
        rcases List.mem_append.1 hx with hx | hx
        · refine .inl ((pvIn_nest w p _ _ _).2 (iha h3 ?_ hl))
          simpa only [Mode.skip, skipF_zero, if_true, Mode.pos] using hx
        · rcases tmplIds_skip (n + 1) d x (by rw [h2]; exact Nat.le_refl _) hx with he | hx
          · rw [hC x (.inr he)] at hl; cases hl
          · refine .inr (ihd h5 ?_ hl)
            rw [Mode.skip, if_neg (by omega)]
            exact hx
    · cases m with
      | head => exact absurd rfl hm
      | tail s k =>
        cases k with
        | zero => exact absurd rfl hm
        | succ k =>
          rw [compTmpl_skip] at h
          refine ihd h ?_ hl
          rw [if_neg hm] at hx
          rw [Mode.skip, skipF] at hx
          rw [Mode.skip]
          by_cases hk : k = 0
          · subst hk
            rw [if_pos rfl]
            exact hx
          · rw [if_neg hk]
            exact hx

/-! ## Repetitions contain a variable to iterate over -/

/-- Every repetition is deeper than `e` and has a variable of level `e`. -/
def EllOK (e : Nat) : Pat → Prop
  | .ell l _ _ p => e < l ∧ HasPv e p ∧ EllOK e p
  | .cons a d => EllOK e a ∧ EllOK e d
  | .vec l => EllOK e l
  | _ => True

theorem EllOK_nest {e : Nat} {p : Pat} (h1 : HasPv e p) (h2 : EllOK e p) :
    ∀ (n lev : Nat) (vs : List PVRef), e ≤ lev → EllOK e (nestEll vs p lev n) := by
  intro n
  induction n with
  | zero => intro lev vs _; exact h2
  | succ n ih =>
    intro lev vs hl
    refine ⟨by omega, ?_, ih (lev + 1) [] (by omega)⟩
    obtain ⟨w, hw1, hw2⟩ := h1
    exact ⟨w, (pvIn_nest w p _ _ _).2 hw1, hw2⟩

theorem compTmpl_ellOK {C : Cfg} {pv : List (Nat × PVRef)} (T : Form) :
    ∀ {on : Bool} {lev : Nat} {m : Mode} {ml : Nat} {vs : List PVRef}
    {r : Pat × Nat × List PVRef}, compTmpl C pv on lev T m ml vs = some r →
    ∀ e, e ≤ lev → EllOK e r.1 := by
  induction T using Form.ind2 with
  | hnil => intro on lev m ml vs r h e _; rw [compTmpl_nil] at h; injection h with h; subst h; trivial
  | hatom k => intro on lev m ml vs r h e _; rw [compTmpl_atom] at h; injection h with h; subst h; trivial
  | hsym x =>
    intro on lev m ml vs r h e _
    rcases (compTmpl_sym_some h).2 with ⟨_, rfl⟩ | ⟨_, _, rfl⟩ | ⟨_, l, n, _, _, rfl⟩ <;> trivial
  | hvec l ih =>
    intro on lev m ml vs r h e he
    obtain ⟨p, h1, _, h2⟩ := compTmpl_vec_some h
    rw [h2]
    exact ih h1 e he
  | hcons a d iha ihd iht =>
    intro on lev m ml vs r h e he
    by_cases hm : m.skip = 0
    · rcases compTmpl_cons_some hm h with
        ⟨t, u, h1, h2, h3⟩ | ⟨p, ml1, v1, q, h1, h2, h3, h4, h5⟩ |
        ⟨n, p, ml1, v1, q, h1, h2, h3, h4, h5, h6⟩
      · exact iht t u h2 h3 e he
      · rw [h5]; exact ⟨iha h3 e he, ihd h4 e he⟩
      · rw [h6]
        refine ⟨EllOK_nest ?_ (iha h3 e (by omega)) _ _ _ he, ihd h5 e he⟩
        obtain ⟨w, hw1, hw2⟩ := h4
        rcases (compTmpl_vars a h3 w).1 hw1 with h | h
        · cases h
        · exact ⟨w, h, by omega⟩
    · cases m with
      | head => exact absurd rfl hm
      | tail s k =>
        cases k with
        | zero => exact absurd rfl hm
        | succ k => rw [compTmpl_skip] at h; exact ihd h e he

end Gauche.SynRules

import Verif.Proof.SynRule

/-! # Evaluators for the specification, used in the examples -/
namespace Gauche.SynRules
open Form

/-- The first `k` elements and the rest. -/
def splitF : Nat → Form → List Form × Form
  | k + 1, .cons a d => (a :: (splitF k d).1, (splitF k d).2)
  | _, f => ([], f)

theorem splitF_eq : ∀ (k : Nat) (f : Form), f = prepend (splitF k f).1 (splitF k f).2 := by
  intro k
  induction k with
  | zero => intro f; cases f <;> rfl
  | succ k ih =>
    intro f
    cases f with
    | cons a d => rw [splitF, prepend]; congr 1; exact ih d
    | _ => rfl

def eachE {α β : Type} (f : α → Option β) : List α → Option (List β)
  | [] => some []
  | a :: as =>
    match f a with
    | none => none
    | some b =>
      match eachE f as with
      | none => none
      | some bs => some (b :: bs)

theorem eachE_sound {α β : Type} {f : α → Option β} {R : α → β → Prop}
    (h : ∀ a b, f a = some b → R a b) : ∀ (as : List α) (bs : List β),
    eachE f as = some bs → Each R as bs := by
  intro as
  induction as with
  | nil => intro bs hb; rw [eachE] at hb; injection hb with hb; subst hb; trivial
  | cons a as ih =>
    intro bs hb
    rw [eachE] at hb
    cases h1 : f a with
    | none => rw [h1] at hb; cases hb
    | some b =>
      rw [h1] at hb
      dsimp only at hb
      cases h2 : eachE f as with
      | none => rw [h2] at hb; cases hb
      | some bs' =>
        rw [h2] at hb
        injection hb with hb
        subst hb
        exact ⟨h a b h1, ih bs' h2⟩

/-- Two matches in a row. -/
def andE (x y : Option Binding) : Option Binding :=
  match x with
  | none => none
  | some b1 =>
    match y with
    | none => none
    | some b2 => some (b1 ++ b2)

theorem andE_some {x y : Option Binding} {b : Binding} (h : andE x y = some b) :
    ∃ b1 b2, x = some b1 ∧ y = some b2 ∧ b = b1 ++ b2 := by
  cases x with
  | none => cases h
  | some b1 =>
    cases y with
    | none => cases h
    | some b2 => injection h with h; exact ⟨b1, b2, rfl, rfl, h.symm⟩

/-- Find the bindings of a match. -/
def matchE (S : Syn) : Form → Form → Option Binding
  | .sym x, F =>
      if S.lit x then (if S.same x F then some [] else none)
      else if S.wild x then some []
      else some [(x, .leaf F)]
  | .nil, F => if F = .nil then some [] else none
  | .atom k, F => if F = .atom k then some [] else none
  | .vec P, F =>
      match F with
      | .vec G => matchE S P G
      | _ => none
  | .cons P (.cons (.sym e) Q), F =>
      if S.ell e then
        if (splitF (F.pairs - Q.pairs) F).2.pairs = Q.pairs then
          match eachE (matchE S P) (splitF (F.pairs - Q.pairs) F).1 with
          | none => none
          | some bs => andE (some (collect (patVars S P) bs))
              (matchE S Q (splitF (F.pairs - Q.pairs) F).2)
        else none
      else
        match F with
        | .cons F1 F2 => andE (matchE S P F1) (matchE S (.cons (.sym e) Q) F2)
        | _ => none
  | .cons P Q, F =>
      match F with
      | .cons F1 F2 => andE (matchE S P F1) (matchE S Q F2)
      | _ => none

theorem matchE_ell {S : Syn} {a Q F : Form} {e : Nat} (he : S.ell e = true) :
    matchE S (.cons a (.cons (.sym e) Q)) F =
      if (splitF (F.pairs - Q.pairs) F).2.pairs = Q.pairs then
        match eachE (matchE S a) (splitF (F.pairs - Q.pairs) F).1 with
        | none => none
        | some bs => andE (some (collect (patVars S a) bs))
            (matchE S Q (splitF (F.pairs - Q.pairs) F).2)
      else none := by
  cases F <;> simp only [matchE, he, if_true]

theorem matchE_plain {S : Syn} {a d F : Form} (he : ∀ e Q, d = .cons (.sym e) Q → S.ell e = false) :
    matchE S (.cons a d) F =
      match F with
      | .cons F1 F2 => andE (matchE S a F1) (matchE S d F2)
      | _ => none := by
  cases d with
  | cons x Q =>
    cases x with
    | sym e =>
      have := he e Q rfl
      cases F <;> simp only [matchE, this, Bool.false_eq_true, if_false]
    | _ => cases F <;> simp only [matchE]
  | _ => cases F <;> simp only [matchE]

theorem matchE_sound (S : Syn) (P : Form) :
    (∀ F b, matchE S P F = some b → Matches S P F b) ∧
    (∀ e Q, P = .cons e Q → ∀ F b, matchE S Q F = some b → Matches S Q F b) := by
  induction P with
  | nil =>
    refine ⟨?_, (fun _ _ h => by cases h)⟩
    intro F b h
    rw [matchE] at h
    by_cases hF : F = .nil
    · rw [if_pos hF] at h; injection h with h; exact ⟨hF, h.symm⟩
    · rw [if_neg hF] at h; cases h
  | atom k =>
    refine ⟨?_, (fun _ _ h => by cases h)⟩
    intro F b h
    rw [matchE] at h
    by_cases hF : F = .atom k
    · rw [if_pos hF] at h; injection h with h; exact ⟨hF, h.symm⟩
    · rw [if_neg hF] at h; cases h
  | sym x =>
    refine ⟨?_, (fun _ _ h => by cases h)⟩
    intro F b h
    rw [matchE] at h
    rw [Matches]
    by_cases h1 : S.lit x = true
    · rw [if_pos h1] at h ⊢
      by_cases h2 : S.same x F = true
      · rw [if_pos h2] at h; injection h with h; exact ⟨h2, h.symm⟩
      · rw [if_neg h2] at h; cases h
    · rw [if_neg h1] at h ⊢
      by_cases h2 : S.wild x = true
      · rw [if_pos h2] at h ⊢; injection h with h; exact h.symm
      · rw [if_neg h2] at h ⊢; injection h with h; exact h.symm
  | vec l ih =>
    refine ⟨?_, (fun _ _ h => by cases h)⟩
    intro F b h
    cases F with
    | vec G => rw [matchE] at h; exact ⟨G, rfl, ih.1 G b h⟩
    | _ => simp only [matchE] at h; cases h
  | cons a d iha ihd =>
    refine ⟨?_, ?_⟩
    · intro F b h
      have plain : ∀ (h1 : ∀ F, matchE S (.cons a d) F = match F with
            | .cons F1 F2 => andE (matchE S a F1) (matchE S d F2)
            | _ => none)
          (h2 : (∃ F1 F2 b1 b2, F = .cons F1 F2 ∧ Matches S a F1 b1 ∧
            Matches S d F2 b2 ∧ b = b1 ++ b2) → Matches S (.cons a d) F b),
          Matches S (.cons a d) F b := by
        intro h1 h2
        rw [h1] at h
        cases F with
        | cons F1 F2 =>
          obtain ⟨b1, b2, e1, e2, e3⟩ := andE_some h
          exact h2 ⟨F1, F2, b1, b2, rfl, iha.1 _ _ e1, ihd.1 _ _ e2, e3⟩
        | _ => cases h
      cases d with
      | cons e Q =>
        cases e with
        | sym e =>
          by_cases he : S.ell e = true
          · rw [matchE_ell he] at h
            rw [Matches, if_pos he]
            by_cases hp : (splitF (F.pairs - Q.pairs) F).2.pairs = Q.pairs
            · rw [if_pos hp] at h
              cases h1 : eachE (matchE S a) (splitF (F.pairs - Q.pairs) F).1 with
              | none => rw [h1] at h; cases h
              | some bs =>
                rw [h1] at h
                obtain ⟨b1, b2, e1, e2, e3⟩ := andE_some h
                injection e1 with e1
                subst e1
                exact ⟨_, _, bs, b2, splitF_eq _ F, hp,
                  eachE_sound (fun f b => iha.1 f b) _ _ h1, ihd.2 _ _ rfl _ _ e2, e3⟩
            · rw [if_neg hp] at h; cases h
          · refine plain ?_ ?_
            · intro F; exact matchE_plain (fun e' Q' h => by
                injection h with h _; injection h with h; subst h; simpa using he)
            · intro hh; rw [Matches, if_neg he]; exact hh
        | _ =>
          refine plain ?_ ?_
          · intro F; exact matchE_plain (fun e' Q' h => by injection h with h _; cases h)
          · intro hh; rw [Matches]
            · exact hh
            · intro _ _ h; injection h with h; cases h
      | _ =>
        refine plain ?_ ?_
        · intro F; exact matchE_plain (fun e' Q' h => by cases h)
        · intro hh; rw [Matches]
          · exact hh
          · intro _ _ h; cases h
    · intro e Q h F b hb
      injection h with _ h
      subst h
      exact ihd.1 F b hb

/-! ## Templates -/

/-- The number of rounds an identifier asks for. -/
def roundsOf (env : Env) (x : Nat) : Option Nat :=
  match env x with
  | some (.node ts) => some ts.length
  | _ => none

def repE (f : Env → Option Form) (xs : List Nat) : Nat → Env → Option (List Form)
  | 0, env => (f env).map (fun r => [r])
  | n + 1, env =>
    match xs.findSome? (roundsOf env) with
    | none => none
    | some k =>
      if xs.all (fun x => roundsOf env x == none || roundsOf env x == some k) then
        (eachE (fun i => repE f xs n (env.round i)) (List.range k)).map List.flatten
      else none

theorem eachE_get {α β : Type} {f : α → Option β} : ∀ (as : List α) (bs : List β),
    eachE f as = some bs → bs.length = as.length ∧
      ∀ (i : Nat) (b : β), bs[i]? = some b → ∃ a, as[i]? = some a ∧ f a = some b := by
  intro as
  induction as with
  | nil =>
    intro bs hb; rw [eachE] at hb; injection hb with hb; subst hb
    exact ⟨rfl, fun i b h => by simp at h⟩
  | cons a as ih =>
    intro bs hb
    rw [eachE] at hb
    cases h1 : f a with
    | none => rw [h1] at hb; cases hb
    | some b =>
      rw [h1] at hb
      dsimp only at hb
      cases h2 : eachE f as with
      | none => rw [h2] at hb; cases hb
      | some bs' =>
        rw [h2] at hb
        injection hb with hb
        subst hb
        obtain ⟨h3, h4⟩ := ih bs' h2
        refine ⟨by simp [h3], ?_⟩
        intro i b' hi
        cases i with
        | zero => injection hi with hi; subst hi; exact ⟨a, rfl, h1⟩
        | succ i => exact h4 i b' hi

theorem repE_sound {f : Env → Option Form} {I : Env → Form → Prop} {xs : List Nat}
    (h : ∀ env r, f env = some r → I env r) : ∀ (n : Nat) (env : Env) (rs : List Form),
    repE f xs n env = some rs → Repeat I xs n env rs := by
  intro n
  induction n with
  | zero =>
    intro env rs hr
    rw [repE, Option.map_eq_some_iff] at hr
    obtain ⟨r, h1, h2⟩ := hr
    exact ⟨r, h env r h1, h2.symm⟩
  | succ n ih =>
    intro env rs hr
    rw [repE] at hr
    cases h1 : xs.findSome? (roundsOf env) with
    | none => rw [h1] at hr; cases hr
    | some k =>
      rw [h1] at hr
      dsimp only at hr
      by_cases h2 : (xs.all (fun x => roundsOf env x == none || roundsOf env x == some k)) = true
      · rw [if_pos h2, Option.map_eq_some_iff] at hr
        obtain ⟨rss, h3, h4⟩ := hr
        obtain ⟨h5, h6⟩ := eachE_get _ _ h3
        refine ⟨k, ?_, ?_, rss, by rw [h5, List.length_range], ?_, h4.symm⟩
        · obtain ⟨x, hx, hxk⟩ := List.exists_of_findSome?_eq_some h1
          refine ⟨x, hx, ?_⟩
          rw [roundsOf] at hxk
          cases he : env x with
          | none => rw [he] at hxk; cases hxk
          | some t =>
            cases t with
            | leaf f => rw [he] at hxk; cases hxk
            | node ts => exact ⟨ts, rfl⟩
        · intro x hx ts hts
          have := List.all_eq_true.1 h2 x hx
          rw [roundsOf, hts] at this
          simpa using this
        · intro i rs' hi
          obtain ⟨a, h7, h8⟩ := h6 i rs' hi
          have : a = i := by
            rw [List.getElem?_eq_some_iff] at h7
            obtain ⟨h9, h10⟩ := h7
            rw [List.getElem_range] at h10
            exact h10.symm
          subst this
          exact ih _ _ h8
      · rw [if_neg h2] at hr; cases hr

def instE (S : Syn) (ρ : Nat → Nat) (on : Bool) : Form → Pos → Env → Option Form
  | .sym x, _, env =>
      if on && S.ell x then none
      else
        match env x with
        | some (.leaf f) => some f
        | some (.node _) => none
        | none => some (.sym (ρ x))
  | .nil, _, _ => some .nil
  | .atom k, _, _ => some (.atom k)
  | .vec T, _, env => (instE S ρ on T .start env).map .vec
  | .cons _ d, .rest (k + 1), env => instE S ρ on d (.rest k) env
  | .cons a d, p, env =>
      if escape S on p a d then
        match d with
        | .cons t _ => instE S ρ false t .start env
        | _ => none
      else
        match repE (instE S ρ on a .start) (tmplIds S on a .start) (ells S on d) env with
        | none => none
        | some rs =>
          match instE S ρ on d (.rest (ells S on d)) env with
          | none => none
          | some R2 => some (prepend rs R2)

theorem instE_sound {S : Syn} {ρ : Nat → Nat} (T : Form) :
    ∀ {on : Bool} {pos : Pos} {env : Env} {R : Form}, instE S ρ on T pos env = some R →
      Inst S ρ on T pos env R := by
  induction T using Form.ind2 with
  | hnil => intro on pos env R h; rw [instE] at h; injection h with h; rw [Inst]; exact h.symm
  | hatom k => intro on pos env R h; rw [instE] at h; injection h with h; rw [Inst]; exact h.symm
  | hsym x =>
    intro on pos env R h
    rw [instE] at h
    rw [Inst]
    by_cases h1 : (on && S.ell x) = true
    · rw [if_pos h1] at h; cases h
    · rw [if_neg h1] at h
      refine ⟨by simpa using h1, ?_⟩
      cases he : env x with
      | none => rw [he] at h; injection h with h; exact h.symm
      | some t =>
        cases t with
        | leaf f => rw [he] at h; injection h with h; exact h.symm
        | node ts => rw [he] at h; cases h
  | hvec l ih =>
    intro on pos env R h
    rw [instE, Option.map_eq_some_iff] at h
    obtain ⟨R', h1, h2⟩ := h
    rw [Inst]
    exact ⟨R', ih h1, h2.symm⟩
  | hcons a d iha ihd iht =>
    intro on pos env R h
    have plain : (∀ k, pos ≠ .rest (k + 1)) → Inst S ρ on (.cons a d) pos env R := by
      intro hp
      by_cases he : escape S on pos a d = true
      · cases d with
        | cons t u =>
          rw [Inst_escape he]
          refine iht t u rfl ?_
          cases pos with
          | start => simpa only [instE, he, if_true] using h
          | rest k => rw [escape_rest] at he; cases he
        | _ => cases pos <;> cases a <;> simp [escape] at he
      · have he : escape S on pos a d = false := by simpa using he
        rw [Inst_plain hp he]
        have h : (match repE (instE S ρ on a .start) (tmplIds S on a .start) (ells S on d) env with
            | none => none
            | some rs =>
              match instE S ρ on d (.rest (ells S on d)) env with
              | none => none
              | some R2 => some (prepend rs R2)) = some R := by
          cases pos with
          | start => cases d <;> simpa only [instE, he, Bool.false_eq_true, if_false] using h
          | rest k =>
            cases k with
            | zero => cases d <;> simpa only [instE, he, Bool.false_eq_true, if_false] using h
            | succ k => exact absurd rfl (hp k)
        cases h1 : repE (instE S ρ on a .start) (tmplIds S on a .start) (ells S on d) env with
        | none => rw [h1] at h; cases h
        | some rs =>
          rw [h1] at h
          dsimp only at h
          cases h2 : instE S ρ on d (.rest (ells S on d)) env with
          | none => rw [h2] at h; cases h
          | some R2 =>
            rw [h2] at h
            injection h with h
            exact ⟨rs, R2, repE_sound (I := Inst S ρ on a .start) (fun env r h => iha h) _ _ _ h1, ihd h2, h.symm⟩
    cases pos with
    | start => exact plain (fun k h => by cases h)
    | rest k =>
      cases k with
      | zero => exact plain (fun k h => by cases h)
      | succ k =>
        rw [Inst_skip]
        simp only [instE] at h
        exact ihd h

/-! ## More rounds do not change a result -/

theorem realLoop_mono {B B' : Nat → Ids → Res × Ids} {level : Nat} {splice : Bool}
    (hB : ∀ i s, (B i s).1 ≠ .more → B' i s = B i s) :
    ∀ (n n' i : Nat) (h : List Form) (s : Ids), n ≤ n' →
      (realLoop B level splice n i h s).1 ≠ .more →
      realLoop B' level splice n' i h s = realLoop B level splice n i h s := by
  intro n
  induction n with
  | zero => intro n' i h s _ hm; exact absurd rfl hm
  | succ n ih =>
    intro n' i h s hn hm
    obtain ⟨n', rfl⟩ : ∃ k, n' = k + 1 := ⟨n' - 1, by omega⟩
    rw [realLoop] at hm
    rw [realLoop, realLoop]
    have hb' := hB i s
    rcases hb : B i s with ⟨r, s1⟩
    rw [hb] at hm hb'
    cases r with
    | more => exact absurd rfl hm
    | unbound e => rw [hb' (fun h => by cases h)]
    | ok r =>
      rw [hb' (fun h => by cases h)]
      exact ih n' (i + 1) _ s1 (by omega) hm

theorem realize_mono {fuel fuel' : Nat} (hf : fuel ≤ fuel') (m : MVec) (p : Pat) :
    ∀ (lev : Nat) (idx : Nat → Nat) (s : Ids), (realize fuel m p lev idx s).1 ≠ .more →
      realize fuel' m p lev idx s = realize fuel m p lev idx s := by
  induction p with
  | pv l n => intro lev idx s _; rw [realize, realize]
  | under => intro lev idx s _; rw [realize, realize]
  | nil => intro lev idx s _; rw [realize, realize]
  | atom k => intro lev idx s _; rw [realize, realize]
  | ident x => intro lev idx s _; rw [realize, realize]
  | ell l nf vs p ih =>
    intro lev idx s hm
    rw [realize] at hm
    rw [realize, realize]
    exact realLoop_mono (fun i s h => ih _ _ _ h) _ _ _ _ _ hf hm
  | vec l ih =>
    intro lev idx s hm
    rw [realize] at hm
    rw [realize, realize]
    have h' := ih lev idx s
    rcases h : realize fuel m l lev idx s with ⟨r, s1⟩
    rw [h] at hm h'
    cases r with
    | more => exact absurd rfl hm
    | unbound e => rw [h' (fun h => by cases h)]
    | ok f => rw [h' (fun h => by cases h)]
  | cons a d iha ihd =>
    intro lev idx s hm
    rw [realize] at hm
    rw [realize, realize]
    have h' := iha lev idx s
    rcases h : realize fuel m a lev idx s with ⟨r, s1⟩
    rw [h] at hm h'
    cases r with
    | more => exact absurd rfl hm
    | unbound e => rw [h' (fun h => by cases h)]
    | ok f =>
      rw [h' (fun h => by cases h)]
      dsimp only at hm ⊢
      have h2' := ihd lev idx s1
      rcases h2 : realize fuel m d lev idx s1 with ⟨r2, s2⟩
      rw [h2] at hm h2'
      cases r2 with
      | more => exact absurd rfl hm
      | unbound e => rw [h2' (fun h => by cases h)]
      | ok f => rw [h2' (fun h => by cases h)]

theorem expand_mono {C : Cfg} {head : Bool} {fuel fuel' base : Nat} (hf : fuel ≤ fuel')
    {use : Form} : ∀ (l : List Rule), expand C head fuel base l use ≠ some .more →
      expand C head fuel' base l use = expand C head fuel base l use := by
  intro l
  induction l with
  | nil => intro _; rfl
  | cons r l ih =>
    intro h
    rw [expand] at h
    rw [expand, expand]
    cases h1 : tryRule C head r use with
    | none => rw [h1] at h; exact ih h
    | some m =>
      rw [h1] at h
      dsimp only at h ⊢
      rw [realize_mono hf]
      intro h2
      exact h (by rw [h2])

end Gauche.SynRules

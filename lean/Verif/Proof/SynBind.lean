import Verif.Proof.SynMatch

/-! # What the matcher binds the pattern variables to -/
namespace Gauche.SynRules
open Form

mutual
/-- How the values of pattern variables are stored: lists of lists of forms. -/
def enc : Tree → Form
  | .leaf f => f
  | .node ts => Form.ofList (encs ts)
def encs : List Tree → List Form
  | [] => []
  | t :: ts => enc t :: encs ts
end

theorem encs_eq (ts : List Tree) : encs ts = ts.map enc := by
  induction ts with
  | nil => rfl
  | cons t ts ih => rw [encs, ih]; rfl

/-! ## Adding to a tree at the right edge -/

def appendAt : Nat → Form → Form → Form
  | 0, v, r => snoc v r
  | k + 1, v, r => onLast (appendAt k v) r

theorem growAt_eq (k : Nat) (r : Form) : growAt k r = appendAt k .nil r := by
  induction k generalizing r with
  | zero => rfl
  | succ k ih =>
    rw [growAt, appendAt]
    congr 1
    funext r
    exact ih r

theorem onLast_cons {f : Form → Form} {a d : Form} (h : d ≠ .nil) :
    onLast f (.cons a d) = .cons a (onLast f d) := by
  cases d <;> first | exact absurd rfl h | rfl

theorem snoc_ne (v r : Form) : snoc v r ≠ .nil := by
  cases r <;> simp [snoc]

theorem onLast_ne (f : Form → Form) (r : Form) : onLast f r ≠ .nil := by
  cases r with
  | cons a d => cases d <;> simp [onLast]
  | _ => simp [onLast]

theorem onLast_snoc (f : Form → Form) (v r : Form) :
    onLast f (snoc v r) = snoc (f v) r := by
  induction r with
  | cons a d _ ih => rw [snoc, onLast_cons (snoc_ne v d), ih, snoc]
  | _ => rfl

theorem onLast_onLast (f g : Form → Form) (r : Form) :
    onLast f (onLast g r) = onLast (fun x => f (g x)) r := by
  induction r with
  | cons a d _ ih =>
    by_cases hd : d = .nil
    · subst hd; rfl
    · rw [onLast_cons hd, onLast_cons (onLast_ne g d), ih, onLast_cons hd]
  | _ => rfl

theorem setSprout_appendAt (k : Nat) (v w r : Form) :
    setSprout v k (appendAt k w r) = appendAt k v r := by
  induction k generalizing r with
  | zero => rw [appendAt, setSprout, onLast_snoc, appendAt]
  | succ k ih =>
    rw [appendAt, setSprout, onLast_onLast, appendAt]
    congr 1
    funext x
    exact ih x

theorem appendAt_succ (k : Nat) (v w r : Form) :
    appendAt (k + 1) v (appendAt k w r) = appendAt k (snoc v w) r := by
  induction k generalizing r with
  | zero =>
    show onLast (appendAt 0 v) (snoc w r) = snoc (snoc v w) r
    rw [onLast_snoc]; rfl
  | succ k ih =>
    rw [appendAt, appendAt, onLast_onLast, appendAt]
    congr 1
    funext x
    exact ih x

theorem snoc_prepend (v : Form) (l : List Form) :
    snoc v (ofList l) = ofList (l ++ [v]) := by
  induction l with
  | nil => rfl
  | cons a l ih =>
    show snoc v (.cons a (ofList l)) = .cons a (ofList (l ++ [v]))
    rw [snoc, ih]

theorem foldl_append0 (vs : List Form) : ∀ l : List Form,
    vs.foldl (fun r v => appendAt 0 v r) (ofList l) = ofList (l ++ vs) := by
  induction vs with
  | nil => intro l; simp
  | cons v vs ih =>
    intro l
    rw [List.foldl_cons, appendAt, snoc_prepend, ih]
    simp

theorem foldl_appendSucc (k : Nat) (vs : List Form) (r : Form) : ∀ l : List Form,
    vs.foldl (fun r v => appendAt (k + 1) v r) (appendAt k (ofList l) r) =
      appendAt k (ofList (l ++ vs)) r := by
  induction vs with
  | nil => intro l; simp
  | cons v vs ih =>
    intro l
    rw [List.foldl_cons, appendAt_succ, snoc_prepend, ih]
    simp

/-! ## Entries that are not touched -/

/-- The variable with number `n` occurs. -/
def occ (n : Nat) : Pat → Prop
  | .pv _ k => k = n
  | .ell _ _ vs p => (∃ l, (l, n) ∈ vs) ∨ occ n p
  | .cons a d => occ n a ∨ occ n d
  | .vec l => occ n l
  | _ => False

theorem upd_other {m : MVec} {c n : Nat} {f : MatchVar → MatchVar} (h : n ≠ c) :
    m.upd c f n = m n := by rw [MVec.upd, if_neg h]

theorem upd_same {m : MVec} {n : Nat} {f : MatchVar → MatchVar} :
    m.upd n f n = f (m n) := by rw [MVec.upd, if_pos rfl]

theorem enterSub_other {level n : Nat} (vs : List PVRef) :
    ∀ {m : MVec}, (¬ ∃ l, (l, n) ∈ vs) → enterSub level vs m n = m n := by
  induction vs with
  | nil => intro m _; rfl
  | cons r vs ih =>
    intro m h
    rw [enterSub, ih (fun ⟨l, hl⟩ => h ⟨l, List.mem_cons_of_mem _ hl⟩), upd_other]
    intro he
    exact h ⟨r.1, by subst he; exact List.mem_cons_self⟩

theorem exitSub_other {level n : Nat} (vs : List PVRef) :
    ∀ {m : MVec}, (¬ ∃ l, (l, n) ∈ vs) → exitSub level vs m n = m n := by
  induction vs with
  | nil => intro m _; rfl
  | cons r vs ih =>
    intro m h
    rw [exitSub, ih (fun ⟨l, hl⟩ => h ⟨l, List.mem_cons_of_mem _ hl⟩), upd_other]
    intro he
    exact h ⟨r.1, by subst he; exact List.mem_cons_self⟩

theorem enterSub_mem {level : Nat} (vs : List PVRef) :
    ∀ {m : MVec} {l n : Nat}, (vs.map Prod.snd).Nodup → (l, n) ∈ vs →
      enterSub level vs m n = growBranch (m n) level := by
  induction vs with
  | nil => intro m l n _ h; cases h
  | cons r vs ih =>
    intro m l n hn h
    rw [List.map_cons, List.nodup_cons] at hn
    rw [enterSub]
    rcases List.mem_cons.1 h with h | h
    · subst h
      rw [enterSub_other vs (fun ⟨l', hl'⟩ => hn.1 (List.mem_map.2 ⟨_, hl', rfl⟩)),
        upd_same]
    · rw [ih hn.2 h, upd_other]
      intro he
      exact hn.1 (List.mem_map.2 ⟨_, h, he⟩)

theorem exitSub_mem {level : Nat} (vs : List PVRef) :
    ∀ {m : MVec} {l n : Nat}, (vs.map Prod.snd).Nodup → (l, n) ∈ vs →
      exitSub level vs m n = exitVar level (l, n) (m n) := by
  induction vs with
  | nil => intro m l n _ h; cases h
  | cons r vs ih =>
    intro m l n hn h
    rw [List.map_cons, List.nodup_cons] at hn
    rw [exitSub]
    rcases List.mem_cons.1 h with h | h
    · subst h
      rw [exitSub_other vs (fun ⟨l', hl'⟩ => hn.1 (List.mem_map.2 ⟨_, hl', rfl⟩)),
        upd_same]
    · rw [ih hn.2 h, upd_other]
      intro he
      exact hn.1 (List.mem_map.2 ⟨_, h, he⟩)

theorem matchLoop_frame {M : Form → MVec → Option MVec} {n : Nat}
    (hM : ∀ f m m', M f m = some m' → m' n = m n) :
    ∀ (k : Nat) (f : Form) (m : MVec) (r : Form × MVec),
      matchLoop M k f m = some r → r.2 n = m n := by
  intro k
  induction k with
  | zero => intro f m r h; rw [matchLoop] at h; injection h with h; subst h; rfl
  | succ k ih =>
    intro f m r h
    cases f with
    | cons a d =>
      rw [matchLoop] at h
      cases h1 : M a m with
      | none => rw [h1] at h; cases h
      | some m1 =>
        rw [h1] at h
        rw [ih d m1 r h, hM a m m1 h1]
    | _ =>
      simp only [matchLoop] at h
      injection h with h; subst h; rfl

/-- Matching touches only the entries of the variables of the pattern. -/
theorem match_frame (C : Cfg) (n : Nat) (p : Pat) :
    (¬ occ n p → ∀ f m m', matchSyn C p f m = some m' → m' n = m n) ∧
    (¬ occ n p → ∀ f m m', matchVec C p f m = some m' → m' n = m n) ∧
    (∀ l nf vs p', p = .ell l nf vs p' → ¬ occ n p' →
      ∀ f m m', matchSyn C p' f m = some m' → m' n = m n) := by
  induction p with
  | pv l k =>
    refine ⟨?_, ?_, fun _ _ _ _ h => by cases h⟩
    · intro ho f m m' h
      rw [matchSyn] at h
      injection h with h
      subst h
      exact upd_other (fun he => ho he.symm)
    · intro ho f m m' h
      simp only [matchVec] at h
      injection h with h
      subst h
      rfl
  | under =>
    refine ⟨?_, ?_, fun _ _ _ _ h => by cases h⟩ <;>
    · intro ho f m m' h
      simp only [matchSyn, matchVec] at h
      injection h with h
      subst h
      rfl
  | ident x =>
    refine ⟨?_, ?_, fun _ _ _ _ h => by cases h⟩
    · intro ho f m m' h
      rw [matchSyn] at h
      by_cases hs : C.same x f = true
      · rw [if_pos hs] at h; injection h with h; subst h; rfl
      · rw [if_neg hs] at h; cases h
    · intro ho f m m' h
      simp only [matchVec] at h
      injection h with h
      subst h
      rfl
  | nil =>
    refine ⟨?_, ?_, fun _ _ _ _ h => by cases h⟩
    · intro ho f m m' h
      rw [matchSyn] at h
      by_cases hs : f = .nil
      · rw [if_pos hs] at h; injection h with h; subst h; rfl
      · rw [if_neg hs] at h; cases h
    · intro ho f m m' h
      simp only [matchVec] at h
      injection h with h
      subst h
      rfl
  | atom k =>
    refine ⟨?_, ?_, fun _ _ _ _ h => by cases h⟩
    · intro ho f m m' h
      rw [matchSyn] at h
      by_cases hs : f = .atom k
      · rw [if_pos hs] at h; injection h with h; subst h; rfl
      · rw [if_neg hs] at h; cases h
    · intro ho f m m' h
      simp only [matchVec] at h
      injection h with h
      subst h
      rfl
  | vec l ih =>
    refine ⟨?_, ?_, fun _ _ _ _ h => by cases h⟩
    · intro ho f m m' h
      cases f with
      | vec g =>
        rw [matchSyn] at h
        by_cases hs : vecLenOK l g.pairs = true
        · rw [if_pos hs] at h; exact ih.2.1 ho _ _ _ h
        · rw [if_neg hs] at h; cases h
      | _ => simp only [matchSyn] at h; cases h
    · intro ho f m m' h
      simp only [matchVec] at h
      injection h with h
      subst h
      rfl
  | ell l nf vs p ih =>
    refine ⟨?_, ?_, ?_⟩
    · intro ho f m m' h
      rw [matchSyn] at h
      cases h1 : matchLoop (matchSyn C p) (f.pairs - nf) f (enterSub l vs m) with
      | none => rw [h1] at h; cases h
      | some r =>
        obtain ⟨f', m1⟩ := r
        rw [h1] at h
        dsimp only at h
        by_cases hf : f' = .nil
        · rw [if_pos hf] at h
          injection h with h
          subst h
          have h2 := matchLoop_frame (ih.1 (fun h => ho (.inr h))) _ _ _ _ h1
          dsimp only at h2
          rw [exitSub_other vs (fun h => ho (.inl h)), h2,
            enterSub_other vs (fun h => ho (.inl h))]
        · rw [if_neg hf] at h; cases h
    · intro ho f m m' h
      simp only [matchVec] at h
      injection h with h
      subst h
      rfl
    · intro l' nf' vs' p' he
      injection he with _ _ _ he
      subst he
      exact ih.1
  | cons p q ihp ihq =>
    have aux : ∀ l nf vs p', p = .ell l nf vs p' → ¬ occ n (.cons p q) →
        ∀ f m m',
        (match matchLoop (matchSyn C p') (f.pairs - nf) f (enterSub l vs m) with
        | none => none
        | some (f', m') => matchSyn C q f' (exitSub l vs m')) = some m' →
        m' n = m n := by
      intro l nf vs p' he ho f m m' h
      have hop : ¬ occ n p := fun h => ho (.inl h)
      have hoq : ¬ occ n q := fun h => ho (.inr h)
      rw [he] at hop
      cases h1 : matchLoop (matchSyn C p') (f.pairs - nf) f (enterSub l vs m) with
      | none => rw [h1] at h; cases h
      | some r =>
        obtain ⟨f', m1⟩ := r
        rw [h1] at h
        dsimp only at h
        have h2 := matchLoop_frame (ihp.2.2 l nf vs p' he (fun h => hop (.inr h)))
          _ _ _ _ h1
        dsimp only at h2
        rw [ihq.1 hoq _ _ _ h, exitSub_other vs (fun h => hop (.inl h)), h2,
          enterSub_other vs (fun h => hop (.inl h))]
    refine ⟨?_, ?_, fun _ _ _ _ h => by cases h⟩
    · intro ho f m m' h
      by_cases he : p.isEll = true
      · obtain ⟨l, nf, vs, p', he'⟩ := isEll_cases he
        subst he'
        rw [matchSyn] at h
        exact aux l nf vs p' rfl ho f m m' h
      · have he : p.isEll = false := by simpa using he
        rw [matchSyn_plain C p q f m he] at h
        cases f with
        | cons a d =>
          dsimp only at h
          cases h1 : matchSyn C p a m with
          | none => rw [h1] at h; cases h
          | some m1 =>
            rw [h1] at h
            rw [ihq.1 (fun h => ho (.inr h)) _ _ _ h,
              ihp.1 (fun h => ho (.inl h)) _ _ _ h1]
        | _ => cases h
    · intro ho f m m' h
      by_cases he : p.isEll = true
      · obtain ⟨l, nf, vs, p', he'⟩ := isEll_cases he
        subst he'
        cases f with
        | cons a d =>
          rw [matchVec] at h
          exact aux l nf vs p' rfl ho (.cons a d) m m' h
        | _ =>
          simp only [matchVec] at h
          injection h with h; subst h; rfl
      · have he : p.isEll = false := by simpa using he
        rw [matchVec_plain C p q f m he] at h
        cases f with
        | cons a d =>
          dsimp only at h
          cases h1 : matchSyn C p a m with
          | none => rw [h1] at h; cases h
          | some m1 =>
            rw [h1] at h
            rw [ihq.2.1 (fun h => ho (.inr h)) _ _ _ h,
              ihp.1 (fun h => ho (.inl h)) _ _ _ h1]
        | _ => cases h

/-- The variables that occur in a compiled pattern are the new ones. -/
theorem compPat_occ {C : Cfg} (P : Form) :
    ∀ {lev : Nat} {m : Mode} {c : Ctx} {vs : List PVRef}
    {r : Pat × Ctx × List PVRef} {n : Nat}, compPat C lev P m c vs = some r →
    occ n r.1 → c.pvcnt ≤ n ∧ n < r.2.1.pvcnt := by
  induction P with
  | nil =>
    intro lev m c vs r n h ho
    rw [compPat_nil] at h; injection h with h; subst h; exact ho.elim
  | atom k =>
    intro lev m c vs r n h ho
    rw [compPat_atom] at h; injection h with h; subst h; exact ho.elim
  | sym x =>
    intro lev m c vs r n h ho
    rcases (compPat_sym_some h).2 with ⟨_, rfl⟩ | ⟨_, _, rfl⟩ | ⟨_, _, _, rfl⟩
    · exact ho.elim
    · exact ho.elim
    · have : c.pvcnt = n := ho
      dsimp only
      omega
  | vec l ih =>
    intro lev m c vs r n h ho
    obtain ⟨p, h1, h2⟩ := compPat_vec_some h
    rw [h2] at ho
    exact ih (r := (p, r.2.1, r.2.2)) h1 ho
  | cons a d iha ihd =>
    intro lev m c vs r n h ho
    by_cases hm : m.skip = 0
    · rcases compPat_cons_some hm h with
        ⟨e, Q, p, c1, v1, q, rfl, he, hs, h1, h2, h3⟩ | ⟨p, c1, v1, q, he, h1, h2, h3⟩
      · rw [h3] at ho
        have E1 := compPat_ext C a _ _ _ _ _ h1
        have E2 := compPat_ext C Q _ _ _ _ _ h2
        have M1 : c.pvcnt ≤ c1.pvcnt := E1.1.mono
        have M2 : c1.pvcnt ≤ r.2.1.pvcnt := E2.1.mono
        rcases ho with (⟨l, hl⟩ | ho) | ho
        · rcases (E1.2 _).1 hl with h | ⟨x, hx, hl⟩
          · cases h
          · obtain ⟨_, l', n', h4, _, h5, h6⟩ := E1.1.new x hx
            rw [hl] at h4
            injection h4 with h4
            injection h4 with h4 h7
            subst h7
            dsimp only at h5 h6
            omega
        · have := iha h1 ho
          dsimp only at this
          omega
        · have := ihd (lev := lev) (m := .tail true 1) (c := c1) (vs := vs ++ v1)
            (r := (q, r.2.1, r.2.2)) (by rw [compPat_skip]; exact h2) ho
          dsimp only at this
          omega
      · rw [h3] at ho
        have E1 := compPat_ext C a _ _ _ _ _ h1
        have E2 := compPat_ext C d _ _ _ _ _ h2
        have M1 : c.pvcnt ≤ c1.pvcnt := E1.1.mono
        have M2 : c1.pvcnt ≤ r.2.1.pvcnt := E2.1.mono
        rcases ho with ho | ho
        · have := iha h1 ho
          dsimp only at this
          omega
        · have := ihd h2 ho
          dsimp only at this
          omega
    · cases m with
      | head => exact absurd rfl hm
      | tail s k =>
        cases k with
        | zero => exact absurd rfl hm
        | succ k => rw [compPat_skip] at h; exact ihd h ho

/-- No number is listed twice among the variables of a subpattern. -/
theorem compPat_nodup {C : Cfg} (P : Form) :
    ∀ {lev : Nat} {m : Mode} {c : Ctx} {vs : List PVRef}
    {r : Pat × Ctx × List PVRef}, compPat C lev P m c vs = some r →
    (∀ v ∈ vs, v.2 < c.pvcnt) → (vs.map Prod.snd).Nodup →
    (∀ v ∈ r.2.2, v.2 < r.2.1.pvcnt) ∧ (r.2.2.map Prod.snd).Nodup := by
  induction P with
  | nil =>
    intro lev m c vs r h hb hn
    rw [compPat_nil] at h; injection h with h; subst h; exact ⟨hb, hn⟩
  | atom k =>
    intro lev m c vs r h hb hn
    rw [compPat_atom] at h; injection h with h; subst h; exact ⟨hb, hn⟩
  | sym x =>
    intro lev m c vs r h hb hn
    rcases (compPat_sym_some h).2 with ⟨_, rfl⟩ | ⟨_, _, rfl⟩ | ⟨_, _, _, rfl⟩
    · exact ⟨hb, hn⟩
    · exact ⟨hb, hn⟩
    · refine ⟨?_, ?_⟩
      · intro v hv
        rcases List.mem_cons.1 hv with rfl | hv
        · exact Nat.lt_succ_self _
        · exact Nat.lt_succ_of_lt (hb v hv)
      · rw [List.map_cons, List.nodup_cons]
        refine ⟨?_, hn⟩
        intro h
        obtain ⟨v, hv, he⟩ := List.mem_map.1 h
        have := hb v hv
        rw [he] at this
        exact Nat.lt_irrefl _ this
  | vec l ih =>
    intro lev m c vs r h hb hn
    obtain ⟨p, h1, h2⟩ := compPat_vec_some h
    exact ih (r := (p, r.2.1, r.2.2)) h1 hb hn
  | cons a d iha ihd =>
    intro lev m c vs r h hb hn
    by_cases hm : m.skip = 0
    · rcases compPat_cons_some hm h with
        ⟨e, Q, p, c1, v1, q, rfl, he, hs, h1, h2, h3⟩ | ⟨p, c1, v1, q, he, h1, h2, h3⟩
      · have E1 := compPat_ext C a _ _ _ _ _ h1
        have A := iha h1 (fun v hv => by cases hv) List.nodup_nil
        dsimp only at A
        have M1 : c.pvcnt ≤ c1.pvcnt := E1.1.mono
        have hlow : ∀ v ∈ v1, c.pvcnt ≤ v.2 := by
          intro v hv
          rcases (E1.2 _).1 hv with h | ⟨x, hx, hl⟩
          · cases h
          · obtain ⟨_, l', n', h4, _, h5, h6⟩ := E1.1.new x hx
            rw [hl] at h4
            injection h4 with h4
            rw [h4]
            exact h5
        refine ihd (lev := lev) (m := .tail true 1) (c := c1) (vs := vs ++ v1)
            (r := (q, r.2.1, r.2.2)) (by rw [compPat_skip]; exact h2) ?_ ?_
        · intro v hv
          rcases List.mem_append.1 hv with hv | hv
          · exact Nat.lt_of_lt_of_le (hb v hv) M1
          · exact A.1 v hv
        · rw [List.map_append, List.nodup_append]
          refine ⟨hn, A.2, ?_⟩
          intro x hx y hy hxy
          obtain ⟨u, hu, rfl⟩ := List.mem_map.1 hx
          obtain ⟨w, hw, rfl⟩ := List.mem_map.1 hy
          have h5 := hb u hu
          have h6 := hlow w hw
          omega
      · have A := iha h1 hb hn
        exact ihd (r := (q, r.2.1, r.2.2)) h2 A.1 A.2
    · cases m with
      | head => exact absurd rfl hm
      | tail s k =>
        cases k with
        | zero => exact absurd rfl hm
        | succ k => rw [compPat_skip] at h; exact ihd h hb hn

end Gauche.SynRules

import Verif.Proof.ProgIf

/-!
# Arguments, frames, procedures, `letrec`
-/
namespace Gauche.Prog

/-! ## Variables -/

theorem envData_slot {M W σ fs bs cs G ρ renv env x l v} (h : Rel M W σ fs bs cs G)
    (hE : EnvRel M W fs ρ renv env) (hx : ρ.find x = some l) (hv : σ.vars[l]? = some v)
    (hm : M x = false) :
    envData fs env (renvLookup x renv).1 (renvLookup x renv).2 = some (.val v) := by
  obtain ⟨a, f, h1, h2, h3, _, h5⟩ := hE x l hx
  obtain ⟨f', v', g1, g2, g3⟩ := h.slot _ _ _ (h5 hm)
  rw [h2] at g1
  injection g1 with g1
  subst g1
  rw [hv] at g2
  injection g2 with g2
  subst g2
  rw [envData, h1]
  dsimp only
  rw [h2]
  dsimp only
  rw [if_pos h3]
  exact g3

theorem envData_box {M W fs ρ renv env x l}
    (hE : EnvRel M W fs ρ renv env) (hx : ρ.find x = some l) (hm : M x = true) :
    ∃ b, envData fs env (renvLookup x renv).1 (renvLookup x renv).2 = some (.box b) ∧
      W[l]? = some (.box b) := by
  obtain ⟨a, f, h1, h2, h3, h4, _⟩ := hE x l hx
  obtain ⟨b, b1, b2⟩ := h4 hm
  refine ⟨b, ?_, b2⟩
  rw [envData, h1]
  dsimp only
  rw [h2]
  dsimp only
  rw [if_pos h3]
  exact b1

theorem walk_keep {fs fs' : List Frame} (h : Keep fs fs') {env : Option Nat} {d a : Nat}
    (hw : walk fs env d = some a) : walk fs' env d = some a := walk_ext h.ext d env a hw

theorem envData_keep {fs fs' : List Frame} (h : Keep fs fs') {env : Option Nat} {d off : Nat}
    {w : Slot} (hw : envData fs env d off = some w) : envData fs' env d off = some w := by
  rw [envData] at hw ⊢
  cases h1 : walk fs env d with
  | none => rw [h1] at hw; cases hw
  | some a =>
    rw [h1] at hw
    rw [walk_keep h h1]
    dsimp only at hw ⊢
    cases h2 : fs[a]? with
    | none => rw [h2] at hw; cases hw
    | some f =>
      rw [h2] at hw
      rw [h _ _ h2]
      exact hw

/-! ## Arguments of head-heavy calls -/

theorem simpleArgs_run {M : Nat → Bool} {P : Builtin} {ρ : Env} {σ : Store} {renv : Renv}
    {fs : List Frame} {env : Option Nat} {W : List Place} {bs : List Val} {cs : List VClos}
    {G : Nat → Option Val} (hR : Rel M W σ fs bs cs G) (hE : EnvRel M W fs ρ renv env) :
    ∀ (es : List Term) (vs : List Val) (σ1 : Store), allSimple es = true → noMutable M es = true →
    Run P (.evs ρ σ es vs σ1) →
    σ1 = σ ∧ es.length = vs.length ∧
    ∀ (s : VM), Keep fs s.frames → s.env = env → At s.code s.pc (simpleArgs M renv es) →
      Steps P s { s with args := s.args ++ vs.map .val, sp := s.sp + es.length,
                         pc := s.pc + (simpleArgs M renv es).length } := by
  intro es
  induction es with
  | nil =>
    intro vs σ1 _ _ hr
    cases hr
    refine ⟨rfl, rfl, ?_⟩
    intro s _ _ _
    have : ({ s with args := s.args ++ List.map Slot.val [], sp := s.sp + List.length (α := Term) [],
                     pc := s.pc + (simpleArgs M renv []).length } : VM) = s := by
      rw [List.map_nil, List.append_nil, simpleArgs]
      · rfl
      all_goals (intros; simp_all)
    rw [this]
    exact .refl
  | cons e es ih =>
    intro vs σ1 hs hm hr
    cases hr with
    | @evCons _ _ σ' _ _ _ v vs hr1 hr2 =>
    cases e with
    | lref x =>
      rw [allSimple] at hs
      rw [noMutable, Bool.and_eq_true, Bool.not_eq_true'] at hm
      cases hr1 with
      | lref h1 h2 =>
      obtain ⟨i1, i2, i3⟩ := ih vs σ1 hs hm.2 hr2
      refine ⟨i1, by rw [List.length_cons, List.length_cons, i2], ?_⟩
      intro s hk he hat
      rw [simpleArgs] at hat ⊢
      rw [hm.1, if_neg (by decide)] at hat ⊢
      have hd := envData_keep hk (envData_slot hR hE h1 h2 hm.1)
      have hst : step P s = some
          { s with args := s.args ++ [.val v], sp := s.sp + 1, pc := s.pc + 1 } := by
        rw [step_at hat.head, exec, he, hd, ← he]
      have := i3 { s with args := s.args ++ [.val v], sp := s.sp + 1, pc := s.pc + 1 } hk he
        hat.tail
      refine (Steps.one hst).trans ?_
      dsimp only at this
      rw [List.append_assoc] at this
      rw [List.length_append, List.length_cons, List.length_cons, List.length_nil]
      rw [show s.pc + (0 + 1 + (simpleArgs M renv es).length) =
        s.pc + 1 + (simpleArgs M renv es).length by omega,
        show s.sp + (es.length + 1) = s.sp + 1 + es.length by omega]
      exact this
    | const k =>
      rw [allSimple] at hs
      rw [noMutable] at hm
      · cases hr1 with
        | const =>
        obtain ⟨i1, i2, i3⟩ := ih vs σ1 hs hm hr2
        refine ⟨i1, by rw [List.length_cons, List.length_cons, i2], ?_⟩
        intro s hk he hat
        rw [simpleArgs] at hat ⊢
        have hst : step P s = some
            { s with args := s.args ++ [.val (.atom k)], sp := s.sp + 1, pc := s.pc + 1 } := by
          rw [step_at hat.head]; rfl
        have := i3 { s with args := s.args ++ [.val (.atom k)], sp := s.sp + 1, pc := s.pc + 1 } hk he
          hat.tail
        refine (Steps.one hst).trans ?_
        dsimp only at this
        rw [List.append_assoc] at this
        rw [List.length_cons, List.length_cons]
        rw [show s.pc + ((simpleArgs M renv es).length + 1) =
          s.pc + 1 + (simpleArgs M renv es).length by omega,
          show s.sp + (es.length + 1) = s.sp + 1 + es.length by omega]
        exact this
      · intro x h; cases h
    | _ => cases hs

/-! ## Procedures -/

theorem bindArgs_length {n : Nat} {opt : Bool} {vs ws : List Val} (ho : opt = true → n ≠ 0)
    (h : bindArgs n opt vs = some ws) : n = ws.length := by
  rw [bindArgs] at h
  cases opt with
  | true =>
    have := ho rfl
    rw [if_pos rfl] at h
    by_cases hl : n - 1 ≤ vs.length
    · rw [if_pos hl] at h
      injection h with h
      rw [← h, List.length_append, List.length_take, Nat.min_eq_left hl]
      show n = n - 1 + 1
      omega
    · rw [if_neg hl] at h; cases h
  | false =>
    rw [if_neg (by decide)] at h
    by_cases hl : vs.length = n
    · rw [if_pos hl] at h
      injection h with h
      rw [← h, hl]
    · rw [if_neg hl] at h; cases h

theorem adjust_bind {n : Nat} {opt : Bool} {vs ws : List Val}
    (h : bindArgs n opt vs = some ws) : adjust (if opt then n - 1 else n) opt vs = some ws := by
  rw [bindArgs] at h
  rw [adjust]
  cases opt with
  | true =>
    rw [if_pos rfl] at h ⊢
    rw [if_pos rfl]
    by_cases hl : n - 1 ≤ vs.length
    · rw [if_pos hl] at h
      rw [if_neg (by omega)]
      exact h
    · rw [if_neg hl] at h; cases h
  | false => exact h

theorem main_app {M : Nat → Bool} {P : Builtin} {σ σ1 : Store} {n : Nat} {c : SClos}
    {vs ws : List Val} {v : Val} (hc : σ.clos[n]? = some c)
    (hb : bindArgs c.params.length c.opt vs = some ws)
    (hm : Main M P (fresh c.params σ.vars.length ++ c.env) { σ with vars := σ.vars ++ ws } c.body v
      σ1) : MainApp M P σ (.clos n) vs v σ1 := by
  intro W s hR hv ha
  obtain ⟨k, hk, renv, hok, hE, hcode⟩ := hR.clos n c hc
  rw [lamInstr] at hcode
  injection hcode with c1 c2 c3 c4
  rw [ok] at hok
  have hlen : c.params.length = ws.length := bindArgs_length (by
    intro ho h0
    exact hok.1 ho (List.length_eq_zero_iff.1 h0)) hb
  have hadj : adjust k.req k.opt vs = some ws := by
    rw [c1, c2]; exact adjust_bind hb
  cases ws with
  | nil =>
    have hp : c.params = [] := List.length_eq_zero_iff.1 hlen
    refine ⟨{ s with sp := s.sp - vs.length, env := k.env, args := [], code := k.code, pc := 0,
                     lim := s.sp - vs.length + k.maxstack }, ?_, ?_⟩
    · rw [doCall, ha, slotVals_map]
      dsimp only
      rw [hv]
      dsimp only
      rw [hk]
      dsimp only
      rw [hadj]
      rfl
    · rw [hp] at hm c4
      rw [extRenv] at c4
      have h0 : Main M P c.env σ c.body v σ1 := by
        have : ({ σ with vars := σ.vars ++ [] } : Store) = σ := by rw [List.append_nil]
        rw [this] at hm
        exact hm
      have c4 : k.code = comp M renv .tail 0 c.body ++ [.ret] := c4
      have hat : At k.code 0 (comp M renv .tail 0 c.body ++ [.ret]) := by
        rw [c4]; exact At.whole _
      have := hat.right.head
      obtain ⟨s', W', b⟩ := (h0 hok.2 renv .tail W { s with sp := s.sp - vs.length, env := k.env, args := [], code := k.code, pc := 0, lim := s.sp - vs.length + k.maxstack } 0 rfl hat.left hR hE (fun _ => rfl)).backs this
      exact ⟨s', W', b.steps, b.conts, b.returning, b.rel, b.keepW, b.keepF⟩
  | cons w0 ws0 =>
    generalize hws : w0 :: ws0 = ws at *
    have hne : ws.isEmpty = false := by rw [← hws]; rfl
    have hpe : c.params.isEmpty = false := by
      cases hp : c.params with
      | nil => rw [hp, ← hws] at hlen; cases hlen
      | cons _ _ => rfl
    refine ⟨{ s with
                     sp := s.sp - vs.length + ws.length + envHdr, env := some s.frames.length,
                     frames := s.frames ++ [⟨ws.map .val, k.env⟩],
                     args := [], code := k.code, pc := 0,
                     lim := s.sp - vs.length + ws.length + envHdr + k.maxstack }, ?_, ?_⟩
    · rw [doCall, ha, slotVals_map]
      dsimp only
      rw [hv]
      dsimp only
      rw [hk]
      dsimp only
      rw [hadj]
      dsimp only
      rw [hne, if_neg (by decide)]
      rfl
    · rw [extRenv, hpe, if_neg (by decide), List.append_assoc] at c4
      have hat : At k.code 0 (boxers M c.params ++
          (comp M (c.params :: renv) .tail (boxers M c.params).length c.body ++ [.ret])) := by
        rw [c4]; exact At.whole _
      have h1 := run_frame (P := P) (M := M) (fs := s.frames) (up := k.env) (xs := c.params)
        (ws := ws) (s := {s with
                     sp := s.sp - vs.length + ws.length + envHdr, env := some s.frames.length,
                     frames := s.frames ++ [⟨ws.map .val, k.env⟩],
                     args := [], code := k.code, pc := 0,
                     lim := s.sp - vs.length + ws.length + envHdr + k.maxstack }) hlen rfl rfl
        hat.left
      dsimp only at h1
      rw [Nat.zero_add] at h1
      have hat2 := hat.right
      rw [Nat.zero_add] at hat2
      have hE2 := EnvRel.frame hE (ws := ws) hlen s.boxes.length
      rw [hR.len] at hE2
      have h2 := (hm hok.2 (c.params :: renv) .tail _ _ rfl (s :=
        { s with
                     sp := s.sp - vs.length + ws.length + envHdr, env := some s.frames.length,
                     frames := s.frames ++ [⟨boxSlots M c.params ws s.boxes.length, k.env⟩],
                     boxes := s.boxes ++ boxVals M c.params ws,
                     args := [], code := k.code, pc := (boxers M c.params).length,
                     lim := s.sp - vs.length + ws.length + envHdr + k.maxstack }) hat2.left
        (Rel.alloc hR hlen k.env) hE2 (fun _ => rfl)).backs hat2.right.head
      obtain ⟨s', W', b⟩ := h2
      refine ⟨s', W', h1.trans b.steps, b.conts, b.returning, b.rel,
        (Keep.append _ _).trans b.keepW, (Keep.append _ _).trans b.keepF⟩

end Gauche.Prog

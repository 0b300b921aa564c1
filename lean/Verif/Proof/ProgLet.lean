import Verif.Proof.ProgRec

/-!
# Frames for the bodies of `let` and `letrec`, and calls
-/
namespace Gauche.Prog

/-- The body returned to the continuation that `PRE-CALL` saved. -/
theorem Backs.cont {M P W v σ'} {s : VM} {l : Nat} {is : List Instr}
    (hat : At s.code s.pc (.preCall l :: is))
    (h : Backs M P W { s with
      conts := ⟨s.env, s.args, l, s.code, s.sp, s.lim⟩ :: s.conts,
      args := [], sp := s.sp + contSize, pc := s.pc + 1 } v σ') :
    Falls M P W s false s.args l v σ' := by
  obtain ⟨s', W', b⟩ := h
  have h1 : step P s = some { s with
      conts := ⟨s.env, s.args, l, s.code, s.sp, s.lim⟩ :: s.conts,
      args := [], sp := s.sp + contSize, pc := s.pc + 1 } := by
    rw [step_at hat.head]; rfl
  have h2 : step P s' = some { s' with
      env := s.env, args := s.args, pc := l, code := s.code,
      conts := s.conts, sp := s.sp, lim := s.lim } := by
    rw [b.returning.ret, ret, b.conts]
  exact ⟨_, W', (Steps.step h1 b.steps).trans (Steps.one h2), rfl, rfl, rfl, rfl, rfl, b.rel,
    b.keepW, b.keepF, fun _ => b.returning.1⟩

/-- A new frame was made. -/
structure Entered (M : Nat → Bool) (P : Builtin) (W : List Place) (s t : VM) (W' : List Place)
    (pc : Nat) (ρ : Env) (renv : Renv) (σ : Store) : Prop where
  steps : Steps P s t
  pc : t.pc = pc
  code : t.code = s.code
  env : t.env = some s.frames.length
  args : t.args = []
  conts : t.conts = s.conts
  frame : ∃ f, t.frames[s.frames.length]? = some f ∧ f.up = s.env
  keepW : Keep W W'
  keepF : Keep s.frames t.frames
  rel : RelS M W' σ t
  erel : EnvRel M W' t.frames ρ renv t.env

theorem enter_let {M P W σ ρ renv} {s : VM} {xs : List Nat} {vs : List Val} {n pc : Nat}
    {is : List Instr}
    (hl : xs.length = vs.length) (hpc : s.pc = pc) (ha : s.args = vs.map .val)
    (hat : At s.code pc (.localEnv n :: boxers M xs ++ is)) (hR : RelS M W σ s)
    (hE : EnvRel M W s.frames ρ renv s.env) :
    ∃ t W', Entered M P W s t W' (pc + 1 + (boxers M xs).length)
      (fresh xs σ.vars.length ++ ρ) (xs :: renv) { σ with vars := σ.vars ++ vs } := by
  subst hpc
  have h1 : step P s = some { s with
      frames := s.frames ++ [⟨vs.map .val, s.env⟩], env := some s.frames.length,
      sp := s.sp + envHdr, args := [], pc := s.pc + 1 } := by
    rw [step_at hat.left.head, exec, ha]; rfl
  have h2 := run_frame (P := P) (M := M) (fs := s.frames) (up := s.env) (xs := xs) (ws := vs)
    (s := { s with
      frames := s.frames ++ [⟨vs.map .val, s.env⟩], env := some s.frames.length,
      sp := s.sp + envHdr, args := [], pc := s.pc + 1 }) hl rfl rfl hat.left.tail
  have hE2 := EnvRel.frame hE (ws := vs) hl s.boxes.length
  rw [hR.len] at hE2
  refine ⟨_, _, Steps.step h1 h2, rfl, rfl, rfl, rfl, rfl, ?_, Keep.append _ _, Keep.append _ _,
    Rel.alloc hR hl s.env, hE2⟩
  refine ⟨⟨boxSlots M xs vs s.boxes.length, s.env⟩, ?_, rfl⟩
  · dsimp only
    rw [List.getElem?_append_right (Nat.le_refl _), Nat.sub_self]; rfl

theorem enter_rec {M P W σ σ1 ρ renv} {s : VM} {xs : List Nat} {es : List Term} {n pc : Nat}
    {is : List Instr} (hl : xs.length = es.length) (hnd : xs.Nodup) (hok : okL M es)
    (hpc : s.pc = pc) (ha : s.args = [])
    (hat : At s.code pc (.localEnvClosures n (recCodes M (xs :: renv) es) :: boxers M xs ++
      (compInits M (xs :: renv) (pc + 1 + (boxers M xs).length) xs es ++ is)))
    (hR : RelS M W σ s) (hE : EnvRel M W s.frames ρ renv s.env)
    (hinit : MainInit M P (fresh xs σ.vars.length ++ ρ)
      (recInit (fresh xs σ.vars.length ++ ρ) es σ) σ.vars.length es σ1) :
    ∃ t W', Entered M P W s t W'
      (pc + 1 + (boxers M xs).length +
        (compInits M (xs :: renv) (pc + 1 + (boxers M xs).length) xs es).length)
      (fresh xs σ.vars.length ++ ρ) (xs :: renv) σ1 := by
  subst hpc
  generalize hws : initVals es σ.clos.length = ws
  have hlw : xs.length = ws.length := by rw [← hws, initVals_length, hl]
  have hfst : (fillCodes s.frames.length (recCodes M (xs :: renv) es) s.clos).1 =
      ws.map .val := by
    rw [fillCodes_fst, hR.clen, hws]
  have h1 : step P s = some { s with
      frames := s.frames ++ [⟨ws.map .val, s.env⟩], env := some s.frames.length,
      clos := (fillCodes s.frames.length (recCodes M (xs :: renv) es) s.clos).2,
      sp := s.sp + n + envHdr, args := [], pc := s.pc + 1 } := by
    rw [step_at hat.left.head, exec, ← hfst]; rfl
  have h2 := run_frame (P := P) (M := M) (fs := s.frames) (up := s.env) (xs := xs) (ws := ws)
    (s := { s with
      frames := s.frames ++ [⟨ws.map .val, s.env⟩], env := some s.frames.length,
      clos := (fillCodes s.frames.length (recCodes M (xs :: renv) es) s.clos).2,
      sp := s.sp + n + envHdr, args := [], pc := s.pc + 1 }) hlw rfl rfl hat.left.tail
  have hE2 := EnvRel.frame hE (ws := ws) hlw s.boxes.length
  rw [hR.len] at hE2
  have hR2 := Rel.alloc hR hlw s.env
  have hR3 := Rel.fill hE2 es _ _ hok hR2
  dsimp only at hR3
  rw [recInit_eq, hws] at hinit
  have hat2 := hat.right
  rw [List.length_cons, show s.pc + ((boxers M xs).length + 1) = s.pc + 1 + (boxers M xs).length by
    omega] at hat2
  obtain ⟨t, W', q1, q2, q3, q4, q5, q6, q7, q8, q9, q10⟩ :=
    hinit hok (xs :: renv) _ (s := { s with
      frames := s.frames ++ [⟨boxSlots M xs ws s.boxes.length, s.env⟩],
      env := some s.frames.length,
      boxes := s.boxes ++ boxVals M xs ws,
      clos := (fillCodes s.frames.length (recCodes M (xs :: renv) es) s.clos).2,
      sp := s.sp + n + envHdr, args := [], pc := s.pc + 1 + (boxers M xs).length })
      xs s.frames.length _ rfl hl rfl
      (by
        intro j x hx
        rw [posIn_find, renvLookup, posIn_nodup xs hnd j x hx]
        exact ⟨rfl, rfl⟩) hat2.left hR3 hE2 rfl
  refine ⟨t, W', (Steps.step h1 h2).trans q1, q2, q3, q4, q5, q6, ?_, (Keep.append _ _).trans q8,
    ?_, q7, ?_⟩
  · obtain ⟨f', g1, g2, _⟩ := q9 s.frames.length ⟨boxSlots M xs ws s.boxes.length, s.env⟩ (by
      dsimp only
      rw [List.getElem?_append_right (Nat.le_refl _), Nat.sub_self]; rfl)
    exact ⟨f', g1, g2⟩
  · intro i f hf
    have hi := (List.getElem?_eq_some_iff.1 hf).1
    exact q10 i f (by omega) (Keep.append _ _ _ _ hf)
  · rw [q4]
    exact hE2.mono q8 q9

/-- The body, when the frame is at the bottom of the stack. -/
theorem Entered.bottom {M P W s t W' pc ρ renv σ b v σ2} {ctx : Ctx}
    (h : Entered M P W s t W' pc ρ renv σ) (hm : Main M P ρ σ b v σ2) (hok : ok M b)
    (hat : At s.code pc (comp M renv ctx pc b ++ (if ctx = .tail then [] else [.popLocalEnv]))) :
    Out M P W s ctx [] (pc + (comp M renv ctx pc b ++
      (if ctx = Ctx.tail then [] else [Instr.popLocalEnv])).length) v σ2 := by
  have ho := hm hok renv ctx W' t pc h.pc (by rw [h.code]; exact hat.left) h.rel h.erel
    (fun _ => h.args)
  by_cases hc : ctx = .tail
  · rw [if_pos hc, List.append_nil]
    subst hc
    rw [Out, if_pos rfl]
    intro hr
    exact (ho.backs (by rw [h.code]; exact hr)).pre h.steps h.conts h.keepW h.keepF
  · rw [if_neg hc] at hat ⊢
    rw [Out, if_neg hc]
    obtain ⟨u, W2, f⟩ := ho.falls hc
    obtain ⟨fr, hf, hup⟩ := h.frame
    have hat2 := hat.right
    rw [← h.code] at hat2
    have hst : step P u = some { u with env := s.env, pc := u.pc + 1 } := by
      rw [step_at (f.at hat2).head, exec, f.env, h.env]
      dsimp only
      rw [f.keepF _ _ hf]
      dsimp only
      rw [hup]
    refine ⟨_, W2, (h.steps.trans f.steps).trans (Steps.one hst), ?_, f.code.trans h.code, rfl,
      f.args.trans h.args, f.conts.trans h.conts, f.rel, h.keepW.trans f.keepW,
      h.keepF.trans f.keepF, f.val⟩
    dsimp only
    rw [f.pc, List.length_append]
    rfl

/-- The body, when it is called. -/
theorem Entered.top {M P W s t W' pc ρ renv σ b v σ2} {is : List Instr}
    (h : Entered M P W s t W' pc ρ renv σ) (hm : Main M P ρ σ b v σ2) (hok : ok M b)
    (hat : At s.code pc (comp M renv .tail pc b ++ .ret :: is)) :
    Backs M P W s v σ2 := by
  have ho := hm hok renv .tail W' t pc h.pc (by rw [h.code]; exact hat.left) h.rel h.erel
    (fun _ => h.args)
  exact (ho.backs (by rw [h.code]; exact hat.right.head)).pre h.steps h.conts h.keepW h.keepF

/-! ## Calls -/

def callCode (M : Nat → Bool) (renv : Renv) (ctx : Ctx) (pc : Nat) (f : Term) (es : List Term) :
    List Instr :=
  if headHeavy ctx f es then comp M renv ctx.normal pc f ++ simpleArgs M renv es
  else compArgs M renv ctx.normal pc es ++
    comp M renv .normalTop (pc + (compArgs M renv ctx.normal pc es).length) f

theorem comp_call (M : Nat → Bool) (renv : Renv) (ctx : Ctx) (pc : Nat) (f : Term)
    (es : List Term) :
    comp M renv ctx pc (.call f es) =
      if ctx = .tail then callCode M renv ctx pc f es ++ [.tailCall es.length]
      else .preCall (pc + 1 + (callCode M renv ctx (pc + 1) f es ++ [Instr.call es.length]).length) ::
        (callCode M renv ctx (pc + 1) f es ++ [.call es.length]) := by
  rw [comp]
  dsimp only
  by_cases hh : headHeavy ctx f es = true
  · rw [if_pos hh]
    by_cases ht : ctx = .tail
    · rw [if_pos ht, if_pos ht, callCode, if_pos hh]
    · rw [if_neg ht, if_neg ht, callCode, if_pos hh]
  · rw [if_neg hh]
    by_cases ht : ctx = .tail
    · rw [if_pos ht, if_pos ht, callCode, if_neg hh]
    · rw [if_neg ht, if_neg ht, callCode, if_neg hh]

/-- The arguments and the procedure are ready. -/
theorem call_ready {M P ρ σ σ1 σ2 f es fv vs} {renv : Renv} {ctx : Ctx} {W : List Place} {s : VM}
    {pc : Nat} (hok : ok M (.call f es)) (hrun : Run P (.evs ρ σ es vs σ1))
    (hms : Mains M P ρ σ es vs σ1) (hm : Main M P ρ σ1 f fv σ2) (hpc : s.pc = pc)
    (hat : At s.code pc (callCode M renv ctx pc f es)) (hR : RelS M W σ s)
    (hE : EnvRel M W s.frames ρ renv s.env) (ha : s.args = []) :
    Falls M P W s false (vs.map .val) (pc + (callCode M renv ctx pc f es).length) fv σ2 := by
  rw [ok] at hok
  obtain ⟨ok1, ok2, ok3⟩ := hok
  rw [callCode] at hat ⊢
  by_cases hh : headHeavy ctx f es = true
  · rw [if_pos hh] at hat ⊢
    rw [headHeavy, Bool.and_eq_true, Bool.and_eq_true] at hh
    obtain ⟨h1, h2, h3⟩ := simpleArgs_run hR hE es vs σ1 hh.2 (ok1 hh.1.2 hh.2) hrun
    subst h1
    obtain ⟨t, W1, fl⟩ := hm.norm ok2 hpc (normal_normal ctx).symm hat.left hR hE (fun _ => ha)
    have hst := h3 t fl.keepF fl.env (fl.at hat.right)
    refine ⟨_, W1, fl.steps.trans hst, ?_, fl.code, fl.env, ?_, fl.conts, fl.rel, fl.keepW, fl.keepF,
      fl.val⟩
    · dsimp only
      rw [fl.pc, List.length_append]; omega
    · dsimp only
      rw [fl.args, ha, List.nil_append]
  · rw [if_neg hh] at hat ⊢
    obtain ⟨t, W1, fl⟩ := hms.compArgs ok3 renv ctx.normal W s pc hpc (normal_normal ctx).symm
      hat.left hR hE (fun _ => ha)
    refine fl.falls ?_
    have hat2 := hat.right
    rw [← fl.code] at hat2
    have := hm.norm (ctx := .normalTop) ok2 fl.pc rfl hat2 fl.rel (fl.envRel hE) (fun h => by cases h)
    rw [fl.args, ha, List.nil_append] at this
    rw [List.length_append, ← Nat.add_assoc]
    exact this

theorem main_call {M P ρ σ σ1 σ2 σ3 f es fv vs v} (hrun : Run P (.evs ρ σ es vs σ1))
    (hms : Mains M P ρ σ es vs σ1) (hm : Main M P ρ σ1 f fv σ2) (happ : MainApp M P σ2 fv vs v σ3) :
    Main M P ρ σ (.call f es) v σ3 := by
  intro hok renv ctx W s pc hpc hat hR hE hb
  rw [comp_call] at hat ⊢
  by_cases ht : ctx = .tail
  · rw [if_pos ht] at hat ⊢
    obtain ⟨t, W1, fl⟩ := call_ready hok hrun hms hm hpc hat.left hR hE (hb (by rw [ht]; rfl))
    rw [Out, if_pos ht]
    intro _
    have hst : step P t = doCall P { t with sp := contEnd t + t.args.length } := by
      rw [step_at (fl.at hat.right).head, exec]
    have := happ.backs (W := W1) (t := t) (s := { t with sp := contEnd t + t.args.length })
      fl.rel (fl.val rfl) fl.args hst rfl rfl
    exact this.pre fl.steps fl.conts fl.keepW fl.keepF
  · rw [if_neg ht] at hat ⊢
    have hat1 := hat.tail
    subst hpc
    have hgoal := Backs.cont (M := M) (P := P) (W := W) (v := v) (σ' := σ3) hat ?_
    · refine Out.of (Falls.weak ?_ _)
      rw [List.length_cons]
      rw [show ∀ n, s.pc + (n + 1) = s.pc + 1 + n by intro n; omega]
      exact hgoal
    · obtain ⟨t, W1, fl⟩ := call_ready (s := { s with
          conts := ⟨s.env, s.args, _, s.code, s.sp, s.lim⟩ :: s.conts,
          args := [], sp := s.sp + contSize, pc := s.pc + 1 }) hok hrun hms hm rfl hat1.left hR hE
          rfl
      have hst : step P t = doCall P t := by
        rw [step_at (fl.at hat1.right).head, exec]
      have := happ.backs (W := W1) (t := t) (s := t)
        fl.rel (fl.val rfl) fl.args hst rfl rfl
      exact this.pre fl.steps fl.conts fl.keepW fl.keepF

end Gauche.Prog

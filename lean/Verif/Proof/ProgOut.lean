import Verif.Proof.ProgStep

/-!
# What running the code of a form does
-/
namespace Gauche.Prog

def RelS (M : Nat → Bool) (W : List Place) (σ : Store) (s : VM) : Prop :=
  Rel M W σ s.frames s.boxes s.clos s.globals

/-- The code ran to its end. -/
structure Fall (M : Nat → Bool) (P : Builtin) (W : List Place) (s : VM) (stmt : Bool)
    (args : List Slot) (pc : Nat) (v : Val) (σ' : Store) (s' : VM) (W' : List Place) : Prop where
  steps : Steps P s s'
  pc : s'.pc = pc
  code : s'.code = s.code
  env : s'.env = s.env
  args : s'.args = args
  conts : s'.conts = s.conts
  rel : RelS M W' σ' s'
  keepW : Keep W W'
  keepF : Keep s.frames s'.frames
  val : stmt = false → s'.val0 = .val v

def Falls (M : Nat → Bool) (P : Builtin) (W : List Place) (s : VM) (stmt : Bool)
    (args : List Slot) (pc : Nat) (v : Val) (σ' : Store) : Prop :=
  ∃ s' W', Fall M P W s stmt args pc v σ' s' W'

/-- The machine is at an instruction that returns `v`. -/
def Returning (s : VM) (v : Val) : Prop :=
  s.val0 = .val v ∧ (s.code[s.pc]? = some .ret ∨ (s.code[s.pc]? = some .rf ∧ v = .false) ∨
    (s.code[s.pc]? = some .rt ∧ v ≠ .false))

theorem val_false_iff {v : Val} : Slot.val v = Slot.val Val.false ↔ v = .false := by
  constructor
  · intro h; injection h
  · intro h; rw [h]

theorem Returning.ret {P : Builtin} {s : VM} {v : Val} (h : Returning s v) :
    step P s = ret s := by
  obtain ⟨hv, h | ⟨h, h1⟩ | ⟨h, h1⟩⟩ := h
  · rw [step_at h]; rfl
  · rw [step_at h, exec, hv, if_pos (val_false_iff.2 h1)]
  · rw [step_at h, exec, hv, if_neg (fun e => h1 (val_false_iff.1 e))]

structure Back (M : Nat → Bool) (P : Builtin) (W : List Place) (s : VM) (v : Val) (σ' : Store)
    (s' : VM) (W' : List Place) : Prop where
  steps : Steps P s s'
  conts : s'.conts = s.conts
  returning : Returning s' v
  rel : RelS M W' σ' s'
  keepW : Keep W W'
  keepF : Keep s.frames s'.frames

def Backs (M : Nat → Bool) (P : Builtin) (W : List Place) (s : VM) (v : Val) (σ' : Store) : Prop :=
  ∃ s' W', Back M P W s v σ' s' W'

/-- What the code of a form does, which ends before `pc`. -/
def Out (M : Nat → Bool) (P : Builtin) (W : List Place) (s : VM) (ctx : Ctx) (args : List Slot)
    (pc : Nat) (v : Val) (σ' : Store) : Prop :=
  if ctx = .tail then s.code[pc]? = some .ret → Backs M P W s v σ'
  else Falls M P W s ctx.isStmt args pc v σ'

theorem Out.falls {M P W s ctx args pc v σ'} (h : Out M P W s ctx args pc v σ')
    (hc : ctx ≠ .tail) : Falls M P W s ctx.isStmt args pc v σ' := by
  rw [Out, if_neg hc] at h; exact h

theorem Out.backs {M P W s args pc v σ'} (h : Out M P W s .tail args pc v σ')
    (hr : s.code[pc]? = some .ret) : Backs M P W s v σ' := by
  rw [Out, if_pos rfl] at h; exact h hr

theorem Out.of {M P W s ctx args pc v σ'} (h : Falls M P W s ctx.isStmt args pc v σ') :
    Out M P W s ctx args pc v σ' := by
  by_cases hc : ctx = .tail
  · rw [Out, if_pos hc]
    intro hr
    subst hc
    obtain ⟨s', W', f⟩ := h
    refine ⟨s', W', f.steps, f.conts, ⟨f.val rfl, .inl ?_⟩, f.rel, f.keepW, f.keepF⟩
    rw [f.code, f.pc]; exact hr
  · rw [Out, if_neg hc]; exact h

/-- The value may be ignored. -/
theorem Falls.weak {M P W s args pc v σ'} (h : Falls M P W s false args pc v σ') (b : Bool) :
    Falls M P W s b args pc v σ' := by
  obtain ⟨s', W', f⟩ := h
  exact ⟨s', W', f.steps, f.pc, f.code, f.env, f.args, f.conts, f.rel, f.keepW, f.keepF,
    fun _ => f.val rfl⟩

theorem Falls.pre {M P W W1 s t stmt args pc v σ'} (h : Falls M P W1 t stmt args pc v σ')
    (hs : Steps P s t) (hc : t.code = s.code) (he : t.env = s.env) (hk : t.conts = s.conts)
    (hW : Keep W W1) (hF : Keep s.frames t.frames) : Falls M P W s stmt args pc v σ' := by
  obtain ⟨s', W', f⟩ := h
  exact ⟨s', W', hs.trans f.steps, f.pc, f.code.trans hc, f.env.trans he, f.args,
    f.conts.trans hk, f.rel, hW.trans f.keepW, hF.trans f.keepF, f.val⟩

theorem Backs.pre {M P W W1 s t v σ'} (h : Backs M P W1 t v σ')
    (hs : Steps P s t) (hk : t.conts = s.conts)
    (hW : Keep W W1) (hF : Keep s.frames t.frames) : Backs M P W s v σ' := by
  obtain ⟨s', W', f⟩ := h
  exact ⟨s', W', hs.trans f.steps, f.conts.trans hk, f.returning, f.rel, hW.trans f.keepW,
    hF.trans f.keepF⟩

theorem Out.pre {M P W W1 s t ctx args pc v σ'} (h : Out M P W1 t ctx args pc v σ')
    (hs : Steps P s t) (hc : t.code = s.code) (he : t.env = s.env) (hk : t.conts = s.conts)
    (hW : Keep W W1) (hF : Keep s.frames t.frames) : Out M P W s ctx args pc v σ' := by
  by_cases ht : ctx = .tail
  · rw [Out, if_pos ht] at h ⊢
    intro hr
    rw [← hc] at hr
    exact (h hr).pre hs hk hW hF
  · rw [Out, if_neg ht] at h ⊢
    exact h.pre hs hc he hk hW hF

theorem Fall.envRel {M P W s stmt args pc v σ' s' W' ρ renv}
    (f : Fall M P W s stmt args pc v σ' s' W') (h : EnvRel M W s.frames ρ renv s.env) :
    EnvRel M W' s'.frames ρ renv s'.env := by
  rw [f.env]; exact h.mono f.keepW f.keepF.ext

/-- Falls through, then more. -/
theorem Fall.out {M P W s stmt args pc v σ' s' W' ctx args2 pc2 v2 σ2}
    (f : Fall M P W s stmt args pc v σ' s' W') (h : Out M P W' s' ctx args2 pc2 v2 σ2) :
    Out M P W s ctx args2 pc2 v2 σ2 :=
  h.pre f.steps f.code f.env f.conts f.keepW f.keepF

theorem Fall.falls {M P W s stmt args pc v σ' s' W' stmt2 args2 pc2 v2 σ2}
    (f : Fall M P W s stmt args pc v σ' s' W') (h : Falls M P W' s' stmt2 args2 pc2 v2 σ2) :
    Falls M P W s stmt2 args2 pc2 v2 σ2 :=
  h.pre f.steps f.code f.env f.conts f.keepW f.keepF

/-- The code after. -/
theorem Fall.at {M P W s stmt args pc v σ' s' W' is}
    (f : Fall M P W s stmt args pc v σ' s' W') (h : At s.code pc is) :
    At s'.code s'.pc is := by rw [f.code, f.pc]; exact h

/-- `PUSH` -/
theorem step_push {P : Builtin} {s : VM} {is : List Instr} (h : At s.code s.pc (.push :: is)) :
    step P s = some { s with args := s.args ++ [s.val0], sp := s.sp + 1, pc := s.pc + 1 } := by
  rw [step_at h.head]; rfl

/-! ## The claims -/

/-- The code of `e` does what the semantics says. -/
def Main (M : Nat → Bool) (P : Builtin) (ρ : Env) (σ : Store) (e : Term) (v : Val) (σ' : Store) :
    Prop :=
  ok M e → ∀ (renv : Renv) (ctx : Ctx) (W : List Place) (s : VM) (pc : Nat), s.pc = pc →
    At s.code pc (comp M renv ctx pc e) → RelS M W σ s → EnvRel M W s.frames ρ renv s.env →
    (ctx.bottom = true → s.args = []) →
    Out M P W s ctx s.args (pc + (comp M renv ctx pc e).length) v σ'

def MainSeq (M : Nat → Bool) (P : Builtin) (ρ : Env) (σ : Store) (es : List Term) (v : Val)
    (σ' : Store) : Prop :=
  okL M es → ∀ (renv : Renv) (ctx : Ctx) (W : List Place) (s : VM) (pc : Nat), s.pc = pc →
    At s.code pc (compSeq M renv ctx pc es) → RelS M W σ s → EnvRel M W s.frames ρ renv s.env →
    (ctx.bottom = true → s.args = []) →
    Out M P W s ctx s.args (pc + (compSeq M renv ctx pc es).length) v σ'

/-- One after the other. -/
inductive Mains (M : Nat → Bool) (P : Builtin) (ρ : Env) :
    Store → List Term → List Val → Store → Prop where
  | nil {σ} : Mains M P ρ σ [] [] σ
  | cons {σ σ1 σ2 e es v vs} : Run P (.ev ρ σ e v σ1) → Main M P ρ σ e v σ1 →
      Mains M P ρ σ1 es vs σ2 → Mains M P ρ σ (e :: es) (v :: vs) σ2

theorem Mains.length {M P ρ σ es vs σ'} (h : Mains M P ρ σ es vs σ') : es.length = vs.length := by
  induction h with
  | nil => rfl
  | cons _ _ _ ih => rw [List.length_cons, List.length_cons, ih]

/-- A procedure is called. -/
def MainApp (M : Nat → Bool) (P : Builtin) (σ : Store) (f : Val) (vs : List Val) (v : Val)
    (σ' : Store) : Prop :=
  ∀ (W : List Place) (s : VM), RelS M W σ s → s.val0 = .val f → s.args = vs.map .val →
    ∃ s1, doCall P s = some s1 ∧ ∃ s' W', Steps P s1 s' ∧ s'.conts = s.conts ∧ Returning s' v ∧
      RelS M W' σ' s' ∧ Keep W W' ∧ Keep s.frames s'.frames

theorem MainApp.backs {M P σ f vs v σ'} (h : MainApp M P σ f vs v σ') {W : List Place} {s t : VM}
    (hR : RelS M W σ s) (hf : s.val0 = .val f) (ha : s.args = vs.map .val)
    (hst : step P t = doCall P s) (hk : t.conts = s.conts) (hfr : t.frames = s.frames) :
    Backs M P W t v σ' := by
  obtain ⟨s1, h1, s', W', h2, h3, h4, h5, h6, h7⟩ := h W s hR hf ha
  exact ⟨s', W', .step (hst.trans h1) h2, h3.trans hk.symm, h4, h5, h6, by rw [hfr]; exact h7⟩

theorem normal_ne (ctx : Ctx) : ctx.normal ≠ .tail := by cases ctx <;> decide
theorem normal_stmt (ctx : Ctx) : ctx.normal.isStmt = false := by cases ctx <;> rfl
theorem normal_bottom (ctx : Ctx) : ctx.normal.bottom = ctx.bottom := by cases ctx <;> rfl
theorem normal_normal (ctx : Ctx) : ctx.normal.normal = ctx.normal := by cases ctx <;> rfl
theorem stmt_ne (ctx : Ctx) : ctx.stmt ≠ .tail := by cases ctx <;> decide
theorem stmt_bottom (ctx : Ctx) : ctx.stmt.bottom = ctx.bottom := by cases ctx <;> rfl

/-- In a context that is not a tail and not a statement. -/
theorem Main.norm {M P ρ σ e v σ'} (h : Main M P ρ σ e v σ') (hok : ok M e) {renv : Renv}
    {ctx : Ctx} {W : List Place} {s : VM} {pc : Nat} (hpc : s.pc = pc) (hctx : ctx = ctx.normal)
    (hat : At s.code pc (comp M renv ctx pc e)) (hR : RelS M W σ s)
    (hE : EnvRel M W s.frames ρ renv s.env) (hb : ctx.bottom = true → s.args = []) :
    Falls M P W s false s.args (pc + (comp M renv ctx pc e).length) v σ' := by
  have := (h hok renv ctx W s pc hpc hat hR hE hb).falls (by rw [hctx]; exact normal_ne _)
  rw [hctx, normal_stmt, ← hctx] at this
  exact this

/-- `pass5/prepare-args` -/
theorem Mains.compArgs {M P ρ σ es vs σ'} (h : Mains M P ρ σ es vs σ') : okL M es →
    ∀ (renv : Renv) (ctx : Ctx) (W : List Place) (s : VM) (pc : Nat), s.pc = pc →
    ctx = ctx.normal → At s.code pc (compArgs M renv ctx pc es) → RelS M W σ s →
    EnvRel M W s.frames ρ renv s.env → (ctx.bottom = true → s.args = []) →
    Falls M P W s true (s.args ++ vs.map .val) (pc + (compArgs M renv ctx pc es).length)
      .undef σ' := by
  induction h with
  | nil =>
    intro _ renv ctx W s pc hpc _ _ hR _ _
    refine ⟨s, W, .refl, ?_, rfl, rfl, ?_, rfl, hR, Keep.refl _, Keep.refl _, fun h => by cases h⟩
    · rw [Prog.compArgs, hpc]; rfl
    · rw [List.map_nil, List.append_nil]
  | @cons σ0 σ1 σ2 e es v vs _ hm _ ih =>
    intro hok renv ctx W s pc hpc hctx hat hR hE hb
    rw [okL] at hok
    rw [Prog.compArgs] at hat ⊢
    try dsimp only at hat ⊢
    obtain ⟨s1, W1, f⟩ := hm.norm hok.1 hpc hctx hat.left hR hE hb
    refine f.falls ?_
    have hp := f.at hat.right
    have hst := step_push (P := P) hp
    have hp2 := hp.tail
    have := ih hok.2 renv .normalTop W1
      { s1 with args := s1.args ++ [s1.val0], sp := s1.sp + 1, pc := s1.pc + 1 }
      (pc + (comp M renv ctx pc e).length + 1) (by dsimp only; rw [f.pc]) rfl
      (by dsimp only; rw [f.pc] at hp2; exact hp2) f.rel (f.envRel hE) (fun h => by cases h)
    have h2 := this.pre (s := s1) (Steps.one hst) rfl rfl rfl (Keep.refl _) (Keep.refl _)
    dsimp only at h2
    rw [f.args, f.val rfl, List.append_assoc] at h2
    rw [List.length_append, List.length_cons]
    have e1 : ∀ a b c : Nat, a + (b + (c + 1)) = a + b + 1 + c := by intros; omega
    rw [e1]
    exact h2

/-- `pass5/asm-generic`, `%pass5/builtin-nargs` -/
theorem Mains.compPrim {M P ρ σ es vs σ'} (h : Mains M P ρ σ es vs σ') : okL M es → es ≠ [] →
    ∃ ws w, vs = ws ++ [w] ∧
    ∀ (renv : Renv) (ctx : Ctx) (W : List Place) (s : VM) (pc : Nat), s.pc = pc →
    ctx = ctx.normal → At s.code pc (compPrim M renv ctx pc es) → RelS M W σ s →
    EnvRel M W s.frames ρ renv s.env → (ctx.bottom = true → s.args = []) →
    Falls M P W s false (s.args ++ ws.map .val) (pc + (compPrim M renv ctx pc es).length)
      w σ' := by
  induction h with
  | nil => intro _ h; exact absurd rfl h
  | @cons σ0 σ1 σ2 e es v vs _ hm hms ih =>
    intro hok _
    rw [okL] at hok
    cases hms with
    | nil =>
      refine ⟨[], v, rfl, ?_⟩
      intro renv ctx W s pc hpc hctx hat hR hE hb
      rw [Prog.compPrim] at hat ⊢
      rw [List.map_nil, List.append_nil]
      exact hm.norm hok.1 hpc hctx hat hR hE hb
    | @cons _ _ _ e' es' _ _ _ _ _ =>
      obtain ⟨ws, w, hws, hrun⟩ := ih hok.2 (by intro h; cases h)
      refine ⟨v :: ws, w, by rw [hws]; rfl, ?_⟩
      intro renv ctx W s pc hpc hctx hat hR hE hb
      rw [Prog.compPrim] at hat ⊢
      · try dsimp only at hat ⊢
        obtain ⟨s1, W1, f⟩ := hm.norm hok.1 hpc hctx hat.left hR hE hb
        refine f.falls ?_
        have hp := f.at hat.right
        have hst := step_push (P := P) hp
        have hp2 := hp.tail
        have := hrun renv .normalTop W1
          { s1 with args := s1.args ++ [s1.val0], sp := s1.sp + 1, pc := s1.pc + 1 }
          (pc + (comp M renv ctx pc e).length + 1) (by dsimp only; rw [f.pc]) rfl
          (by dsimp only; rw [f.pc] at hp2; exact hp2) f.rel (f.envRel hE) (fun h => by cases h)
        have h2 := this.pre (s := s1) (Steps.one hst) rfl rfl rfl (Keep.refl _) (Keep.refl _)
        dsimp only at h2
        rw [f.args, f.val rfl, List.append_assoc] at h2
        rw [List.length_append, List.length_cons]
        have e1 : ∀ a b c : Nat, a + (b + (c + 1)) = a + b + 1 + c := by intros; omega
        rw [e1]
        exact h2
      all_goals (intro h; cases h)

end Gauche.Prog

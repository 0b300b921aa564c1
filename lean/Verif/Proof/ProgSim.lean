import Verif.Proof.ProgLet

/-!
# The simulation
-/
namespace Gauche.Prog

theorem comp_letv (M : Nat → Bool) (renv : Renv) (ctx : Ctx) (pc : Nat) (xs : List Nat)
    (es : List Term) (b : Term) (q : Nat) (ca : List Instr) (hq : q = if ctx.bottom then pc else pc + 1)
    (hca : ca = compArgs M renv ctx.normal q es) :
    comp M renv ctx pc (.letv xs es b) =
      if ctx.bottom then
        ca ++ (.localEnv xs.length :: boxers M xs ++
          (comp M (xs :: renv) ctx (q + ca.length + 1 + (boxers M xs).length) b ++
            (if ctx = .tail then [] else [.popLocalEnv])))
      else
        let c := ca ++ (.localEnv xs.length :: boxers M xs ++
          (comp M (xs :: renv) .tail (q + ca.length + 1 + (boxers M xs).length) b ++ [.ret]))
        .preCall (q + c.length) :: c := by
  rw [comp]
  dsimp only
  by_cases hb : ctx.bottom = true
  · rw [if_pos hb] at hq ⊢
    subst hq
    rw [← hca, if_pos hb]
    rw [show q + ca.length + 1 + (boxers M xs).length =
      q + (ca ++ .localEnv xs.length :: boxers M xs).length by
        rw [List.length_append, List.length_cons]; omega]
    simp
  · rw [if_neg hb] at hq ⊢
    subst hq
    rw [← hca, if_neg hb]
    rw [show pc + 1 + ca.length + 1 + (boxers M xs).length =
      pc + 1 + (ca ++ .localEnv xs.length :: boxers M xs).length by
        rw [List.length_append, List.length_cons]; omega]
    simp

theorem main_letv {M P ρ σ σ1 σ2 xs es b vs v} (hms : Mains M P ρ σ es vs σ1)
    (hm : Main M P (fresh xs σ1.vars.length ++ ρ) { σ1 with vars := σ1.vars ++ vs } b v σ2) :
    Main M P ρ σ (.letv xs es b) v σ2 := by
  intro hok renv ctx W s pc hpc hat hR hE hb
  rw [ok] at hok
  obtain ⟨ok1, ok2, ok3⟩ := hok
  have hl : xs.length = vs.length := ok1.trans hms.length
  rw [comp_letv M renv ctx pc xs es b _ _ rfl rfl] at hat ⊢
  by_cases hbt : ctx.bottom = true
  · rw [if_pos hbt] at hat ⊢
    have ha := hb hbt
    obtain ⟨t, W1, fl⟩ := hms.compArgs ok2 renv ctx.normal W s pc hpc (normal_normal ctx).symm
      (by rw [if_pos hbt] at hat; exact hat.left) hR hE (fun _ => ha)
    refine fl.out ?_
    rw [if_pos hbt] at hat ⊢
    have hat1 := hat.right
    rw [← fl.code] at hat1
    obtain ⟨u, W2, en⟩ := enter_let (P := P) hl fl.pc (by rw [fl.args, ha, List.nil_append]) hat1
      fl.rel (fl.envRel hE)
    have hat2 := hat1.right
    rw [List.length_cons] at hat2
    rw [show ∀ n m : Nat, n + (m + 1) = n + 1 + m by intros; omega] at hat2
    have := en.bottom hm ok3 hat2
    rw [ha]
    rw [List.length_append, List.length_append, List.length_cons,
      show ∀ a b c d : Nat, a + (b + (c + 1 + d)) = a + b + 1 + c + d by intros; omega]
    exact this
  · rw [if_neg hbt] at hat ⊢
    dsimp only at hat ⊢
    refine Out.of (Falls.weak ?_ _)
    have hat0 := hat.tail
    subst hpc
    have hgoal := Backs.cont (M := M) (P := P) (W := W) (v := v) (σ' := σ2) hat ?_
    · rw [if_neg hbt] at hgoal ⊢
      rw [List.length_cons]
      rw [show ∀ n, s.pc + (n + 1) = s.pc + 1 + n by intro n; omega]
      exact hgoal
    · rw [if_neg hbt] at hat0
      obtain ⟨t, W1, fl⟩ := hms.compArgs ok2 renv ctx.normal W { s with
          conts := ⟨s.env, s.args, _, s.code, s.sp, s.lim⟩ :: s.conts,
          args := [], sp := s.sp + contSize, pc := s.pc + 1 } (s.pc + 1) rfl
          (normal_normal ctx).symm hat0.left hR hE (fun _ => rfl)
      have hat1 := hat0.right
      have hcode : t.code = s.code := fl.code
      rw [← hcode] at hat1
      obtain ⟨u, W2, en⟩ := enter_let (P := P) hl fl.pc (by rw [fl.args, List.nil_append]) hat1
        fl.rel (fl.envRel hE)
      have hat2 := hat1.right
      rw [List.length_cons] at hat2
      rw [show ∀ n m : Nat, n + (m + 1) = n + 1 + m by intros; omega] at hat2
      exact (en.top hm ok3 hat2).pre fl.steps fl.conts fl.keepW fl.keepF

theorem comp_letrec (M : Nat → Bool) (renv : Renv) (ctx : Ctx) (pc : Nat) (xs : List Nat)
    (es : List Term) (b : Term) (q : Nat) (ci : List Instr) (hq : q = if ctx.bottom then pc else pc + 1)
    (hci : ci = compInits M (xs :: renv) (q + 1 + (boxers M xs).length) xs es) :
    comp M renv ctx pc (.letrec xs es b) =
      if ctx.bottom then
        .localEnvClosures xs.length (recCodes M (xs :: renv) es) :: boxers M xs ++ (ci ++
          (comp M (xs :: renv) ctx (q + 1 + (boxers M xs).length + ci.length) b ++
            (if ctx = .tail then [] else [.popLocalEnv])))
      else
        let c := .localEnvClosures xs.length (recCodes M (xs :: renv) es) :: boxers M xs ++ (ci ++
          (comp M (xs :: renv) .tail (q + 1 + (boxers M xs).length + ci.length) b ++ [.ret]))
        .preCall (q + c.length) :: c := by
  rw [comp]
  dsimp only
  by_cases hb : ctx.bottom = true
  · rw [if_pos hb] at hq ⊢
    subst hq
    rw [List.length_cons, show q + ((boxers M xs).length + 1) = q + 1 + (boxers M xs).length by
      omega, ← hci, if_pos hb]
    simp
  · rw [if_neg hb] at hq ⊢
    subst hq
    rw [List.length_cons, show pc + 1 + ((boxers M xs).length + 1) =
      pc + 1 + 1 + (boxers M xs).length by omega, ← hci, if_neg hb]
    simp

theorem main_letrec {M P ρ σ σ1 σ2 xs es b v}
    (hinit : MainInit M P (fresh xs σ.vars.length ++ ρ)
      (recInit (fresh xs σ.vars.length ++ ρ) es σ) σ.vars.length es σ1)
    (hm : Main M P (fresh xs σ.vars.length ++ ρ) σ1 b v σ2) :
    Main M P ρ σ (.letrec xs es b) v σ2 := by
  intro hok renv ctx W s pc hpc hat hR hE hb
  rw [ok] at hok
  obtain ⟨ok1, ok2, ok3, ok4⟩ := hok
  rw [comp_letrec M renv ctx pc xs es b _ _ rfl rfl] at hat ⊢
  by_cases hbt : ctx.bottom = true
  · rw [if_pos hbt] at hat ⊢
    rw [if_pos hbt] at hat ⊢
    have ha := hb hbt
    obtain ⟨u, W2, en⟩ := enter_rec (P := P) ok1 ok2 ok3 hpc ha hat hR hE hinit
    have hat2 := hat.right.right
    rw [List.length_cons] at hat2
    rw [show ∀ n m : Nat, n + (m + 1) = n + 1 + m by intros; omega] at hat2
    have := en.bottom hm ok4 hat2
    rw [ha]
    rw [List.length_append, List.length_append, List.length_cons,
      show ∀ a b c d : Nat, a + (b + 1 + (c + d)) = a + 1 + b + c + d by intros; omega]
    exact this
  · rw [if_neg hbt] at hat ⊢
    dsimp only at hat ⊢
    refine Out.of (Falls.weak ?_ _)
    have hat0 := hat.tail
    subst hpc
    have hgoal := Backs.cont (M := M) (P := P) (W := W) (v := v) (σ' := σ2) hat ?_
    · rw [if_neg hbt] at hgoal ⊢
      rw [List.length_cons]
      rw [show ∀ n, s.pc + (n + 1) = s.pc + 1 + n by intro n; omega]
      exact hgoal
    · rw [if_neg hbt] at hat0
      obtain ⟨u, W2, en⟩ := enter_rec (P := P) (s := { s with
          conts := ⟨s.env, s.args, _, s.code, s.sp, s.lim⟩ :: s.conts,
          args := [], sp := s.sp + contSize, pc := s.pc + 1 }) ok1 ok2 ok3 rfl rfl hat0 hR hE hinit
      have hat2 := hat0.right.right
      rw [List.length_cons] at hat2
      rw [show ∀ n m : Nat, n + (m + 1) = n + 1 + m by intros; omega] at hat2
      exact en.top hm ok4 hat2

/-! ## Simple forms -/

theorem Falls.one {M P W σ'} {s t : VM} {stmt : Bool} {args : List Slot} {pc : Nat} {v : Val}
    (h : step P s = some t)
    (h1 : t.pc = pc) (h2 : t.code = s.code) (h3 : t.env = s.env) (h4 : t.args = args)
    (h5 : t.conts = s.conts) (h6 : RelS M W σ' t) (h7 : t.frames = s.frames)
    (h8 : stmt = false → t.val0 = .val v) : Falls M P W s stmt args pc v σ' :=
  ⟨t, W, Steps.one h, h1, h2, h3, h4, h5, h6, Keep.refl _, by rw [h7]; exact Keep.refl _, h8⟩

theorem main_const {M P ρ σ k} : Main M P ρ σ (.const k) (.atom k) σ := by
  intro _ renv ctx W s pc hpc hat hR _ _
  rw [comp] at hat ⊢
  refine Out.of ?_
  by_cases hs : ctx.isStmt = true
  · rw [if_pos hs]
    exact ⟨s, W, .refl, hpc, rfl, rfl, rfl, rfl, hR, Keep.refl _, Keep.refl _,
      fun h => by rw [hs] at h; cases h⟩
  · rw [if_neg hs] at hat ⊢
    subst hpc
    exact Falls.one (t := { s with val0 := .val (.atom k), pc := s.pc + 1 })
      (by rw [step_at hat.head, exec]) rfl rfl rfl rfl rfl hR rfl (fun _ => rfl)

theorem main_lref {M P ρ σ x l v} (hx : Env.find x ρ = some l) (hv : σ.vars[l]? = some v) :
    Main M P ρ σ (.lref x) v σ := by
  intro _ renv ctx W s pc hpc hat hR hE _
  rw [comp] at hat ⊢
  subst hpc
  refine Out.of ?_
  by_cases hm : M x = true
  · rw [if_pos hm] at hat ⊢
    obtain ⟨b, b1, b2⟩ := envData_box hE hx hm
    have hb := hR.box l b b2
    have h1 : step P s = some { s with val0 := .box b, pc := s.pc + 1 } := by
      rw [step_at hat.head, exec, b1]
    have h2 : step P { s with val0 := .box b, pc := s.pc + 1 } =
        some { s with val0 := .val v, pc := s.pc + 1 + 1 } := by
      rw [step_at (i := .unbox) hat.tail.head, exec]
      dsimp only
      rw [hb, hv]
    exact ⟨_, W, .step h1 (Steps.one h2), rfl, rfl, rfl, rfl, rfl, hR, Keep.refl _, Keep.refl _,
      fun _ => rfl⟩
  · rw [if_neg hm] at hat ⊢
    have hm : M x = false := by revert hm; cases M x <;> simp
    have b1 := envData_slot hR hE hx hv hm
    exact Falls.one (t := { s with val0 := .val v, pc := s.pc + 1 })
      (by rw [step_at hat.head, exec, b1]) rfl rfl rfl rfl rfl hR rfl (fun _ => rfl)

theorem main_gref {M P ρ σ g v} (hg : σ.globals g = some v) : Main M P ρ σ (.gref g) v σ := by
  intro _ renv ctx W s pc hpc hat hR _ _
  rw [comp] at hat ⊢
  subst hpc
  have h1 : s.globals g = some v := by rw [hR.glob]; exact hg
  exact Out.of (Falls.one (t := { s with val0 := .val v, pc := s.pc + 1 })
    (by rw [step_at hat.head, exec, h1]) rfl rfl rfl rfl rfl hR rfl
    (fun _ => rfl))

theorem main_lset {M P ρ σ σ1 x e v l} (hm : Main M P ρ σ e v σ1) (hx : Env.find x ρ = some l) :
    Main M P ρ σ (.lset x e) v { σ1 with vars := σ1.vars.set l v } := by
  intro hok renv ctx W s pc hpc hat hR hE hb
  rw [ok] at hok
  rw [comp] at hat ⊢
  obtain ⟨t, W1, fl⟩ := hm.norm hok.2 hpc (normal_normal ctx).symm hat.left hR hE
    (by rw [normal_bottom]; exact hb)
  refine fl.out (Out.of ?_)
  obtain ⟨b, b1, b2⟩ := envData_box (fl.envRel hE) hx hok.1
  refine Falls.one (t := { t with boxes := t.boxes.set b v, pc := t.pc + 1 }) ?_ ?_ rfl rfl fl.args
    rfl (Rel.setBox fl.rel b2) rfl (fun _ => fl.val rfl)
  · rw [step_at (fl.at hat.right).head, exec, b1, fl.val rfl]
  · dsimp only
    rw [fl.pc, List.length_append]; rfl

theorem main_gset {M P ρ σ σ1 g e v} (hm : Main M P ρ σ e v σ1) :
    Main M P ρ σ (.gset g e) v { σ1 with globals := setGlobal σ1.globals g v } := by
  intro hok renv ctx W s pc hpc hat hR hE hb
  rw [ok] at hok
  rw [comp] at hat ⊢
  obtain ⟨t, W1, fl⟩ := hm.norm hok hpc (normal_normal ctx).symm hat.left hR hE
    (by rw [normal_bottom]; exact hb)
  refine fl.out (Out.of ?_)
  refine Falls.one (t := { t with globals := setGlobal t.globals g v, pc := t.pc + 1 }) ?_ ?_ rfl rfl
    fl.args rfl (Rel.setGlob fl.rel g v) rfl (fun _ => fl.val rfl)
  · rw [step_at (fl.at hat.right).head, exec, fl.val rfl]
  · dsimp only
    rw [fl.pc, List.length_append]; rfl

theorem main_lam {M P ρ σ xs opt b} : Main M P ρ σ (.lam xs opt b) (.clos σ.clos.length)
    { σ with clos := σ.clos ++ [⟨ρ, xs, opt, b⟩] } := by
  intro hok renv ctx W s pc hpc hat hR hE _
  rw [comp] at hat ⊢
  subst hpc
  refine Out.of (Falls.one (t := { s with
      val0 := .val (.clos s.clos.length),
      clos := s.clos ++ [⟨if opt then xs.length - 1 else xs.length, opt, depth .tail b,
        boxers M xs ++ comp M (extRenv xs renv) .tail (boxers M xs).length b ++ [.ret], s.env⟩],
      pc := s.pc + 1 }) (by rw [step_at hat.head, lamInstr, exec]) rfl rfl rfl rfl rfl
    (Rel.addClos hR (c := ⟨ρ, xs, opt, b⟩) ⟨renv, hok, hE, rfl⟩) rfl (fun _ => ?_))
  rw [hR.clen]

theorem main_prim {M P ρ σ σ1 op es vs v} (hms : Mains M P ρ σ es vs σ1)
    (hp : primVal P op vs = some v) : Main M P ρ σ (.prim op es) v σ1 := by
  intro hok renv ctx W s pc hpc hat hR hE hb
  rw [ok] at hok
  rw [comp] at hat ⊢
  obtain ⟨ws, w, hvs, hrun⟩ := hms.compPrim hok.2 hok.1
  obtain ⟨t, W1, fl⟩ := hrun renv (if op = .eq then ctx.normal else .normalTop) W s pc hpc
    (by split
        · exact (normal_normal ctx).symm
        · rfl) hat.left hR hE
    (by split
        · rw [normal_bottom]; exact hb
        · intro h; cases h)
  refine fl.out (Out.of ?_)
  have hn : es.length - 1 = ws.length := by
    rw [hms.length, hvs, List.length_append]; rfl
  have hlen : t.args.length - (es.length - 1) = s.args.length := by
    rw [fl.args, hn, List.length_append, List.length_map, Nat.add_sub_cancel]
  refine Falls.one (t := { t with val0 := .val v, args := s.args, sp := t.sp - (es.length - 1),
                                  pc := t.pc + 1 }) ?_ ?_ rfl rfl rfl
    rfl fl.rel rfl (fun _ => rfl)
  · rw [step_at (fl.at hat.right).head, exec, hlen, fl.args, fl.val rfl,
      List.drop_append_of_le_length (Nat.le_refl _), List.drop_length, List.nil_append,
      slotVals_map1]
    dsimp only
    rw [← hvs, hp]
    dsimp only
    rw [List.take_append_of_le_length (Nat.le_refl _), List.take_length]
  · dsimp only
    rw [fl.pc, List.length_append]; rfl

/-! ## Conditionals -/

theorem comp_ite_gen (M : Nat → Bool) (renv : Renv) (ctx : Ctx) (pc : Nat) (a b c : Term)
    (h1 : ∀ k, a ≠ .const k) (h2 : ∀ x, a ≠ .prim .nullp [x]) (h3 : ∀ x y, a ≠ .prim .eq [x, y]) :
    comp M renv ctx pc (.ite a b c) =
      comp M renv ctx.normal pc a ++ ifFinal ctx true b c .bf (fun p => comp M renv ctx p b)
        (fun p => comp M renv ctx p c) (pc + (comp M renv ctx.normal pc a).length) := by
  rw [comp]
  · exact h1
  · exact h2
  · exact h3

theorem bool_false (b : Bool) : Val.bool b = .false ↔ b = false := by cases b <;> simp [Val.bool, Val.false]

/-- A combined test and branch. -/
theorem branchStar_eq {s0 t : VM} {eq : Bool} {l : Nat} (ht : t = { s0 with val0 := .val (.bool eq) }) :
    branchStar s0 (!eq) l =
      if Val.bool eq = .false then { t with pc := l } else { t with pc := s0.pc + 1 } := by
  subst ht
  rw [branchStar]
  cases eq with
  | true => rw [if_neg (by decide), if_neg (by decide)]
  | false => rw [if_pos (by decide), if_pos (by decide)]; rfl

theorem slot_ne (a b : Val) : (Slot.val a != Slot.val b) = !(a == b) := by
  by_cases h : a = b
  · subst h; simp
  · have : Slot.val a ≠ Slot.val b := fun e => h (by injection e)
    rw [bne, beq_eq_false_iff_ne.2 this, beq_eq_false_iff_ne.2 h]

theorem constOf_some {x : Term} {k : Nat} (h : constOf x = some k) : x = .const k := by
  cases x <;> simp_all [constOf]

theorem main_ite {M P ρ σ σ1 σ2 a b c v w}
    (hrun : Run P (.ev ρ σ a v σ1)) (hm : Main M P ρ σ a v σ1)
    (hprim : ∀ op es, a = .prim op es → ∃ vs, primVal P op vs = some v ∧ Mains M P ρ σ es vs σ1)
    (hB : Branch M P ρ σ1 v (if v = .false then c else b) w σ2) :
    Main M P ρ σ (.ite a b c) w σ2 := by
  intro hok renv ctx W s pc hpc hat hR hE hb
  rw [ok] at hok
  obtain ⟨oka, okb, okc⟩ := hok
  by_cases h1 : ∃ k, a = .const k
  · obtain ⟨k, rfl⟩ := h1
    cases hrun
    rw [comp] at hat ⊢
    have key : ∀ e : Term, Branch M P ρ σ (.atom k) e w σ2 → ok M e →
        At s.code pc (if isIt e then (if ctx.isStmt then [] else [.const k]) else comp M renv ctx pc e) →
        Out M P W s ctx s.args (pc +
          (if isIt e then (if ctx.isStmt then [] else [Instr.const k]) else comp M renv ctx pc e).length)
          w σ2 := by
      intro e hBe hoke hate
      by_cases hi : isIt e = true
      · rw [if_pos hi] at hate ⊢
        rcases hBe with ⟨_, h2, h3⟩ | ⟨h2, _⟩
        · subst h2 h3
          refine Out.of ?_
          by_cases hs : ctx.isStmt = true
          · rw [if_pos hs]
            exact ⟨s, W, .refl, hpc, rfl, rfl, rfl, rfl, hR, Keep.refl _, Keep.refl _,
              fun h => by rw [hs] at h; cases h⟩
          · rw [if_neg hs] at hate ⊢
            subst hpc
            exact Falls.one (t := { s with val0 := .val (.atom k), pc := s.pc + 1 })
              (by rw [step_at hate.head, exec]) rfl rfl rfl rfl rfl hR rfl
              (fun _ => rfl)
        · exact absurd ((isIt_iff e).1 hi) h2
      · rw [if_neg hi] at hate ⊢
        rcases hBe with ⟨h2, _⟩ | ⟨_, h2⟩
        · exact absurd ((isIt_iff e).2 h2) hi
        · exact h2 hoke renv ctx W s pc hpc hate hR hE hb
    by_cases hk : k = 0
    · rw [if_pos hk] at hat ⊢
      have : Val.atom k = Val.false := by rw [hk]; rfl
      rw [if_pos this] at hB
      exact key c hB okc hat
    · rw [if_neg hk] at hat ⊢
      have : Val.atom k ≠ Val.false := by intro h; injection h with h; exact hk h
      rw [if_neg this] at hB
      exact key b hB okb hat
  by_cases h2 : ∃ x, a = .prim .nullp [x]
  · obtain ⟨x, rfl⟩ := h2
    obtain ⟨vs, hpv, hms⟩ := hprim _ _ rfl
    rw [ok, okL] at oka
    cases hms with
    | @cons _ _ _ _ _ vx _ _ hx hnil =>
    cases hnil
    rw [primVal] at hpv
    injection hpv with hpv
    rw [comp] at hat ⊢
    try dsimp only at hat ⊢
    obtain ⟨t, W1, fl⟩ := hx.norm oka.2.1 hpc (normal_normal ctx).symm hat.left hR hE
      (by rw [normal_bottom]; exact hb)
    refine fl.out ?_
    have hat1 := hat.right
    rw [← fl.code] at hat1
    have := ifFinal_run (P := P) (s := t) (t := { t with val0 := .val v }) hB okb okc fl.pc hat1
      (by
        intro l hl
        rw [step_at hl, exec, fl.val rfl, slot_ne, ← hpv, branchStar_eq rfl, fl.pc])
      (by intro h; cases h) rfl rfl rfl rfl rfl fl.rel (fl.envRel hE)
      (by intro h; dsimp only; rw [fl.args]; exact hb h)
    dsimp only at this
    rw [fl.args] at this
    rw [List.length_append, ← Nat.add_assoc]
    exact this
  by_cases h3 : ∃ x y, a = .prim .eq [x, y]
  · obtain ⟨x, y, rfl⟩ := h3
    obtain ⟨vs, hpv, hms⟩ := hprim _ _ rfl
    rw [ok, okL, okL] at oka
    obtain ⟨_, okx, oky, _⟩ := oka
    cases hms with
    | @cons _ σx _ _ _ vx _ rx hx hrest =>
    cases hrest with
    | @cons _ σy _ _ _ vy _ ry hy hnil =>
    cases hnil
    rw [primVal] at hpv
    injection hpv with hpv
    rw [comp] at hat ⊢
    cases hcx : constOf x with
    | some k =>
      rw [hcx] at hat
      dsimp only at hat ⊢
      have := constOf_some hcx
      subst this
      cases rx
      obtain ⟨t, W1, fl⟩ := hy.norm oky hpc (normal_normal ctx).symm hat.left hR hE
        (by rw [normal_bottom]; exact hb)
      refine fl.out ?_
      have hat1 := hat.right
      rw [← fl.code] at hat1
      have hv : v = .bool (vy == .atom k) := by
        rw [← hpv]
        congr 1
        exact BEq.comm
      have := ifFinal_run (P := P) (s := t) (t := { t with val0 := .val v }) hB okb okc fl.pc hat1
        (by
          intro l hl
          rw [step_at hl, exec, fl.val rfl, slot_ne, hv, branchStar_eq rfl, fl.pc])
        (by intro h; cases h) rfl rfl rfl rfl rfl fl.rel (fl.envRel hE)
        (by intro h; dsimp only; rw [fl.args]; exact hb h)
      dsimp only at this
      rw [fl.args] at this
      rw [List.length_append, ← Nat.add_assoc]
      exact this
    | none =>
      rw [hcx] at hat
      cases hcy : constOf y with
      | some k =>
        rw [hcy] at hat
        dsimp only at hat ⊢
        have := constOf_some hcy
        subst this
        cases ry
        obtain ⟨t, W1, fl⟩ := hx.norm okx hpc (normal_normal ctx).symm hat.left hR hE
          (by rw [normal_bottom]; exact hb)
        refine fl.out ?_
        have hat1 := hat.right
        rw [← fl.code] at hat1
        have := ifFinal_run (P := P) (s := t) (t := { t with val0 := .val v }) hB okb okc fl.pc hat1
          (by
            intro l hl
            rw [step_at hl, exec, fl.val rfl, slot_ne, ← hpv, branchStar_eq rfl, fl.pc])
          (by intro h; cases h) rfl rfl rfl rfl rfl fl.rel (fl.envRel hE)
          (by intro h; dsimp only; rw [fl.args]; exact hb h)
        dsimp only at this
        rw [fl.args] at this
        rw [List.length_append, ← Nat.add_assoc]
        exact this
      | none =>
        rw [hcy] at hat
        dsimp only at hat ⊢
        obtain ⟨t, W1, fl⟩ := hx.norm okx hpc (normal_normal ctx).symm hat.left.left hR hE
          (by rw [normal_bottom]; exact hb)
        refine fl.out ?_
        have hat1 := hat.left.right
        rw [← fl.code, ← fl.pc] at hat1
        have hst := step_push (P := P) hat1
        have hat2 := hat1.tail
        rw [fl.pc] at hat2
        obtain ⟨u, W2, fu⟩ := hy.norm (ctx := .normalTop) (s := { t with
            args := t.args ++ [t.val0], sp := t.sp + 1, pc := t.pc + 1 }) oky
            (by dsimp only; rw [fl.pc]) rfl hat2 fl.rel (fl.envRel hE) (fun h => by cases h)
        have hcode : u.code = s.code := fu.code.trans fl.code
        have hat3 := hat.right
        rw [← hcode, List.length_append, List.length_cons,
          show ∀ p q r : Nat, p + (q + (r + 1)) = p + q + 1 + r by intros; omega] at hat3
        have hargs : u.args = s.args ++ [.val vx] := by
          rw [fu.args]; dsimp only; rw [fl.args, fl.val rfl]
        have hv : v = .bool (vy == vx) := by
          rw [← hpv]
          congr 1
          exact BEq.comm
        have hE2 : EnvRel M W2 u.frames ρ renv u.env := by
          have := (fl.envRel hE).mono fu.keepW fu.keepF.ext
          rw [fu.env]
          exact this
        have := ifFinal_run (P := P) (s := u) (t := { u with
            val0 := .val v, args := s.args, sp := u.sp - 1 }) hB okb okc fu.pc hat3
          (by
            intro l hl
            rw [step_at hl, exec, hargs, List.getLast?_concat]
            dsimp only
            rw [List.dropLast_concat, fu.val rfl, slot_ne, hv, branchStar_eq rfl]
            dsimp only
            rw [fu.pc])
          (by intro h; cases h) rfl rfl rfl rfl rfl fu.rel hE2
          (by intro h; dsimp only; exact hb h)
        dsimp only at this
        have := this.pre (s := t) (W := W1) ((Steps.one hst).trans fu.steps) fu.code fu.env fu.conts fu.keepW
          fu.keepF
        rw [List.length_append, List.length_append, List.length_cons,
          show ∀ p q r z : Nat, p + (q + (r + 1) + z) = p + q + 1 + r + z by intros; omega]
        rw [show ∀ p q r : Nat, p + (q + (r + 1)) = p + q + 1 + r by intros; omega]
        exact this
  rw [comp_ite_gen _ _ _ _ _ _ _ (fun k e => h1 ⟨k, e⟩) (fun x e => h2 ⟨x, e⟩)
    (fun x y e => h3 ⟨x, y, e⟩)] at hat ⊢
  obtain ⟨t, W1, fl⟩ := hm.norm oka hpc (normal_normal ctx).symm hat.left hR hE
    (by rw [normal_bottom]; exact hb)
  refine fl.out ?_
  have hat1 := hat.right
  rw [← fl.code] at hat1
  have := ifFinal_run (P := P) (s := t) (t := t) hB okb okc fl.pc hat1
    (by
      intro l hl
      rw [step_at hl, exec, fl.val rfl]
      by_cases hv : v = .false
      · rw [if_pos (val_false_iff.2 hv), if_pos hv]
      · rw [if_neg (fun e => hv (val_false_iff.1 e)), if_neg hv, fl.pc])
    (by intro _; rw [← fl.pc]) rfl rfl rfl rfl (fl.val rfl) fl.rel (fl.envRel hE)
    (by intro h; rw [fl.args]; exact hb h)
  rw [fl.args] at this
  rw [List.length_append, ← Nat.add_assoc]
  exact this

/-! ## Everything -/

def Claim (M : Nat → Bool) (P : Builtin) : J → Prop
  | .ev ρ σ e v σ' => Main M P ρ σ e v σ' ∧
      ∀ op es, e = .prim op es → ∃ vs, primVal P op vs = some v ∧ Mains M P ρ σ es vs σ'
  | .evs ρ σ es vs σ' => Mains M P ρ σ es vs σ'
  | .body ρ σ es v σ' => MainSeq M P ρ σ es v σ'
  | .app σ f vs v σ' => MainApp M P σ f vs v σ'
  | .init ρ σ l es σ' => MainInit M P ρ σ l es σ'

theorem claim (M : Nat → Bool) (P : Builtin) {j : J} (h : Run P j) : Claim M P j := by
  induction h with
  | const => exact ⟨main_const, fun _ _ h => by cases h⟩
  | lref h1 h2 => exact ⟨main_lref h1 h2, fun _ _ h => by cases h⟩
  | lset _ h1 _ ih => exact ⟨main_lset ih.1 h1, fun _ _ h => by cases h⟩
  | gref h => exact ⟨main_gref h, fun _ _ h => by cases h⟩
  | gset _ ih => exact ⟨main_gset ih.1, fun _ _ h => by cases h⟩
  | ite h1 h2 ih => exact ⟨main_ite h1 ih.1 ih.2 (.inl ⟨h2, rfl, rfl⟩), fun _ _ h => by cases h⟩
  | iteThen h1 h2 h3 h4 ih1 ih2 =>
    exact ⟨main_ite h1 ih1.1 ih1.2 (by rw [if_neg h2]; exact .inr ⟨h3, ih2.1⟩),
      fun _ _ h => by cases h⟩
  | iteElse h1 h2 h3 h4 ih1 ih2 =>
    exact ⟨main_ite h1 ih1.1 ih1.2 (by rw [if_pos h2]; exact .inr ⟨h3, ih2.1⟩),
      fun _ _ h => by cases h⟩
  | letv _ _ ih1 ih2 => exact ⟨main_letv ih1 ih2.1, fun _ _ h => by cases h⟩
  | letrec _ _ ih1 ih2 => exact ⟨main_letrec ih1 ih2.1, fun _ _ h => by cases h⟩
  | lam => exact ⟨main_lam, fun _ _ h => by cases h⟩
  | seq _ ih =>
    refine ⟨?_, fun _ _ h => by cases h⟩
    intro hok renv ctx W s pc hpc hat hR hE hb
    rw [ok] at hok
    rw [comp] at hat ⊢
    exact ih hok renv ctx W s pc hpc hat hR hE hb
  | call h1 _ _ ih1 ih2 ih3 => exact ⟨main_call h1 ih1 ih2.1 ih3, fun _ _ h => by cases h⟩
  | prim _ h2 ih =>
    refine ⟨main_prim ih h2, fun op es h => ?_⟩
    injection h with e1 e2
    subst e1 e2
    exact ⟨_, h2, ih⟩
  | evNil => exact .nil
  | evCons h1 _ ih1 ih2 => exact .cons h1 ih1.1 ih2
  | bodyOne _ ih =>
    intro hok renv ctx W s pc hpc hat hR hE hb
    rw [okL] at hok
    rw [compSeq] at hat ⊢
    exact ih.1 hok.1 renv ctx W s pc hpc hat hR hE hb
  | @bodyCons ρ σ σ1 σ2 e e' es v w _ _ ih1 ih2 =>
    intro hok renv ctx W s pc hpc hat hR hE hb
    rw [okL] at hok
    have hcs : compSeq M renv ctx pc (e :: e' :: es) = comp M renv ctx.stmt pc e ++
        compSeq M renv ctx (pc + (comp M renv ctx.stmt pc e).length) (e' :: es) := by
      rw [compSeq]
      intro h; cases h
    rw [hcs] at hat ⊢
    obtain ⟨t, W1, fl⟩ := (ih1.1 hok.1 renv ctx.stmt W s pc hpc hat.left hR hE
      (by rw [stmt_bottom]; exact hb)).falls (stmt_ne ctx)
    refine fl.out ?_
    have hat1 := hat.right
    rw [← fl.code] at hat1
    have := ih2 hok.2 renv ctx W1 t _ fl.pc hat1 fl.rel (fl.envRel hE)
      (by intro h; rw [fl.args]; exact hb h)
    rw [fl.args] at this
    rw [List.length_append, ← Nat.add_assoc]
    exact this
  | @appSubr σ n vs v hp =>
    intro W s hR hf ha
    refine ⟨{ s with val0 := .val v, sp := s.sp - s.args.length, args := [], code := [.ret], pc := 0 },
      ?_, { s with val0 := .val v, sp := s.sp - s.args.length, args := [], code := [.ret], pc := 0 }, W,
      .refl, rfl, ⟨rfl, .inl rfl⟩, hR, Keep.refl _, Keep.refl _⟩
    rw [doCall, ha, slotVals_map]
    dsimp only
    rw [hf]
    dsimp only
    rw [hp]
  | appClos h1 h2 _ ih => exact main_app h1 h2 ih.1
  | initNil => exact init_nil
  | initKnown h1 _ ih => exact init_known h1 ih
  | initCons h1 _ _ ih1 ih2 => exact init_cons h1 ih1.1 ih2

/-- Whole programs. -/
theorem program {M : Nat → Bool} {P : Builtin} {e : Term} {G : Nat → Option Val} {v : Val}
    {σ' : Store} (h : Run P (.ev [] ⟨[], [], G⟩ e v σ')) (hok : ok M e) :
    ∃ s, Steps P (start M e G) s ∧ Done s v ∧ s.globals = σ'.globals := by
  have hat : At (start M e G).code 0 (comp M [] .tail 0 e ++ [.ret]) := At.whole _
  have hR : RelS M [] ⟨[], [], G⟩ (start M e G) := by
    refine ⟨rfl, ?_, ?_, ?_, rfl, rfl, ?_⟩ <;> (intros; simp_all)
  have := ((claim M P h).1 hok [] .tail [] (start M e G) 0 rfl hat.left hR
    (by intro x l h; cases h) (fun _ => rfl)).backs hat.right.head
  obtain ⟨s, W, b⟩ := this
  exact ⟨s, b.steps, ⟨b.conts, b.returning.1, b.returning.2⟩, b.rel.glob⟩

end Gauche.Prog

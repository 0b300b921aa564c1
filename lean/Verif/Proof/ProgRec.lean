import Verif.Proof.ProgParts

/-!
# `letrec`
-/
namespace Gauche.Prog

def initVals : List Term → Nat → List Val
  | [], _ => []
  | .lam _ _ _ :: es, n => .clos n :: initVals es (n + 1)
  | .const k :: es, n => .atom k :: initVals es n
  | _ :: es, n => .undef :: initVals es n

def initClos (ρ : Env) : List Term → List SClos
  | [] => []
  | .lam ys opt b :: es => ⟨ρ, ys, opt, b⟩ :: initClos ρ es
  | _ :: es => initClos ρ es

theorem initVals_length : ∀ (es : List Term) (n : Nat), (initVals es n).length = es.length := by
  intro es
  induction es with
  | nil => intro n; rfl
  | cons e es ih =>
    intro n
    cases e <;> (unfold initVals; rw [List.length_cons, List.length_cons, ih])

theorem recInit_eq (ρ : Env) : ∀ (es : List Term) (σ : Store),
    recInit ρ es σ = { σ with vars := σ.vars ++ initVals es σ.clos.length,
                              clos := σ.clos ++ initClos ρ es } := by
  intro es
  induction es with
  | nil => intro σ; unfold recInit initVals initClos; rw [List.append_nil, List.append_nil]
  | cons e es ih =>
    intro σ
    cases e <;> (unfold recInit initVals initClos; rw [ih]; simp)

theorem fillCodes_fst (M : Nat → Bool) (renv : Renv) (a : Nat) : ∀ (es : List Term)
    (cs : List VClos),
    (fillCodes a (recCodes M renv es) cs).1 = (initVals es cs.length).map .val := by
  intro es
  induction es with
  | nil => intro cs; rfl
  | cons e es ih =>
    intro cs
    cases e with
    | lam xs opt b =>
      rw [recCodes, lamInstr, fillCodes, initVals]
      dsimp only
      rw [ih, List.map_cons]
      simp
    | const k => rw [recCodes, fillCodes, initVals]; dsimp only; rw [ih]; rfl
    | _ =>
      unfold recCodes initVals fillCodes
      dsimp only
      rw [ih]
      rfl

/-- The closures of the frame. -/
theorem Rel.fill {M W ρ renv fs bs G} {a : Nat} (hE : EnvRel M W fs ρ renv (some a)) :
    ∀ (es : List Term) (σ : Store) (cs : List VClos), okL M es → Rel M W σ fs bs cs G →
    Rel M W { σ with clos := σ.clos ++ initClos ρ es } fs bs
      (fillCodes a (recCodes M renv es) cs).2 G := by
  intro es
  induction es with
  | nil =>
    intro σ cs _ h
    unfold initClos recCodes fillCodes
    dsimp only
    rw [List.append_nil]
    exact h
  | cons e es ih =>
    intro σ cs hok h
    rw [okL] at hok
    cases e with
    | lam xs opt b =>
      rw [recCodes, lamInstr, fillCodes, initClos]
      dsimp only
      have h1 := h.addClos (c := ⟨ρ, xs, opt, b⟩) (k := ⟨if opt then xs.length - 1 else xs.length,
        opt, depth .tail b, boxers M xs ++ comp M (extRenv xs renv) .tail (boxers M xs).length b ++
          [.ret], some a⟩) ⟨renv, hok.1, hE, rfl⟩
      have := ih _ _ hok.2 h1
      dsimp only at this
      rw [List.append_assoc] at this
      exact this
    | const k =>
      rw [recCodes, fillCodes, initClos]
      · dsimp only
        exact ih _ _ hok.2 h
      · intros; simp_all
    | _ =>
      unfold recCodes initClos fillCodes
      dsimp only
      exact ih _ _ hok.2 h

/-- Initialisation of the variables that are not known at once. -/
def MainInit (M : Nat → Bool) (P : Builtin) (ρ : Env) (σ : Store) (l : Nat) (es : List Term)
    (σ' : Store) : Prop :=
  okL M es → ∀ (renv : Renv) (W : List Place) (s : VM) (xs : List Nat) (a pc : Nat), s.pc = pc →
    xs.length = es.length → s.env = some a →
    (∀ (j x : Nat), xs[j]? = some x → ρ.find x = some (l + j) ∧
      renvLookup x renv = (0, xs.length - (j + 1))) →
    At s.code pc (compInits M renv pc xs es) → RelS M W σ s →
    EnvRel M W s.frames ρ renv s.env → s.args = [] →
    ∃ s' W', Steps P s s' ∧ s'.pc = pc + (compInits M renv pc xs es).length ∧
      s'.code = s.code ∧ s'.env = s.env ∧ s'.args = [] ∧ s'.conts = s.conts ∧
      RelS M W' σ' s' ∧ Keep W W' ∧ Ext s.frames s'.frames ∧
      ∀ (i : Nat) (f : Frame), i ≠ a → s.frames[i]? = some f → s'.frames[i]? = some f

theorem init_nil {M P ρ σ l} : MainInit M P ρ σ l [] σ := by
  intro _ renv W s xs a pc hpc hl _ _ _ hR _ ha
  have : xs = [] := List.length_eq_zero_iff.1 hl
  subst this
  refine ⟨s, W, .refl, ?_, rfl, rfl, ha, rfl, hR, Keep.refl _, Ext.refl _, fun _ _ _ h => h⟩
  unfold compInits
  exact hpc

theorem vars_tail {ρ : Env} {renv : Renv} {x : Nat} {xs : List Nat} {l : Nat}
    (h : ∀ (j y : Nat), (x :: xs)[j]? = some y → ρ.find y = some (l + j) ∧
      renvLookup y renv = (0, (x :: xs).length - (j + 1))) :
    ∀ (j y : Nat), xs[j]? = some y → ρ.find y = some (l + 1 + j) ∧
      renvLookup y renv = (0, xs.length - (j + 1)) := by
  intro j y hy
  obtain ⟨h1, h2⟩ := h (j + 1) y hy
  refine ⟨by rw [h1]; congr 1; omega, ?_⟩
  rw [h2, List.length_cons]
  congr 1
  omega

theorem init_known {M P ρ σ l e es σ'} (hk : known e = true) (h : MainInit M P ρ σ (l + 1) es σ') :
    MainInit M P ρ σ l (e :: es) σ' := by
  intro hok renv W s xs a pc hpc hl he hv hat hR hE ha
  rw [okL] at hok
  cases xs with
  | nil => cases hl
  | cons x xs =>
    rw [compInits, if_pos hk] at hat ⊢
    exact h hok.2 renv W s xs a pc hpc (Nat.succ.inj hl) he (vars_tail hv) hat hR hE ha

theorem init_cons {M P ρ σ σ1 σ2 l e es v} (hk : known e = false) (hm : Main M P ρ σ e v σ1)
    (h : MainInit M P ρ { σ1 with vars := σ1.vars.set l v } (l + 1) es σ2) :
    MainInit M P ρ σ l (e :: es) σ2 := by
  intro hok renv W s xs a pc hpc hl he hv hat hR hE ha
  rw [okL] at hok
  cases xs with
  | nil => cases hl
  | cons x xs =>
    rw [compInits, if_neg (by rw [hk]; decide)] at hat ⊢
    obtain ⟨s1, W1, f⟩ := hm.norm (ctx := .normalBottom) hok.1 hpc rfl hat.left hR hE (fun _ => ha)
    have hat1 := f.at hat.right
    have hE1 := f.envRel hE
    have hlook : renvLookup x renv = (0, xs.length) := by
      have := (hv 0 x rfl).2
      rw [this, List.length_cons]; congr 1
    have hfind : ρ.find x = some l := (hv 0 x rfl).1
    have henv1 : s1.env = some a := f.env.trans he
    -- one more step
    have key : ∃ s2, step P s1 = some s2 ∧ s2.pc = s1.pc + 1 ∧ s2.code = s1.code ∧
        s2.env = s1.env ∧ s2.args = s1.args ∧ s2.conts = s1.conts ∧
        RelS M W1 { σ1 with vars := σ1.vars.set l v } s2 ∧ Ext s1.frames s2.frames ∧
        ∀ (i : Nat) (f : Frame), i ≠ a → s1.frames[i]? = some f → s2.frames[i]? = some f := by
      by_cases hmx : M x = true
      · rw [if_pos hmx] at hat1
        obtain ⟨b, b1, b2⟩ := envData_box hE1 hfind hmx
        rw [hlook] at b1
        dsimp only at b1
        refine ⟨{ s1 with boxes := s1.boxes.set b v, pc := s1.pc + 1 }, ?_, rfl, rfl, rfl, rfl, rfl,
          Rel.setBox f.rel b2, Ext.refl _, fun _ _ _ h => h⟩
        rw [step_at hat1.head, exec, b1, f.val rfl]
      · rw [if_neg hmx] at hat1
        obtain ⟨a', f', g1, g2, g3, _, g5⟩ := hE1 x l hfind
        rw [hlook, henv1] at g1
        injection g1 with g1
        subst g1
        have g5 := g5 (by revert hmx; cases M x <;> simp)
        rw [hlook] at g5
        dsimp only at g5
        have hset := Rel.setSlot f.rel (v := v) g5 g2
        refine ⟨{ s1 with
            frames := s1.frames.set a ⟨f'.slots.set (slotIx f' xs.length) (.val v), f'.up⟩,
            pc := s1.pc + 1 }, ?_, rfl, rfl, rfl, rfl, rfl, hset.1, hset.2, ?_⟩
        · rw [step_at hat1.head, exec, henv1]
          dsimp only
          rw [g2]
          dsimp only
          rw [f.val rfl]
        · intro i fr hi hfr
          dsimp only
          rw [List.getElem?_set_ne (Ne.symm hi)]
          exact hfr
    obtain ⟨s2, k1, k2, k3, k4, k5, k6, k7, k8, k9⟩ := key
    have hpc2 : s2.pc = pc + (comp M renv .normalBottom pc e).length + 1 := by rw [k2, f.pc]
    have hat2 : At s2.code (pc + (comp M renv .normalBottom pc e).length + 1)
        (compInits M renv (pc + (comp M renv .normalBottom pc e).length + 1) xs es) := by
      have := hat1.tail
      rw [f.pc] at this
      rw [k3]
      exact this
    obtain ⟨s', W', q1, q2, q3, q4, q5, q6, q7, q8, q9, q10⟩ :=
      h hok.2 renv W1 s2 xs a _ hpc2 (Nat.succ.inj hl) (k4.trans henv1) (vars_tail hv) hat2 k7
        (by rw [k4]; exact hE1.mono (Keep.refl _) k8) (by rw [k5, f.args]; exact ha)
    refine ⟨s', W', (f.steps.trans (Steps.one k1)).trans q1, ?_, by rw [q3, k3, f.code],
      by rw [q4, k4, f.env], q5, by rw [q6, k6, f.conts], q7, f.keepW.trans q8,
      (f.keepF.ext.trans k8).trans q9, ?_⟩
    · rw [q2, List.length_append, List.length_cons]; omega
    · intro i fr hi hfr
      exact q10 i fr hi (k9 i fr hi (f.keepF i fr hfr))

end Gauche.Prog

import Verif.Proof.ProgSim

/-!
# The conditions on programs; determinism; the stack
-/
namespace Gauche.Prog

theorem allSimple_iff : ∀ es : List Term, allSimple es = es.all (atomic fun _ => true) := by
  intro es
  induction es with
  | nil => rfl
  | cons e es ih =>
    cases e <;> simp [allSimple, atomic, ih]

theorem noMutable_of {M : Nat → Bool} : ∀ es : List Term,
    es.all (atomic fun x => !M x) = true → noMutable M es = true := by
  intro es
  induction es with
  | nil => intro _; rfl
  | cons e es ih =>
    intro h
    rw [List.all_cons, Bool.and_eq_true] at h
    cases e with
    | lref x => rw [noMutable, Bool.and_eq_true]; exact ⟨h.1, ih h.2⟩
    | const k => rw [noMutable]; exact ih h.2; intro x h; cases h
    | _ => cases h.1

theorem isLet_iff (f : Term) : isLet f = binding f := by cases f <;> rfl

mutual
theorem ok_of {M : Nat → Bool} : ∀ e : Term, (∀ x ∈ sets e, M x = true) → Shaped e → Plain M e →
    ok M e
  | .const _, _, _, _ => by rw [ok]; trivial
  | .lref _, _, _, _ => by rw [ok]; trivial
  | .lset x e, h1, h2, h3 => by
    rw [sets] at h1; rw [Shaped] at h2; rw [Plain] at h3
    rw [ok]
    exact ⟨h1 x List.mem_cons_self, ok_of e (fun y hy => h1 y (List.mem_cons_of_mem _ hy)) h2 h3⟩
  | .gref _, _, _, _ => by rw [ok]; trivial
  | .gset _ e, h1, h2, h3 => by
    rw [sets] at h1; rw [Shaped] at h2; rw [Plain] at h3
    rw [ok]
    exact ok_of e h1 h2 h3
  | .it, _, _, _ => by rw [ok]; trivial
  | .ite a b c, h1, h2, h3 => by
    rw [sets] at h1; rw [Shaped] at h2; rw [Plain] at h3
    rw [ok]
    exact ⟨ok_of a (fun y hy => h1 y (by simp [hy])) h2.1 h3.1,
      ok_of b (fun y hy => h1 y (by simp [hy])) h2.2.1 h3.2.1,
      ok_of c (fun y hy => h1 y (by simp [hy])) h2.2.2 h3.2.2⟩
  | .letv xs es b, h1, h2, h3 => by
    rw [sets] at h1; rw [Shaped] at h2; rw [Plain] at h3
    rw [ok]
    exact ⟨h2.1, okL_of es (fun y hy => h1 y (by simp [hy])) h2.2.1 h3.1,
      ok_of b (fun y hy => h1 y (by simp [hy])) h2.2.2 h3.2⟩
  | .letrec xs es b, h1, h2, h3 => by
    rw [sets] at h1; rw [Shaped] at h2; rw [Plain] at h3
    rw [ok]
    exact ⟨h2.1, h2.2.1, okL_of es (fun y hy => h1 y (by simp [hy])) h2.2.2.1 h3.1,
      ok_of b (fun y hy => h1 y (by simp [hy])) h2.2.2.2 h3.2⟩
  | .lam xs opt b, h1, h2, h3 => by
    rw [sets] at h1; rw [Shaped] at h2; rw [Plain] at h3
    rw [ok]
    exact ⟨h2.1, ok_of b h1 h2.2 h3⟩
  | .seq es, h1, h2, h3 => by
    rw [sets] at h1; rw [Shaped] at h2; rw [Plain] at h3
    rw [ok]
    exact okL_of es h1 h2 h3
  | .call f es, h1, h2, h3 => by
    rw [sets] at h1; rw [Shaped] at h2; rw [Plain] at h3
    rw [ok]
    exact ⟨fun a b => noMutable_of es (h3.1 ⟨by rw [← isLet_iff]; exact a,
        by rw [← allSimple_iff]; exact b⟩),
      ok_of f (fun y hy => h1 y (by simp [hy])) h2.1 h3.2.1,
      okL_of es (fun y hy => h1 y (by simp [hy])) h2.2 h3.2.2⟩
  | .prim _ es, h1, h2, h3 => by
    rw [sets] at h1; rw [Shaped] at h2; rw [Plain] at h3
    rw [ok]
    exact ⟨h2.1, okL_of es h1 h2.2 h3⟩

theorem okL_of {M : Nat → Bool} : ∀ es : List Term, (∀ x ∈ setsL es, M x = true) → ShapedL es →
    PlainL M es → okL M es
  | [], _, _, _ => by rw [okL]; trivial
  | e :: es, h1, h2, h3 => by
    rw [setsL] at h1; rw [ShapedL] at h2; rw [PlainL] at h3
    rw [okL]
    exact ⟨ok_of e (fun y hy => h1 y (by simp [hy])) h2.1 h3.1,
      okL_of es (fun y hy => h1 y (by simp [hy])) h2.2 h3.2⟩
end

/-- Nothing happens after the end. -/
theorem Done.stop {P : Builtin} {s : VM} {v : Val} (h : Done s v) : step P s = none := by
  obtain ⟨h1, h2, h3⟩ := h
  rw [Returning.ret (v := v) ⟨h2, h3⟩, ret, h1]

theorem Steps.det {P : Builtin} {s t u : VM} (h : Steps P s t) (ht : Prog.step P t = none)
    (h' : Steps P s u) (hu : Prog.step P u = none) : t = u := by
  induction h with
  | refl =>
    cases h' with
    | refl => rfl
    | step h1 _ => rw [ht] at h1; cases h1
  | step h1 _ ih =>
    cases h' with
    | refl => rw [hu] at h1; cases h1
    | step h2 h3 =>
      rw [h1] at h2
      injection h2 with h2
      subst h2
      exact ih ht h3

/-! ## The stack -/

/-- `n` statements, each one a `let` of one variable. -/
def lets (n : Nat) : Term := .seq (List.replicate n (.letv [0] [.const 1] (.lref 0)) ++ [.const 0])

theorem lets_depth (n : Nat) : depth .tail (lets n) ≤ 4 := by
  rw [lets, depth]
  induction n with
  | zero => decide
  | succ n ih =>
    rw [List.replicate_succ, List.cons_append]
    have : ∃ e es, List.replicate n (Term.letv [0] [.const 1] (.lref 0)) ++ [.const 0] = e :: es := by
      cases n with
      | zero => exact ⟨_, _, rfl⟩
      | succ n => exact ⟨_, _, rfl⟩
    obtain ⟨e, es, he⟩ := this
    rw [he] at ih ⊢
    rw [depthSeq]
    · apply Nat.max_le.2 ⟨?_, ih⟩
      decide
    · intro h; cases h

theorem lets_run (P : Builtin) (n : Nat) : ∀ (s : VM) (pc : Nat), s.pc = pc →
    At s.code pc (compSeq (fun _ => false) [] .tail pc
      (List.replicate n (.letv [0] [.const 1] (.lref 0)) ++ [.const 0])) → s.args = [] →
    s.env = none →
    ∃ t, Steps P s t ∧ t.sp = s.sp + 4 * n ∧ t.lim = s.lim := by
  induction n with
  | zero => intro s _ _ _ _ _; exact ⟨s, .refl, rfl, rfl⟩
  | succ n ih =>
    intro s pc hpc hat ha he
    subst hpc
    rw [List.replicate_succ, List.cons_append] at hat
    have : ∃ e es, List.replicate n (Term.letv [0] [.const 1] (.lref 0)) ++ [.const 0] = e :: es := by
      cases n with
      | zero => exact ⟨_, _, rfl⟩
      | succ n => exact ⟨_, _, rfl⟩
    obtain ⟨e, es, hes⟩ := this
    rw [hes] at hat ih
    rw [compSeq] at hat
    · have hc : comp (fun _ => false) [] Ctx.tail.stmt s.pc (.letv [0] [.const 1] (.lref 0)) =
          [.const 1, .push, .localEnv 1, .lref 0 0, .popLocalEnv] := by
        simp [comp, compArgs, boxers, Ctx.stmt, Ctx.bottom, Ctx.normal, Ctx.isStmt, renvLookup, posIn]
      rw [hc] at hat
      have a1 := hat.left
      have a2 := hat.right
      have h1 : step P s = some { s with val0 := .val (.atom 1), pc := s.pc + 1 } := by
        rw [step_at a1.head, exec]
      have h2 : step P { s with val0 := .val (.atom 1), pc := s.pc + 1 } = some { s with
          val0 := .val (.atom 1), pc := s.pc + 2, args := [.val (.atom 1)], sp := s.sp + 1 } := by
        rw [step_at (i := .push) a1.tail.head, exec]
        dsimp only
        rw [ha]; rfl
      have h3 : step P { s with
          val0 := .val (.atom 1), pc := s.pc + 2, args := [.val (.atom 1)], sp := s.sp + 1 } = some
          { s with
            val0 := .val (.atom 1), pc := s.pc + 3, args := [], sp := s.sp + 1 + envHdr,
            frames := s.frames ++ [⟨[.val (.atom 1)], none⟩], env := some s.frames.length } := by
        rw [step_at (i := .localEnv 1) a1.tail.tail.head, exec, ← he]; rfl
      have hfr : (s.frames ++ [⟨[.val (.atom 1)], none⟩])[s.frames.length]? =
          some ⟨[.val (.atom 1)], none⟩ := by
        rw [List.getElem?_append_right (Nat.le_refl _), Nat.sub_self]; rfl
      have h4 : step P { s with
            val0 := .val (.atom 1), pc := s.pc + 3, args := [], sp := s.sp + 1 + envHdr,
            frames := s.frames ++ [⟨[.val (.atom 1)], none⟩], env := some s.frames.length } = some
          { s with
            val0 := .val (.atom 1), pc := s.pc + 4, args := [], sp := s.sp + 1 + envHdr,
            frames := s.frames ++ [⟨[.val (.atom 1)], none⟩], env := some s.frames.length } := by
        rw [step_at (i := .lref 0 0) a1.tail.tail.tail.head, exec, envData, walk]
        dsimp only
        rw [hfr]
        rfl
      have h5 : step P { s with
            val0 := .val (.atom 1), pc := s.pc + 4, args := [], sp := s.sp + 1 + envHdr,
            frames := s.frames ++ [⟨[.val (.atom 1)], none⟩], env := some s.frames.length } = some
          { s with
            val0 := .val (.atom 1), pc := s.pc + 5, args := [], sp := s.sp + 1 + envHdr,
            frames := s.frames ++ [⟨[.val (.atom 1)], none⟩], env := none } := by
        rw [step_at (i := .popLocalEnv) a1.tail.tail.tail.tail.head, exec]
        dsimp only
        rw [hfr]
      obtain ⟨t, t1, t2, t3⟩ := ih { s with
            val0 := .val (.atom 1), pc := s.pc + 5, args := [], sp := s.sp + 1 + envHdr,
            frames := s.frames ++ [⟨[.val (.atom 1)], none⟩], env := none } (s.pc + 5) rfl a2 rfl rfl
      refine ⟨t, .step h1 (.step h2 (.step h3 (.step h4 (.step h5 t1)))), ?_, t3⟩
      rw [t2]
      show s.sp + 1 + 3 + 4 * n = s.sp + 4 * (n + 1)
      omega
    · intro h; cases h

theorem lets_over (P : Builtin) (G : Nat → Option Val) (n : Nat) :
    ∃ t, Steps P (start (assigned (lets (n + 2))) (lets (n + 2)) G) t ∧ t.lim + n < t.sp := by
  have hM : assigned (lets (n + 2)) = fun _ => false := by
    funext x
    have : ∀ m, setsL (List.replicate m (Term.letv [0] [.const 1] (.lref 0)) ++ [.const 0]) = [] := by
      intro m
      induction m with
      | zero => rfl
      | succ m ih => rw [List.replicate_succ, List.cons_append, setsL, ih]; rfl
    rw [assigned, lets, sets, this]
    rfl
  rw [hM]
  obtain ⟨t, h1, h2, h3⟩ := lets_run P (n + 2) (start (fun _ => false) (lets (n + 2)) G) 0 rfl
    (by
      have : (start (fun _ => false) (lets (n + 2)) G).code =
        compSeq (fun _ => false) [] .tail 0
          (List.replicate (n + 2) (.letv [0] [.const 1] (.lref 0)) ++ [.const 0]) ++ [.ret] := by
        rw [start]; dsimp only; rw [lets, comp]
      rw [this]
      exact (At.whole _).left) rfl rfl
  refine ⟨t, h1, ?_⟩
  have h4 := lets_depth (n + 2)
  have h5 : (start (fun _ => false) (lets (n + 2)) G).sp = 0 := rfl
  have h6 : (start (fun _ => false) (lets (n + 2)) G).lim = depth .tail (lets (n + 2)) := rfl
  rw [h2, h3, h5, h6]
  omega

end Gauche.Prog

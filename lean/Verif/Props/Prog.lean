import Verif.Proof.ProgOk

/-!
# C75, C76: the compiler's back end and the VM

The semantics, and the conditions on programs, are in `Verif/Spec/Prog.lean`; the
code generator (`comp`, `depth`) and the machine (`step`, `Done`, `start`) in
`Verif/Model/Prog.lean`.
-/
namespace Gauche.Prog

/-- **C75** The compiled program computes the value that the semantics gives to the
program, and leaves the same global variables; and the machine has no other result.
Missing: calls whose operator is a `let` and that have an assigned variable as an
operand (`Plain` excludes them; `C75_bug_head_heavy`), programs without a value, and
the forms that are not in `Term`. -/
theorem C75_compiled_code_partial {P : Builtin} {e : Term} {G : Nat → Option Val} {v : Val}
    {σ' : Store} (h : Run P (.ev [] ⟨[], [], G⟩ e v σ')) (hs : Shaped e)
    (hp : Plain (assigned e) e) :
    (∃ s, Steps P (start (assigned e) e G) s ∧ Done s v ∧ s.globals = σ'.globals) ∧
    ∀ s w, Steps P (start (assigned e) e G) s → Done s w → w = v ∧ s.globals = σ'.globals := by
  obtain ⟨s, h1, h2, h3⟩ := program h (M := assigned e)
    (ok_of e (fun x hx => by rw [assigned]; exact List.contains_iff_mem.2 hx) hs hp)
  refine ⟨⟨s, h1, h2, h3⟩, ?_⟩
  intro s' w g1 g2
  have := h1.det h2.stop g1 g2.stop
  subst this
  refine ⟨?_, h3⟩
  have e1 := h2.2.1
  rw [g2.2.1] at e1
  injection e1

/-- The machine's result is a function of the program. -/
theorem C75_one_result {P : Builtin} {s t u : VM} {v w : Val} (h : Steps P s t) (ht : Done t v)
    (h' : Steps P s u) (hu : Done u w) : v = w := by
  have := h.det ht.stop h' hu.stop
  subst this
  have e1 := ht.2.1
  rw [hu.2.1] at e1
  injection e1 with e1
  exact e1.symm

/-! ### Examples -/

/-- `(let ((x 5)) (let ((f (lambda () (set! x 7)))) (f) x))` -/
def exAssign : Term :=
  .letv [0] [.const 5] (.letv [1] [.lam [] false (.lset 0 (.const 7))]
    (.seq [.call (.lref 1) [], .lref 0]))

theorem exAssign_run (P : Builtin) (G : Nat → Option Val) :
    ∃ σ', Run P (.ev [] ⟨[], [], G⟩ exAssign (.atom 7) σ') ∧ σ'.globals = G := by
  refine ⟨_, .letv (.evCons .const .evNil) (.letv (.evCons .lam .evNil)
    (.seq (.bodyCons (.call .evNil (.lref rfl rfl)
      (.appClos rfl rfl (.lset .const rfl (Nat.zero_lt_succ _)))) (.bodyOne (.lref rfl rfl))))), ?_⟩
  rfl

example (P : Builtin) (G : Nat → Option Val) :
    ∃ s, Steps P (start (assigned exAssign) exAssign G) s ∧ Done s (.atom 7) ∧ s.globals = G := by
  obtain ⟨σ', h1, h2⟩ := exAssign_run P G
  have := (C75_compiled_code_partial h1
    (by simp [exAssign, Shaped, ShapedL])
    (by simp [exAssign, Plain, PlainL, binding])).1
  rw [h2] at this
  exact this

/-- A `letrec` loop, with a rest parameter and a global variable:
`(letrec ((f (lambda (a . r) (if (null? r) (g a) (f r))))) (f 4 1))` -/
def exLoop : Term :=
  .letrec [0] [.lam [1, 2] true (.ite (.prim .nullp [.lref 2]) (.gset 0 (.lref 1))
    (.call (.lref 0) [.lref 2]))] (.call (.lref 0) [.const 4, .const 1])

theorem exLoop_run (P : Builtin) :
    ∃ σ', Run P (.ev [] ⟨[], [], fun _ => none⟩ exLoop (.pair (.atom 1) .nil) σ') ∧
      σ'.globals 0 = some (.pair (.atom 1) .nil) := by
  refine ⟨_, .letrec (.initKnown rfl .initNil) (.call
    (.evCons .const (.evCons .const .evNil)) (.lref rfl rfl)
    (.appClos rfl rfl (.iteElse (.prim (.evCons (.lref rfl rfl) .evNil) rfl) rfl (by simp)
      (.call (.evCons (.lref rfl rfl) .evNil) (.lref rfl rfl)
        (.appClos rfl rfl (.iteThen (v := .atom 1) (.prim (.evCons (.lref rfl rfl) .evNil) rfl)
          (by decide) (by simp) (.gset (.lref rfl rfl)))))))), ?_⟩
  rfl

example (P : Builtin) : ∃ s, Steps P (start (assigned exLoop) exLoop fun _ => none) s ∧
    Done s (.pair (.atom 1) .nil) ∧ s.globals 0 = some (.pair (.atom 1) .nil) := by
  obtain ⟨σ', h1, h2⟩ := exLoop_run P
  obtain ⟨s, g1, g2, g3⟩ := (C75_compiled_code_partial h1
    (by simp [exLoop, Shaped, ShapedL])
    (by simp [exLoop, Plain, PlainL, binding])).1
  exact ⟨s, g1, g2, by rw [g3]; exact h2⟩

/-! ### What goes wrong -/

/-- `(let ((x 5)) (set! x 7) ((let ((f g)) f) x))`: the operator is a `let`, the operand an
assigned variable. -/
def exHeavy : Term :=
  .letv [0] [.const 5] (.seq [.lset 0 (.const 7),
    .call (.letv [1] [.gref 0] (.lref 1)) [.lref 0]])

/-- When `g` is the identity, the program has the value 7. -/
theorem exHeavy_run : ∃ σ', Run (fun _ vs => vs.head?) (.ev [] ⟨[], [], fun _ => some (.subr 0)⟩
    exHeavy (.atom 7) σ') :=
  ⟨_, .letv (.evCons .const .evNil) (.seq (.bodyCons (.lset .const rfl (by decide))
    (.bodyOne (.call (.evCons (.lref rfl rfl) .evNil)
      (.letv (.evCons (.gref rfl) .evNil) (.lref rfl rfl)) (.appSubr rfl)))))⟩

/-- Iterate `step`. -/
def iter (P : Builtin) : Nat → VM → VM
  | 0, s => s
  | n + 1, s => match step P s with
    | some t => iter P n t
    | none => s

theorem iter_steps (P : Builtin) : ∀ (n : Nat) (s : VM), Steps P s (iter P n s) := by
  intro n
  induction n with
  | zero => intro s; exact .refl
  | succ n ih =>
    intro s
    rw [iter]
    cases h : step P s with
    | none => exact .refl
    | some t => exact .step h (ih t)

/-- **C75, refuted in general**: that program has a value, but the compiled code
applies the value of `x` as a procedure: the register with the operator is
overwritten when the assigned variable is taken out of its box.  The machine stops
without a result. -/
theorem C75_bug_head_heavy :
    (∃ σ', Run (fun _ vs => vs.head?) (.ev [] ⟨[], [], fun _ => some (.subr 0)⟩
      exHeavy (.atom 7) σ') ∧ Shaped exHeavy) ∧
    ∀ s v, Steps (fun _ vs => vs.head?) (start (assigned exHeavy) exHeavy fun _ => some (.subr 0)) s →
      ¬ Done s v := by
  constructor
  · obtain ⟨σ', h⟩ := exHeavy_run
    exact ⟨σ', h, by simp [exHeavy, Shaped, ShapedL]⟩
  · intro s v h hd
    have h1 := iter_steps (fun _ vs => vs.head?) 40
      (start (assigned exHeavy) exHeavy fun _ => some (.subr 0))
    have h2 : step (fun _ vs => vs.head?) (iter (fun _ vs => vs.head?) 40
      (start (assigned exHeavy) exHeavy fun _ => some (.subr 0))) = none := by decide +kernel
    have := h1.det h2 h hd.stop
    rw [← this] at hd
    have h3 : (iter (fun _ vs => vs.head?) 40
      (start (assigned exHeavy) exHeavy fun _ => some (.subr 0))).code[(iter (fun _ vs => vs.head?) 40
      (start (assigned exHeavy) exHeavy fun _ => some (.subr 0))).pc]? = some (.tailCall 1) := by
      rfl
    rcases hd.2.2 with e | ⟨e, _⟩ | ⟨e, _⟩ <;> (rw [h3] at e; cases e)

/-- **C76, refuted in general**: the stack is checked only when a procedure is entered,
for the number of words that the compiler announces.  There is no bound on how far
the stack pointer can go beyond: the frame of a `let` that is a statement stays on
the stack, but is announced once for all statements. -/
theorem C76_bug_unbounded (P : Builtin) (G : Nat → Option Val) (n : Nat) :
    ∃ e t, Shaped e ∧ Steps P (start (assigned e) e G) t ∧ t.lim + n < t.sp := by
  obtain ⟨t, h1, h2⟩ := lets_over P G n
  refine ⟨_, t, ?_, h1, h2⟩
  rw [lets, Shaped]
  have : ∀ m, ShapedL (List.replicate m (Term.letv [0] [.const 1] (.lref 0)) ++ [.const 0]) := by
    intro m
    induction m with
    | zero => simp [Shaped, ShapedL]
    | succ m ih =>
      rw [List.replicate_succ, List.cons_append, ShapedL]
      exact ⟨by simp [Shaped, ShapedL], ih⟩
  exact this _

end Gauche.Prog

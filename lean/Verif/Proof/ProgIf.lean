import Verif.Proof.ProgOut

/-!
# Branches
-/
namespace Gauche.Prog

/-- What is known about the branch that is taken, when the test had the value `v`. -/
def Branch (M : Nat → Bool) (P : Builtin) (ρ : Env) (σ1 : Store) (v : Val) (e : Term) (w : Val)
    (σ2 : Store) : Prop :=
  (e = .it ∧ w = v ∧ σ2 = σ1) ∨ (e ≠ .it ∧ Main M P ρ σ1 e w σ2)

theorem Branch.run {M P ρ σ1 v e w σ2} (h : Branch M P ρ σ1 v e w σ2) (hok : ok M e) {renv : Renv}
    {ctx : Ctx} {W : List Place} {s : VM} {pc : Nat} (hpc : s.pc = pc)
    (hat : At s.code pc (comp M renv ctx pc e)) (hR : RelS M W σ1 s)
    (hE : EnvRel M W s.frames ρ renv s.env) (hb : ctx.bottom = true → s.args = [])
    (hv : s.val0 = .val v) :
    Out M P W s ctx s.args (pc + (comp M renv ctx pc e).length) w σ2 := by
  rcases h with ⟨h1, h2, h3⟩ | ⟨_, h⟩
  · subst h1 h2 h3
    refine Out.of ⟨s, W, .refl, ?_, rfl, rfl, rfl, rfl, hR, Keep.refl _, Keep.refl _, fun _ => hv⟩
    rw [comp]; exact hpc
  · exact h hok renv ctx W s pc hpc hat hR hE hb

theorem isIt_iff (e : Term) : isIt e = true ↔ e = .it := by
  cases e <;> simp [isIt]

/-- `pass5/if-final`.  `s` is before the branch instruction, `t` after it, except for
the program counter. -/
theorem ifFinal_run {M P ρ σ1 σ2 v w b c} {renv : Renv} {ctx : Ctx} {plain : Bool}
    {br : Nat → Instr} {W : List Place} {s t : VM} {pc : Nat}
    (hB : Branch M P ρ σ1 v (if v = .false then c else b) w σ2) (hb : ok M b) (hc : ok M c)
    (hpc : s.pc = pc)
    (hat : At s.code pc (ifFinal ctx plain b c br (fun p => comp M renv ctx p b)
      (fun p => comp M renv ctx p c) pc))
    (hbr : ∀ l, s.code[s.pc]? = some (br l) →
      step P s = some (if v = .false then { t with pc := l } else { t with pc := pc + 1 }))
    (hplain : plain = true → s = { t with pc := pc })
    (hcode : t.code = s.code) (henv : t.env = s.env) (hconts : t.conts = s.conts)
    (hfr : t.frames = s.frames) (hv : t.val0 = .val v) (hR : RelS M W σ1 t)
    (hE : EnvRel M W s.frames ρ renv s.env) (hargs : ctx.bottom = true → t.args = []) :
    Out M P W s ctx t.args (pc + (ifFinal ctx plain b c br (fun p => comp M renv ctx p b)
      (fun p => comp M renv ctx p c) pc).length) w σ2 := by
  have hE' : EnvRel M W t.frames ρ renv t.env := by rw [hfr, henv]; exact hE
  -- after the step to `q`
  have pre : ∀ (q : Nat) (pe : Nat) (cx : Ctx), step P s = some { t with pc := q } →
      Out M P W { t with pc := q } cx t.args pe w σ2 → Out M P W s cx t.args pe w σ2 := by
    intro q pe cx hst ho
    exact ho.pre (Steps.one hst) hcode henv hconts (Keep.refl _)
      (by dsimp only; rw [hfr]; exact Keep.refl _)
  have go : ∀ (e : Term) (q : Nat), Branch M P ρ σ1 v e w σ2 → ok M e →
      step P s = some { t with pc := q } → At s.code q (comp M renv ctx q e) →
      Out M P W s ctx t.args (q + (comp M renv ctx q e).length) w σ2 := by
    intro e q hBe hoke hst hate
    refine pre q _ _ hst ?_
    exact Branch.run (s := { t with pc := q }) hBe hoke rfl (by dsimp only; rw [hcode]; exact hate)
      hR hE' hargs hv
  by_cases htail : ctx = .tail
  · subst htail
    have hif : ifFinal .tail plain b c br (fun p => comp M renv .tail p b)
      (fun p => comp M renv .tail p c) pc =
      (if plain && isIt b then .rt :: comp M renv .tail (pc + 1) c
       else if plain && isIt c then .rf :: comp M renv .tail (pc + 1) b
       else br (pc + 1 + (comp M renv .tail (pc + 1) b).length + 1) ::
          comp M renv .tail (pc + 1) b ++
          .ret :: comp M renv .tail (pc + 1 + (comp M renv .tail (pc + 1) b).length + 1) c) := by
      rw [ifFinal, if_pos rfl]
    rw [hif] at hat ⊢
    by_cases h1 : (plain && isIt b) = true
    · rw [if_pos h1] at hat ⊢
      rw [Bool.and_eq_true] at h1
      have hs := hplain h1.1
      have hrt : s.code[s.pc]? = some .rt := by rw [hpc]; exact hat.head
      have hst : step P s = if v = .false then some { t with pc := pc + 1 } else ret s := by
        rw [step_at hrt, exec]
        have : s.val0 = .val v := by rw [hs]; exact hv
        rw [this]
        by_cases hvf : v = .false
        · rw [if_pos (val_false_iff.2 hvf), if_pos hvf, hs, ← hv]
        · rw [if_neg (fun e => hvf (val_false_iff.1 e)), if_neg hvf]
      by_cases hvf : v = .false
      · rw [if_pos hvf] at hst hB
        have := go c (pc + 1) hB hc hst hat.tail
        rw [List.length_cons]
        rw [show pc + ((comp M renv .tail (pc + 1) c).length + 1) =
          pc + 1 + (comp M renv .tail (pc + 1) c).length by omega]
        exact this
      · rw [if_neg hvf] at hB
        rcases hB with ⟨_, h2, h3⟩ | ⟨h2, _⟩
        · rw [Out, if_pos rfl]
          intro _
          refine ⟨s, W, .refl, rfl, ⟨by rw [hs, h2]; exact hv, .inr (.inr ⟨hrt, by rw [h2]; exact hvf⟩)⟩,
            ?_, Keep.refl _, Keep.refl _⟩
          rw [h3, hs]; exact hR
        · exact absurd ((isIt_iff b).1 h1.2) h2
    · rw [if_neg h1] at hat ⊢
      by_cases h2 : (plain && isIt c) = true
      · rw [if_pos h2] at hat ⊢
        rw [Bool.and_eq_true] at h2
        have hs := hplain h2.1
        have hrt : s.code[s.pc]? = some .rf := by rw [hpc]; exact hat.head
        have hst : step P s = if v = .false then ret s else some { t with pc := pc + 1 } := by
          rw [step_at hrt, exec]
          have : s.val0 = .val v := by rw [hs]; exact hv
          rw [this]
          by_cases hvf : v = .false
          · rw [if_pos (val_false_iff.2 hvf), if_pos hvf]
          · rw [if_neg (fun e => hvf (val_false_iff.1 e)), if_neg hvf, hs, ← hv]
        by_cases hvf : v = .false
        · rw [if_pos hvf] at hB
          rcases hB with ⟨_, h3, h4⟩ | ⟨h3, _⟩
          · rw [Out, if_pos rfl]
            intro _
            refine ⟨s, W, .refl, rfl, ⟨by rw [hs, h3]; exact hv, .inr (.inl ⟨hrt, by rw [h3]; exact hvf⟩)⟩,
              ?_, Keep.refl _, Keep.refl _⟩
            rw [h4, hs]; exact hR
          · exact absurd ((isIt_iff c).1 h2.2) h3
        · rw [if_neg hvf] at hst hB
          have := go b (pc + 1) hB hb hst hat.tail
          rw [List.length_cons]
          rw [show pc + ((comp M renv .tail (pc + 1) b).length + 1) =
            pc + 1 + (comp M renv .tail (pc + 1) b).length by omega]
          exact this
      · rw [if_neg h2] at hat ⊢
        rw [List.cons_append] at hat
        have hst := hbr _ (by rw [hpc]; exact hat.head)
        have hat1 := hat.tail
        by_cases hvf : v = .false
        · rw [if_pos hvf] at hst hB
          have := go c _ hB hc hst hat1.right.tail
          rw [List.length_append, List.length_cons, List.length_cons]
          rw [Out, if_pos rfl] at this ⊢
          intro hr
          apply this
          rw [← hr]
          congr 1
          omega
        · rw [if_neg hvf] at hst hB
          have := go b (pc + 1) hB hb hst hat1.left
          rw [Out, if_pos rfl] at this ⊢
          intro _
          exact this hat1.right.head
  · have hif : ifFinal ctx plain b c br (fun p => comp M renv ctx p b)
      (fun p => comp M renv ctx p c) pc =
      (if isIt c then br (pc + 1 + (comp M renv ctx (pc + 1) b).length) ::
          comp M renv ctx (pc + 1) b
       else br (pc + 1 + (comp M renv ctx (pc + 1) b).length + 1) :: comp M renv ctx (pc + 1) b ++
        .jump (pc + 1 + (comp M renv ctx (pc + 1) b).length + 1 +
          (comp M renv ctx (pc + 1 + (comp M renv ctx (pc + 1) b).length + 1) c).length) ::
        comp M renv ctx (pc + 1 + (comp M renv ctx (pc + 1) b).length + 1) c) := by
      rw [ifFinal, if_neg htail]
    rw [hif] at hat ⊢
    by_cases h1 : isIt c = true
    · rw [if_pos h1] at hat ⊢
      have hst := hbr _ (by rw [hpc]; exact hat.head)
      rw [List.length_cons, show pc + ((comp M renv ctx (pc + 1) b).length + 1) =
        pc + 1 + (comp M renv ctx (pc + 1) b).length by omega]
      by_cases hvf : v = .false
      · rw [if_pos hvf] at hst hB
        refine pre _ _ _ hst ?_
        rcases hB with ⟨_, h2, h3⟩ | ⟨h2, _⟩
        · subst h3
          exact Out.of ⟨_, W, .refl, rfl, rfl, rfl, rfl, rfl, hR, Keep.refl _, Keep.refl _,
            fun _ => by rw [h2]; exact hv⟩
        · exact absurd ((isIt_iff c).1 h1) h2
      · rw [if_neg hvf] at hst hB
        exact go b (pc + 1) hB hb hst hat.tail
    · rw [if_neg h1] at hat ⊢
      rw [List.cons_append] at hat
      have hst := hbr _ (by rw [hpc]; exact hat.head)
      have hat1 := hat.tail
      rw [List.length_append, List.length_cons, List.length_cons]
      have e : pc + ((comp M renv ctx (pc + 1) b).length + 1 +
          ((comp M renv ctx (pc + 1 + (comp M renv ctx (pc + 1) b).length + 1) c).length + 1)) =
          pc + 1 + (comp M renv ctx (pc + 1) b).length + 1 +
          (comp M renv ctx (pc + 1 + (comp M renv ctx (pc + 1) b).length + 1) c).length := by omega
      rw [e]
      by_cases hvf : v = .false
      · rw [if_pos hvf] at hst hB
        exact go c _ hB hc hst hat1.right.tail
      · rw [if_neg hvf] at hst hB
        have := go b (pc + 1) hB hb hst hat1.left
        have := this.falls htail
        obtain ⟨s', W', f⟩ := this
        refine Out.of ?_
        have hj : step P s' = some { s' with pc := pc + 1 + (comp M renv ctx (pc + 1) b).length + 1 +
          (comp M renv ctx (pc + 1 + (comp M renv ctx (pc + 1) b).length + 1) c).length } := by
          rw [step_at (f.at hat1.right).head]; rfl
        exact ⟨_, W', f.steps.trans (Steps.one hj), rfl, f.code, f.env, f.args, f.conts, f.rel,
          f.keepW, f.keepF, f.val⟩

end Gauche.Prog

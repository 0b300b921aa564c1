import Verif.Proof.ProgRel

/-!
# Running pieces of code
-/
namespace Gauche.Prog

theorem Steps.trans {P : Builtin} {s t u : VM} (h : Steps P s t) (h' : Steps P t u) :
    Steps P s u := by
  induction h with
  | refl => exact h'
  | step h1 _ ih => exact .step h1 (ih h')

theorem Steps.one {P : Builtin} {s t : VM} (h : Prog.step P s = some t) : Steps P s t := .step h .refl

/-- The instructions `is` are at address `pc`. -/
def At (C : List Instr) (pc : Nat) (is : List Instr) : Prop := ∃ post, C.drop pc = is ++ post

theorem At.head {C : List Instr} {pc : Nat} {i : Instr} {is : List Instr} (h : At C pc (i :: is)) :
    C[pc]? = some i := by
  obtain ⟨post, h⟩ := h
  have h2 : (C.drop pc)[0]? = ((i :: is) ++ post)[0]? := by rw [h]
  rw [List.getElem?_drop] at h2
  exact h2

theorem At.left {C : List Instr} {pc : Nat} {a b : List Instr} (h : At C pc (a ++ b)) :
    At C pc a := by
  obtain ⟨post, h⟩ := h
  exact ⟨b ++ post, by rw [h, List.append_assoc]⟩

theorem At.right {C : List Instr} {pc : Nat} {a b : List Instr} (h : At C pc (a ++ b)) :
    At C (pc + a.length) b := by
  obtain ⟨post, h⟩ := h
  refine ⟨post, ?_⟩
  rw [← List.drop_drop, h, List.append_assoc, List.drop_left]

theorem At.tail {C : List Instr} {pc : Nat} {i : Instr} {is : List Instr} (h : At C pc (i :: is)) :
    At C (pc + 1) is := At.right (a := [i]) h

theorem At.whole (C : List Instr) : At C 0 C := ⟨[], by rw [List.append_nil]; rfl⟩

theorem step_at {P : Builtin} {s : VM} {i : Instr} (h : s.code[s.pc]? = some i) :
    step P s = exec P s i := by rw [step, h]

theorem slotVals_map : ∀ vs : List Val, slotVals (vs.map .val) = some vs := by
  intro vs
  induction vs with
  | nil => rfl
  | cons v vs ih => rw [List.map_cons, slotVals, ih]; rfl

theorem slotVals_map1 (vs : List Val) (v : Val) :
    slotVals (vs.map .val ++ [.val v]) = some (vs ++ [v]) := by
  have := slotVals_map (vs ++ [v])
  rw [List.map_append] at this
  exact this

/-- Boxing the variables of the frame on top. -/
theorem run_boxers {P : Builtin} {M : Nat → Bool} {a : Nat} {up : Option Nat} :
    ∀ (xs : List Nat) (ws : List Val) (pre : List Slot) (s : VM),
    xs.length = ws.length → s.env = some a →
    s.frames[a]? = some ⟨pre ++ ws.map .val, up⟩ →
    At s.code s.pc (boxers M xs) →
    Steps P s { s with
      frames := s.frames.set a ⟨pre ++ boxSlots M xs ws s.boxes.length, up⟩,
      boxes := s.boxes ++ boxVals M xs ws, pc := s.pc + (boxers M xs).length } := by
  intro xs
  induction xs with
  | nil =>
    intro ws pre s hl he hf _
    cases ws with
    | cons w ws => cases hl
    | nil =>
      have h1 : s.frames.set a ⟨pre ++ boxSlots M [] [] s.boxes.length, up⟩ = s.frames := by
        apply List.ext_getElem?
        intro i
        by_cases hi : a = i
        · subst hi
          rw [List.getElem?_set_self (List.getElem?_eq_some_iff.1 hf).1, hf]; rfl
        · rw [List.getElem?_set_ne hi]
      rw [h1, boxVals, List.append_nil]
      · exact .refl
      · intro _ _ _ _ h; cases h
  | cons x xs ih =>
    intro ws pre s hl he hf hat
    cases ws with
    | nil => cases hl
    | cons w ws =>
      have hl : xs.length + 1 = ws.length + 1 := hl
      have hal := (List.getElem?_eq_some_iff.1 hf).1
      rw [boxers] at hat ⊢
      rw [boxSlots, boxVals]
      by_cases hm : M x = true
      · rw [if_pos hm] at hat ⊢
        rw [if_pos hm, if_pos hm]
        have h1 := step_at (P := P) (At.head hat)
        rw [exec, he] at h1
        dsimp only at h1
        rw [hf] at h1
        dsimp only at h1
        have hix : slotIx ⟨pre ++ List.map Slot.val (w :: ws), up⟩ (xs.length + 1 - 1) =
            pre.length := by
          rw [slotIx]; simp; omega
        rw [hix, List.getElem?_append_right (Nat.le_refl _), Nat.sub_self] at h1
        have hset : (pre ++ List.map Slot.val (w :: ws)).set pre.length (.box s.boxes.length) =
            (pre ++ [.box s.boxes.length]) ++ List.map Slot.val ws := by
          rw [List.set_append, if_neg (Nat.lt_irrefl _), Nat.sub_self]
          simp
        rw [hset] at h1
        have h2 := ih ws (pre ++ [.box s.boxes.length]) ({ s with
          frames := s.frames.set a ⟨(pre ++ [.box s.boxes.length]) ++ List.map Slot.val ws, up⟩,
          boxes := s.boxes ++ [w], pc := s.pc + 1 }) (by omega) he
          (List.getElem?_set_self hal) (At.tail hat)
        rw [List.append_assoc pre] at h1
        refine (Steps.one h1).trans ?_
        dsimp only at h2
        rw [List.set_set, List.length_append, List.append_assoc, List.append_assoc] at h2
        rw [List.append_assoc s.boxes] at h2
        have e : s.pc + 1 + (boxers M xs).length = s.pc + ([Instr.box (xs.length + 1)] ++
            boxers M xs).length := by
          rw [List.length_append]
          show s.pc + 1 + _ = s.pc + (1 + _)
          omega
        rw [e] at h2
        rw [he] at h2 ⊢
        exact h2
      · rw [if_neg hm] at hat ⊢
        rw [if_neg hm, if_neg hm]
        have h2 := ih ws (pre ++ [.val w]) s (by omega) he (by
          rw [hf, List.map_cons, List.append_assoc]; rfl) hat
        rw [List.append_assoc] at h2
        exact h2

/-- The last frame can be replaced. -/
theorem set_last {α : Type} (l : List α) (x y : α) : (l ++ [x]).set l.length y = l ++ [y] := by
  rw [List.set_append, if_neg (Nat.lt_irrefl _), Nat.sub_self]; rfl

/-- A frame of the given values, with boxes. -/
theorem run_frame {P : Builtin} {M : Nat → Bool} {fs : List Frame} {up : Option Nat}
    {xs : List Nat} {ws : List Val} {s : VM} (hl : xs.length = ws.length)
    (he : s.env = some fs.length) (hf : s.frames = fs ++ [⟨ws.map .val, up⟩])
    (hat : At s.code s.pc (boxers M xs)) :
    Steps P s { s with
      frames := fs ++ [⟨boxSlots M xs ws s.boxes.length, up⟩],
      boxes := s.boxes ++ boxVals M xs ws, pc := s.pc + (boxers M xs).length } := by
  have := run_boxers (P := P) (M := M) (a := fs.length) (up := up) xs ws [] s hl he
    (by rw [hf, List.getElem?_append_right (Nat.le_refl _), Nat.sub_self]; rfl) hat
  rw [hf, set_last] at this
  exact this

end Gauche.Prog

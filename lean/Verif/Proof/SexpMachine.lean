import Verif.Proof.SexpEmit
/-
The writer with its own stack writes the text of the tree.
-/
namespace Gauche.Sexp

/-- From one state of the loop to another, adding text. -/
def Runs (e : Env) (H : List Cell) (c : Ctl) (s1 : List Frame) (st : WSt) (c' : Ctl) (s2 : List Frame) (st' : WSt) (txt : List Char) : Prop :=
  ∃ k, ∀ m out, writeRec e H (m + k) c s1 st out = writeRec e H m c' s2 st' (out ++ txt)

theorem Runs.trans {e : Env} {H : List Cell} {c c' c'' : Ctl} {s1 s2 s3 : List Frame} {st st' st'' : WSt} {x y : List Char}
    (h1 : Runs e H c s1 st c' s2 st' x) (h2 : Runs e H c' s2 st' c'' s3 st'' y) : Runs e H c s1 st c'' s3 st'' (x ++ y) := by
  obtain ⟨k, hk⟩ := h1
  obtain ⟨j, hj⟩ := h2
  exact ⟨j + k, fun m out => by rw [← Nat.add_assoc, hk, hj, List.append_assoc]⟩

/-- One step. -/
theorem Runs.one {e : Env} {H : List Cell} {c c' : Ctl} {s1 s2 : List Frame} {st st' : WSt} {x : List Char}
    (h : ∀ m out, writeRec e H (m + 1) c s1 st out = writeRec e H m c' s2 st' (out ++ x)) : Runs e H c s1 st c' s2 st' x := ⟨1, h⟩

/-- Writing one value. -/
def Item (e : Env) (H : List Cell) (st : WSt) (v : V) (st' : WSt) (txt : List Char) : Prop := ∀ stk, Runs e H (.write1 v) stk st .next stk st' txt
/-- Writing the rest of a list. -/
def Tail (e : Env) (H : List Cell) (st : WSt) (v : V) (st' : WSt) (txt : List Char) : Prop := ∀ stk, Runs e H .next (.list v :: stk) st .next stk st' txt

theorem elems_run {e : Env} {H : List Cell} {p : Nat} {f : WSt → V → Option (Tree × WSt)}
    (hf : ∀ st v t st', f st v = some (t, st') → Item e H st v st' (writeBoth e t).1) (l : List V) :
    ∀ (i : Nat) (ts : List Tree) (st st' : WSt), (cellAt H p).parts.drop i = l → emitL f st l = some (ts, st') →
      ∀ stk, Runs e H .next (.vec i p :: stk) st .next stk st' (writeElems e false ts) := by
  induction l with
  | nil =>
    intro i ts st st' hl h stk
    rw [emitL] at h
    injection h with h; injection h with h1 h2; subst h1; subst h2
    have hnone : (cellAt H p).parts[i]? = none := by
      rw [List.getElem?_eq_none_iff]; exact List.drop_eq_nil_iff.1 hl
    refine Runs.one fun m out => ?_
    rw [writeRec]
    simp only [hnone]
    rw [writeElems]
  | cons v vs ih =>
    intro i ts st st' hl h stk
    rw [emitL] at h
    cases h1 : f st v with
    | none => rw [h1] at h; cases h
    | some r =>
      obtain ⟨t, st1⟩ := r
      rw [h1] at h
      simp only [] at h
      cases h2 : emitL f st1 vs with
      | none => rw [h2] at h; cases h
      | some r2 =>
        obtain ⟨ts', st2⟩ := r2
        rw [h2] at h
        injection h with h; injection h with h3 h4; subst h3; subst h4
        have hsome : (cellAt H p).parts[i]? = some v := by
          have := congrArg (fun l => l[0]?) hl
          simpa using this
        have hdrop : (cellAt H p).parts.drop (i + 1) = vs := by
          rw [← List.drop_drop, hl]; rfl
        have s1 : Runs e H .next (.vec i p :: stk) st (.write1 v) (.vec (i + 1) p :: stk) st [' '] := by
          refine Runs.one fun m out => ?_
          rw [writeRec]
          simp only [hsome]
        have s2 := hf st v t st1 h1 (.vec (i + 1) p :: stk)
        have s3 := ih (i + 1) ts' st1 st2 hdrop h2 stk
        have := (s1.trans s2).trans s3
        rw [writeElems]
        simpa using this

/-- The label of an object, written before its body. -/
theorem body_run {e : Env} {H : List Cell} {p : Nat} {f : Bool → WSt → V → Option (Tree × WSt)}
    (hf : ∀ st v t st', f false st v = some (t, st') → Item e H st v st' (writeBoth e t).1)
    (ht : ∀ st v t st', f true st v = some (t, st') → Tail e H st v st' (writeBoth e t).2)
    {st st0 st' : WSt} {t : Tree} {pre : List Char} (h : emitBody H f false st (cellAt H p) = some (t, st'))
    (hpre : ∀ n stk out, writeRec e H (n + 1) (.write1 (.ptr p)) stk st0 out =
        match cellAt H p with
        | .str s => writeRec e H n .next stk st ((out ++ pre) ++ writeString e.cat s)
        | .vec [] => writeRec e H n .next stk st ((out ++ pre) ++ "#()".toList)
        | .vec (x :: _) => writeRec e H n (.write1 x) (.vec 1 p :: stk) st ((out ++ pre) ++ "#(".toList)
        | .pair a d =>
          match quoteForm H st a d with
          | some (q, x) => writeRec e H n (.write1 x) stk st ((out ++ pre) ++ q.mark)
          | none => writeRec e H n (.write1 a) (.list d :: stk) st ((out ++ pre) ++ ['('])) :
    Item e H st0 (.ptr p) st' (pre ++ (writeBoth e t).1) := by
  intro stk
  unfold emitBody at h
  cases hc : cellAt H p with
  | str s =>
    rw [hc] at h hpre
    injection h with h; injection h with h1 h2; subst h1; subst h2
    refine Runs.one fun m out => ?_
    rw [hpre]
    simp [writeBoth, writeAtom]
  | vec l =>
    rw [hc] at h hpre
    simp only [] at h hpre
    cases h1 : emitL (f false) st l with
    | none => rw [h1] at h; cases h
    | some r =>
      obtain ⟨ts, st1⟩ := r
      rw [h1] at h
      injection h with h; injection h with h2 h3; subst h2; subst h3
      cases l with
      | nil =>
        rw [emitL] at h1
        injection h1 with h1; injection h1 with h2 h3; subst h2; subst h3
        refine Runs.one fun m out => ?_
        rw [hpre]
        simp [writeBoth, writeElems]
      | cons x xs =>
        rw [emitL] at h1
        cases g1 : f false st x with
        | none => rw [g1] at h1; cases h1
        | some r =>
          obtain ⟨tx, sx⟩ := r
          rw [g1] at h1
          simp only [] at h1
          cases g2 : emitL (f false) sx xs with
          | none => rw [g2] at h1; cases h1
          | some r2 =>
            obtain ⟨txs, sxs⟩ := r2
            rw [g2] at h1
            injection h1 with h1; injection h1 with h2 h3; subst h2; subst h3
            have s1 : Runs e H (.write1 (.ptr p)) stk st0 (.write1 x) (.vec 1 p :: stk) st (pre ++ "#(".toList) := by
              refine Runs.one fun m out => ?_
              rw [hpre]
              simp
            have s2 := hf st x tx sx g1 (.vec 1 p :: stk)
            have s3 := elems_run hf xs 1 txs sx sxs (by rw [hc]; rfl) g2 stk
            have := (s1.trans s2).trans s3
            simpa [writeBoth, writeElems] using this
  | pair a d =>
    rw [hc] at h hpre
    simp only [] at h hpre
    rw [if_neg (by decide)] at h
    cases hq : quoteForm H st a d with
    | some r =>
      obtain ⟨q, x⟩ := r
      rw [hq] at h
      simp only [hq] at hpre
      simp only [] at h
      cases h1 : f false st x with
      | none => rw [h1] at h; cases h
      | some r =>
        obtain ⟨tx, sx⟩ := r
        rw [h1] at h
        injection h with h; injection h with h2 h3; subst h2; subst h3
        have s1 : Runs e H (.write1 (.ptr p)) stk st0 (.write1 x) stk st (pre ++ q.mark) := by
          refine Runs.one fun m out => ?_
          rw [hpre]
          simp
        have := s1.trans (hf st x tx sx h1 stk)
        simpa [writeBoth] using this
    | none =>
      rw [hq] at h
      simp only [hq] at hpre
      simp only [] at h
      cases h1 : f false st a with
      | none => rw [h1] at h; cases h
      | some r =>
        obtain ⟨ta, sa⟩ := r
        rw [h1] at h
        simp only [] at h
        cases h2 : f true sa d with
        | none => rw [h2] at h; cases h
        | some r2 =>
          obtain ⟨td, sd⟩ := r2
          rw [h2] at h
          injection h with h; injection h with h3 h4; subst h3; subst h4
          have s1 : Runs e H (.write1 (.ptr p)) stk st0 (.write1 a) (.list d :: stk) st (pre ++ ['(']) := by
            refine Runs.one fun m out => ?_
            rw [hpre]
            simp
          have := (s1.trans (hf st a ta sa h1 (.list d :: stk))).trans (ht sa d td sd h2 stk)
          simpa [writeBoth] using this

theorem item_run {e : Env} {H : List Cell} {n : Nat}
    (hf : ∀ st v t st', emit H n false st v = some (t, st') → Item e H st v st' (writeBoth e t).1)
    (ht : ∀ st v t st', emit H n true st v = some (t, st') → Tail e H st v st' (writeBoth e t).2) :
    ∀ st v t st', emit H (n + 1) false st v = some (t, st') → Item e H st v st' (writeBoth e t).1 := by
  intro st v t st' h
  cases v with
  | imm a =>
    rw [emit] at h
    injection h with h; injection h with h1 h2; subst h1; subst h2
    intro stk
    refine Runs.one fun m out => ?_
    rw [writeRec]
    simp [writeBoth]
  | ref k => cases h
  | ptr p =>
    rw [emit] at h
    cases hpl : (cellAt H p).plain with
    | true =>
      rw [hpl, if_pos rfl] at h
      have := body_run (pre := []) hf ht h (st0 := st) (by intro n stk out; rw [writeRec]; simp only [hpl, if_true, List.append_nil]; rfl)
      simpa using this
    | false =>
      rw [hpl, if_neg (by decide)] at h
      by_cases h0 : st.val p ≤ 0
      · rw [if_pos h0] at h
        injection h with h; injection h with h1 h2; subst h1; subst h2
        intro stk
        refine Runs.one fun m out => ?_
        rw [writeRec]
        simp only [hpl, Bool.false_eq_true, if_false, if_pos h0]
        rw [writeBoth]
      rw [if_neg h0] at h
      by_cases h1 : st.val p > 1
      · rw [if_pos h1] at h
        cases h2 : emitBody H (emit H n) false (st.mark p) (cellAt H p) with
        | none => rw [h2] at h; cases h
        | some r =>
          obtain ⟨t', st1⟩ := r
          rw [h2] at h
          injection h with h; injection h with h3 h4; subst h3; subst h4
          have := body_run (pre := '#' :: decText st.cnt ++ ['=']) hf ht h2 (st0 := st) (by
            intro n stk out; rw [writeRec]; simp only [hpl, Bool.false_eq_true, if_false, if_neg h0, if_pos h1]; rfl)
          simpa [writeBoth] using this
      · rw [if_neg h1] at h
        have := body_run (pre := []) hf ht h (st0 := st) (by
          intro n stk out; rw [writeRec]; simp only [hpl, Bool.false_eq_true, if_false, if_neg h0, if_neg h1, List.append_nil]; rfl)
        simpa using this

/-- After a dot. -/
theorem dot_run {e : Env} {H : List Cell} {st st' : WSt} {v : V} {txt : List Char} (h : Item e H st v st' txt)
    (hd : ∀ m stk out, writeRec e H (m + 1) .next (.list v :: stk) st out = writeRec e H m (.write1 v) (.list (.imm .nil) :: stk) st (out ++ " . ".toList)) :
    Tail e H st v st' (" . ".toList ++ txt ++ [')']) := by
  intro stk
  have s1 : Runs e H .next (.list v :: stk) st (.write1 v) (.list (.imm .nil) :: stk) st " . ".toList := Runs.one fun m out => hd m stk out
  have s3 : Runs e H .next (.list (.imm .nil) :: stk) st' .next stk st' [')'] := Runs.one fun m out => by rw [writeRec]
  exact (s1.trans (h _)).trans s3

theorem emit_nondot {H : List Cell} {n : Nat} {st : WSt} {p : Nat} (h : (∀ a d, cellAt H p ≠ .pair a d) ∨ st.val p ≠ 1) :
    emit H (n + 1) true st (.ptr p) = emit H (n + 1) false st (.ptr p) := by
  rw [emit, emit]
  rcases h with h | h
  · have : ∀ st, emitBody H (emit H n) true st (cellAt H p) = emitBody H (emit H n) false st (cellAt H p) := by
      intro st
      unfold emitBody
      cases hc : cellAt H p with
      | str s => rfl
      | vec l => rfl
      | pair a d => exact absurd hc (h a d)
    rw [this]
  · cases hpl : (cellAt H p).plain with
    | true =>
      rw [if_pos rfl, if_pos rfl]
      unfold emitBody
      cases hc : cellAt H p with
      | str s => rfl
      | vec l => rfl
      | pair a d => rw [hc] at hpl; cases hpl
    | false =>
      simp only [Bool.false_eq_true, if_false]
      by_cases h0 : st.val p ≤ 0
      · rw [if_pos h0, if_pos h0]
      rw [if_neg h0, if_neg h0, if_pos (by omega), if_pos (by omega)]

theorem shape_nondot {e : Env} {H : List Cell} {n : Nat} {st st' : WSt} {p : Nat} {t : Tree} (h : (∀ a d, cellAt H p ≠ .pair a d) ∨ st.val p ≠ 1)
    (ht : emit H (n + 1) false st (.ptr p) = some (t, st')) : (writeBoth e t).2 = " . ".toList ++ (writeBoth e t).1 ++ [')'] := by
  have hb : ∀ b st t st', (∀ a d, cellAt H p ≠ .pair a d) → emitBody H (emit H n) b st (cellAt H p) = some (t, st') →
      (writeBoth e t).2 = " . ".toList ++ (writeBoth e t).1 ++ [')'] := by
    intro b st t st' hnp hb
    unfold emitBody at hb
    cases hc : cellAt H p with
    | str s => rw [hc] at hb; injection hb with hb; injection hb with h1 _; subst h1; simp [writeBoth]
    | vec l =>
      rw [hc] at hb
      simp only [] at hb
      cases h1 : emitL (emit H n false) st l with
      | none => rw [h1] at hb; cases hb
      | some r => rw [h1] at hb; injection hb with hb; injection hb with h1 _; subst h1; simp [writeBoth]
    | pair a d => exact absurd hc (hnp a d)
  rw [emit] at ht
  cases hpl : (cellAt H p).plain with
  | true =>
    rw [hpl, if_pos rfl] at ht
    refine hb _ _ _ _ ?_ ht
    intro a d hc; rw [hc] at hpl; cases hpl
  | false =>
    rw [hpl, if_neg (by decide)] at ht
    by_cases h0 : st.val p ≤ 0
    · rw [if_pos h0] at ht; injection ht with ht; injection ht with h1 _; subst h1; simp [writeBoth]
    rw [if_neg h0] at ht
    by_cases h1 : st.val p > 1
    · rw [if_pos h1] at ht
      cases h2 : emitBody H (emit H n) false (st.mark p) (cellAt H p) with
      | none => rw [h2] at ht; cases ht
      | some r => rw [h2] at ht; injection ht with ht; injection ht with h3 _; subst h3; simp [writeBoth]
    · rw [if_neg h1] at ht
      refine hb _ _ _ _ ?_ ht
      rcases h with h | h
      · exact h
      · exfalso; omega

theorem emit_run {e : Env} {H : List Cell} (n : Nat) :
    (∀ st v t st', emit H n false st v = some (t, st') → Item e H st v st' (writeBoth e t).1) ∧
    ∀ st v t st', emit H n true st v = some (t, st') → Tail e H st v st' (writeBoth e t).2 := by
  induction n with
  | zero => constructor <;> (intro st v t st' h; rw [emit] at h; cases h)
  | succ n ih =>
    have hitem := item_run ih.1 ih.2
    refine ⟨hitem, ?_⟩
    intro st v t st' h
    cases v with
    | imm a =>
      rw [emit] at h
      injection h with h; injection h with h1 h2; subst h1; subst h2
      by_cases ha : a = .nil
      · subst ha
        intro stk
        refine Runs.one fun m out => ?_
        rw [writeRec]
        simp [writeBoth]
      · have : (writeBoth e (.atom a)).2 = " . ".toList ++ (writeBoth e (.atom a)).1 ++ [')'] := by simp [writeBoth, ha]
        rw [this]
        refine dot_run (hitem st (.imm a) (.atom a) st (by rw [emit])) ?_
        intro m stk out
        cases a with
        | nil => exact absurd rfl ha
        | _ => rfl
    | ref k => cases h
    | ptr p =>
      by_cases hin : (∀ a d, cellAt H p ≠ .pair a d) ∨ st.val p ≠ 1
      · rw [emit_nondot hin] at h
        rw [shape_nondot hin h]
        refine dot_run (hitem st (.ptr p) t st' h) ?_
        intro m stk out
        rw [writeRec]
        cases hc : cellAt H p with
        | str s => rfl
        | vec l => rfl
        | pair a d =>
          simp only []
          rcases hin with hin | hin
          · exact absurd hc (hin a d)
          · rw [if_pos hin]
      · obtain ⟨⟨a, d, hc⟩, hval⟩ : (∃ a d, cellAt H p = .pair a d) ∧ st.val p = 1 := by
          constructor
          · by_cases hx : ∃ a d, cellAt H p = .pair a d
            · exact hx
            · exfalso; apply hin; left; intro a d hc; exact hx ⟨a, d, hc⟩
          · omega
        rw [emit, hc, hval] at h
        simp [Cell.plain, emitBody] at h
        cases h1 : emit H n false st a with
        | none => rw [h1] at h; cases h
        | some r =>
          obtain ⟨ta, sa⟩ := r
          rw [h1] at h
          simp only [] at h
          cases h2 : emit H n true sa d with
          | none => rw [h2] at h; cases h
          | some r2 =>
            obtain ⟨td, sd⟩ := r2
            rw [h2] at h
            injection h with h; injection h with h3 h4; subst h3; subst h4
            intro stk
            have s1 : Runs e H .next (.list (.ptr p) :: stk) st (.write1 a) (.list d :: stk) st [' '] := by
              refine Runs.one fun m out => ?_
              rw [writeRec]
              simp [hc, hval]
            have := (s1.trans (ih.1 st a ta sa h1 (.list d :: stk))).trans (ih.2 sa d td sd h2 stk)
            simpa [writeBoth] using this

/-- The writer ends with the text of the tree. -/
theorem writeRec_emit {e : Env} {H : List Cell} {st st' : WSt} {v : V} {t : Tree} (h : Emits H false st v t st') :
    ∃ N, ∀ m, N ≤ m → writeRec e H m (.write1 v) [] st [] = some (writeTree e t, st') := by
  obtain ⟨N, hN⟩ := h
  obtain ⟨k, hk⟩ := (emit_run N).1 st v t st' (hN N (le_refl N)) []
  refine ⟨k + 1, fun m hm => ?_⟩
  obtain ⟨j, rfl⟩ : ∃ j, m = (j + 1) + k := ⟨m - k - 1, by omega⟩
  rw [hk, writeRec]
  rfl

end Gauche.Sexp

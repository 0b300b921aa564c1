import Verif.Proof.SexpWalk
/-
The tree that the writer writes for a graph.
-/
namespace Gauche.Sexp

/-- One after another. -/
def emitL (f : WSt → V → Option (Tree × WSt)) : WSt → List V → Option (List Tree × WSt)
  | st, [] => some ([], st)
  | st, v :: vs =>
    match f st v with
    | none => none
    | some (t, st') =>
      match emitL f st' vs with
      | none => none
      | some (ts, st'') => some (t :: ts, st'')

/-- The tree of an object after its label; `b` tells that it goes on with a list. -/
def emitBody (H : List Cell) (f : Bool → WSt → V → Option (Tree × WSt)) (b : Bool) (st : WSt) (c : Cell) : Option (Tree × WSt) :=
  match c with
  | .str s => some (.atom (.str s), st)
  | .vec l =>
    match emitL (f false) st l with
    | none => none
    | some (ts, st') => some (.vec ts, st')
  | .pair a d =>
    match (if b then none else quoteForm H st a d) with
    | some (q, x) =>
      match f false st x with
      | none => none
      | some (t, st') => some (.abbr q t, st')
    | none =>
      match f false st a with
      | none => none
      | some (ta, st1) =>
        match f true st1 d with
        | none => none
        | some (td, st2) => some (.pair ta td, st2)

/-- The state after writing a label for `p`. -/
def WSt.mark (st : WSt) (p : Nat) : WSt := ⟨st.tab.set p (some (-st.cnt)), st.cnt + 1⟩

/-- The tree of a value. -/
def emit (H : List Cell) : Nat → Bool → WSt → V → Option (Tree × WSt)
  | 0, _, _, _ => none
  | _ + 1, _, st, .imm a => some (.atom a, st)
  | _ + 1, _, _, .ref _ => none
  | n + 1, b, st, .ptr p =>
    if (cellAt H p).plain then emitBody H (emit H n) b st (cellAt H p)
    else if st.val p ≤ 0 then some (.ref (-st.val p).toNat, st)
    else if st.val p > 1 then
      match emitBody H (emit H n) false (st.mark p) (cellAt H p) with
      | none => none
      | some (t, st') => some (.lab st.cnt t, st')
    else emitBody H (emit H n) b st (cellAt H p)

/-! ### the state -/

/-- The state of the writer, from the table `t0` of the walk. -/
structure StOk (t0 : Tab) (st : WSt) : Prop where
  tab : ∀ p, st.tab p = t0 p ∨ (Labelled t0 p ∧ ∃ k : Nat, k < st.cnt ∧ st.tab p = some (-(k : Int)))
  inj : ∀ p q (k : Nat), st.tab p = some (-(k : Int)) → st.tab q = some (-(k : Int)) → p = q

/-- The objects that wait for their label. -/
def unem (H : List Cell) (st : WSt) : Nat := ((List.range H.length).filter fun p => decide (1 < st.val p)).length

structure Step (H : List Cell) (t0 : Tab) (st st' : WSt) : Prop where
  keep : ∀ p (k : Nat), st.tab p = some (-(k : Int)) → st'.tab p = some (-(k : Int))
  cnt : st.cnt ≤ st'.cnt
  un : unem H st' ≤ unem H st
  sum : st'.cnt + unem H st' ≤ st.cnt + unem H st
  ok : StOk t0 st'

theorem Step.refl {H : List Cell} {t0 : Tab} {st : WSt} (h : StOk t0 st) : Step H t0 st st := ⟨fun _ _ h => h, le_refl _, le_refl _, le_refl _, h⟩
theorem Step.trans {H : List Cell} {t0 : Tab} {a b c : WSt} (h1 : Step H t0 a b) (h2 : Step H t0 b c) : Step H t0 a c :=
  ⟨fun p k h => h2.keep p k (h1.keep p k h), le_trans h1.cnt h2.cnt, le_trans h2.un h1.un, le_trans h2.sum h1.sum, h2.ok⟩

theorem step_mark {H : List Cell} {t0 : Tab} (hpos : Pos t0) {st : WSt} {p : Nat} (hp : p < H.length) (h : StOk t0 st) (hv : st.val p > 1) :
    Step H t0 st (st.mark p) ∧ unem H (st.mark p) < unem H st := by
  have hne : ∀ q, q ≠ p → (st.mark p).tab q = st.tab q := by intro q hq; unfold WSt.mark Tab.set; simp [hq]
  have heq : (st.mark p).tab p = some (-(st.cnt : Int)) := by unfold WSt.mark Tab.set; simp
  have hlt : ∀ q (k : Nat), st.tab q = some (-(k : Int)) → k < st.cnt := by
    intro q k hq
    rcases h.tab q with h1 | ⟨_, j, hj, h1⟩
    · rw [hq] at h1; have := hpos q _ h1.symm; omega
    · rw [hq] at h1; injection h1 with h1; omega
  have hlab : Labelled t0 p := by
    rcases h.tab p with h1 | ⟨h1, _⟩
    · unfold WSt.val at hv
      cases htp : st.tab p with
      | none => rw [htp] at hv; simp at hv
      | some k => rw [htp] at hv; simp at hv; exact ⟨k, by rw [← h1]; exact htp, by omega⟩
    · exact h1
  have hun : unem H (st.mark p) < unem H st := by
    refine filter_len_lt (a := p) ?_ (List.mem_range.2 hp) (by simpa using hv) ?_
    · intro q _ hq
      by_cases hqp : q = p
      · subst hqp; unfold WSt.val at hq; rw [heq] at hq; simp at hq; omega
      · unfold WSt.val at hq ⊢; rw [hne q hqp] at hq; exact hq
    · unfold WSt.val; rw [heq]; simp
  refine ⟨⟨?_, by simp [WSt.mark], le_of_lt hun, by simp only [WSt.mark] at hun ⊢; omega, ?_, ?_⟩, hun⟩
  · intro q k hq
    by_cases hqp : q = p
    · subst hqp; unfold WSt.val at hv; rw [hq] at hv; simp at hv; omega
    · rw [hne q hqp]; exact hq
  · intro q
    by_cases hqp : q = p
    · subst hqp; exact Or.inr ⟨hlab, st.cnt, by simp [WSt.mark], heq⟩
    · rw [hne q hqp]
      rcases h.tab q with h1 | ⟨h1, k, hk, h2⟩
      · exact Or.inl h1
      · exact Or.inr ⟨h1, k, by simp [WSt.mark]; omega, h2⟩
  · intro q r k hq hr
    by_cases hqp : q = p
    · by_cases hrp : r = p
      · rw [hqp, hrp]
      · rw [hqp, heq] at hq; injection hq with hq
        rw [hne r hrp] at hr
        have := hlt r k hr
        omega
    · rw [hne q hqp] at hq
      by_cases hrp : r = p
      · rw [hrp, heq] at hr; injection hr with hr
        have := hlt q k hq
        omega
      · rw [hne r hrp] at hr; exact h.inj q r k hq hr

theorem quoteForm_eq {H : List Cell} {st : WSt} {a d x : V} {q : Quoter} (h : quoteForm H st a d = some (q, x)) :
    ∃ p, d = .ptr p ∧ cellAt H p = .pair x (.imm .nil) ∧ a = .imm (.sym q.name) ∧ st.tab p = none := by
  unfold quoteForm at h
  cases d with
  | imm _ => cases h
  | ref _ => cases h
  | ptr p =>
    simp only [] at h
    cases hc : cellAt H p with
    | str _ => rw [hc] at h; cases h
    | vec _ => rw [hc] at h; cases h
    | pair x' y =>
      rw [hc] at h
      simp only [] at h
      by_cases h1 : y = .imm .nil ∧ st.tab p = none
      · rw [if_pos h1] at h
        have fin : ∀ {k : Quoter}, a = .imm (.sym k.name) → some (k, x') = some (q, x) →
            ∃ p', V.ptr p = .ptr p' ∧ cellAt H p' = .pair x (.imm .nil) ∧ a = .imm (.sym q.name) ∧ st.tab p' = none := by
          intro k ha he
          injection he with he; injection he with he1 he2
          exact ⟨p, rfl, by rw [hc, he2, h1.1], by rw [← he1]; exact ha, h1.2⟩
        by_cases g1 : a = .imm (.sym Quoter.quote.name)
        · rw [if_pos g1] at h; obtain ⟨p', e1, e2⟩ := fin g1 h; injection e1 with e1; exact ⟨p, rfl, by rw [e1, ← hc] at *; exact e2⟩
        rw [if_neg g1] at h
        by_cases g2 : a = .imm (.sym Quoter.quasi.name)
        · rw [if_pos g2] at h; obtain ⟨p', e1, e2⟩ := fin g2 h; injection e1 with e1; exact ⟨p, rfl, by rw [e1, ← hc] at *; exact e2⟩
        rw [if_neg g2] at h
        by_cases g3 : a = .imm (.sym Quoter.unquote.name)
        · rw [if_pos g3] at h; obtain ⟨p', e1, e2⟩ := fin g3 h; injection e1 with e1; exact ⟨p, rfl, by rw [e1, ← hc] at *; exact e2⟩
        rw [if_neg g3] at h
        by_cases g4 : a = .imm (.sym Quoter.splice.name)
        · rw [if_pos g4] at h; obtain ⟨p', e1, e2⟩ := fin g4 h; injection e1 with e1; exact ⟨p, rfl, by rw [e1, ← hc] at *; exact e2⟩
        rw [if_neg g4] at h
        cases h
      · rw [if_neg h1] at h; cases h

/-- All parts are in the heap. -/
def Closed (H : List Cell) : Prop := ∀ p, ∀ v ∈ (cellAt H p).parts, InHeap H v

theorem quote_inHeap {H : List Cell} (hH : Closed H) {st : WSt} {a d x : V} {q : Quoter} (h : quoteForm H st a d = some (q, x)) : InHeap H x := by
  obtain ⟨p, _, h2, _⟩ := quoteForm_eq h
  exact hH p x (by rw [h2]; simp [Cell.parts])

theorem emitL_step {H : List Cell} {t0 : Tab} {f : WSt → V → Option (Tree × WSt)}
    (hf : ∀ st v t st', f st v = some (t, st') → InHeap H v → StOk t0 st → Step H t0 st st') :
    ∀ (l : List V) st ts st', emitL f st l = some (ts, st') → (∀ v ∈ l, InHeap H v) → StOk t0 st → Step H t0 st st' := by
  intro l
  induction l with
  | nil => intro st ts st' h _ hs; rw [emitL] at h; injection h with h; injection h with _ h; subst h; exact Step.refl hs
  | cons v vs ih =>
    intro st ts st' h hv hs
    rw [emitL] at h
    cases h1 : f st v with
    | none => rw [h1] at h; cases h
    | some r =>
      obtain ⟨t, st1⟩ := r
      rw [h1] at h
      simp only [] at h
      cases h2 : emitL f st1 vs with
      | none => rw [h2] at h; cases h
      | some r2 =>
        obtain ⟨ts', st2⟩ := r2
        rw [h2] at h
        injection h with h; injection h with _ h; subst h
        have s1 := hf st v t st1 h1 (hv v (by simp)) hs
        exact s1.trans (ih st1 ts' _ h2 (fun w hw => hv w (List.mem_cons_of_mem _ hw)) s1.ok)

theorem emitBody_step {H : List Cell} (hH : Closed H) {t0 : Tab} {f : Bool → WSt → V → Option (Tree × WSt)}
    (hf : ∀ b st v t st', f b st v = some (t, st') → InHeap H v → StOk t0 st → Step H t0 st st')
    {b : Bool} {st st' : WSt} {p : Nat} {t : Tree} (h : emitBody H f b st (cellAt H p) = some (t, st')) (hs : StOk t0 st) : Step H t0 st st' := by
  have hin := hH p
  unfold emitBody at h
  cases hc : cellAt H p with
  | str s => rw [hc] at h; injection h with h; injection h with _ h; subst h; exact Step.refl hs
  | vec l =>
    rw [hc] at h
    simp only [] at h
    cases h1 : emitL (f false) st l with
    | none => rw [h1] at h; cases h
    | some r =>
      obtain ⟨ts, st1⟩ := r
      rw [h1] at h
      injection h with h; injection h with _ h; subst h
      exact emitL_step (hf false) l st ts _ h1 (by rw [hc] at hin; exact hin) hs
  | pair a d =>
    rw [hc] at h hin
    simp only [] at h
    cases hq : (if b = true then none else quoteForm H st a d) with
    | some r =>
      obtain ⟨q, x⟩ := r
      rw [hq] at h
      simp only [] at h
      cases h1 : f false st x with
      | none => rw [h1] at h; cases h
      | some r =>
        obtain ⟨t', st1⟩ := r
        rw [h1] at h
        injection h with h; injection h with _ h; subst h
        have hq' : quoteForm H st a d = some (q, x) := by cases b <;> simp at hq; exact hq
        exact hf false st x t' _ h1 (quote_inHeap hH hq') hs
    | none =>
      rw [hq] at h
      simp only [] at h
      cases h1 : f false st a with
      | none => rw [h1] at h; cases h
      | some r =>
        obtain ⟨ta, st1⟩ := r
        rw [h1] at h
        simp only [] at h
        cases h2 : f true st1 d with
        | none => rw [h2] at h; cases h
        | some r2 =>
          obtain ⟨td, st2⟩ := r2
          rw [h2] at h
          injection h with h; injection h with _ h; subst h
          have s1 := hf false st a ta st1 h1 (hin a (by simp [Cell.parts])) hs
          exact s1.trans (hf true st1 d td _ h2 (hin d (by simp [Cell.parts])) s1.ok)

theorem emit_step {H : List Cell} (hH : Closed H) {t0 : Tab} (hpos : Pos t0) (n : Nat) :
    ∀ b st v t st', emit H n b st v = some (t, st') → InHeap H v → StOk t0 st → Step H t0 st st' := by
  induction n with
  | zero => intro b st v t st' h; cases h
  | succ n ih =>
    intro b st v t st' h hv hs
    cases v with
    | imm a => rw [emit] at h; injection h with h; injection h with _ h; subst h; exact Step.refl hs
    | ref k => cases h
    | ptr p =>
      rw [emit] at h
      cases hpl : (cellAt H p).plain with
      | true => rw [hpl, if_pos rfl] at h; exact emitBody_step hH ih h hs
      | false =>
        rw [hpl, if_neg (by decide)] at h
        by_cases h0 : st.val p ≤ 0
        · rw [if_pos h0] at h; injection h with h; injection h with _ h; subst h; exact Step.refl hs
        rw [if_neg h0] at h
        by_cases h1 : st.val p > 1
        · rw [if_pos h1] at h
          obtain ⟨s1, _⟩ := step_mark hpos (hv p rfl) hs h1
          cases h2 : emitBody H (emit H n) false (st.mark p) (cellAt H p) with
          | none => rw [h2] at h; cases h
          | some r =>
            obtain ⟨t', st1⟩ := r
            rw [h2] at h
            injection h with h; injection h with _ h; subst h
            exact s1.trans (emitBody_step hH ih h2 s1.ok)
        · rw [if_neg h1] at h; exact emitBody_step hH ih h hs

/-! ### enough fuel -/

/-- The result for every large amount of fuel. -/
def Emits (H : List Cell) (b : Bool) (st : WSt) (v : V) (t : Tree) (st' : WSt) : Prop := ∃ N, ∀ n, N ≤ n → emit H n b st v = some (t, st')

theorem emitL_total {H : List Cell} (hH : Closed H) {t0 : Tab} (hpos : Pos t0) {m : Nat} :
    ∀ (l : List V), (∀ v ∈ l, InHeap H v ∧ ∀ b st, StOk t0 st → unem H st ≤ m → ∃ t st', Emits H b st v t st') →
      ∀ st, StOk t0 st → unem H st ≤ m → ∃ ts st' N, ∀ n, N ≤ n → emitL (emit H n false) st l = some (ts, st') := by
  intro l
  induction l with
  | nil => intro _ st _ _; exact ⟨[], st, 0, fun _ _ => rfl⟩
  | cons v vs ih =>
    intro hv st hs hu
    obtain ⟨t, st1, N, hN⟩ := (hv v (by simp)).2 false st hs hu
    have s1 := emit_step hH hpos N false st v t st1 (hN N (le_refl N)) (hv v (by simp)).1 hs
    obtain ⟨ts, st2, M, hM⟩ := ih (fun w hw => hv w (List.mem_cons_of_mem _ hw)) st1 s1.ok (le_trans s1.un hu)
    refine ⟨t :: ts, st2, max N M, fun n hn => ?_⟩
    rw [emitL, hN n (le_trans (le_max_left _ _) hn)]
    simp only []
    rw [hM n (le_trans (le_max_right _ _) hn)]

theorem body_total {H : List Cell} (hH : Closed H) {t0 : Tab} (hpos : Pos t0) {m : Nat} {p : Nat}
    (hsub : ∀ v ∈ (cellAt H p).parts, InHeap H v ∧ ∀ b st, StOk t0 st → unem H st ≤ m → ∃ t st', Emits H b st v t st')
    (hq : ∀ a d x q st, cellAt H p = .pair a d → StOk t0 st → unem H st ≤ m → quoteForm H st a d = some (q, x) → ∃ t st', Emits H false st x t st') :
    ∀ b st, StOk t0 st → unem H st ≤ m → ∃ t st' N, ∀ n, N ≤ n → emitBody H (emit H n) b st (cellAt H p) = some (t, st') := by
  intro b st hs hu
  unfold emitBody
  cases hc : cellAt H p with
  | str s => exact ⟨_, _, 0, fun _ _ => rfl⟩
  | vec l =>
    obtain ⟨ts, st', N, hN⟩ := emitL_total hH hpos (m := m) l (by rw [hc] at hsub; exact hsub) st hs hu
    exact ⟨.vec ts, st', N, fun n hn => by simp only [hN n hn]⟩
  | pair a d =>
    rw [hc] at hsub
    simp only []
    cases hqf : (if b = true then none else quoteForm H st a d) with
    | some r =>
      obtain ⟨q, x⟩ := r
      have hq' : quoteForm H st a d = some (q, x) := by cases b <;> simp at hqf; exact hqf
      obtain ⟨t, st', N, hN⟩ := hq a d x q st hc hs hu hq'
      exact ⟨.abbr q t, st', N, fun n hn => by simp only [hN n hn]⟩
    | none =>
      obtain ⟨ha, ha'⟩ := hsub a (by simp [Cell.parts])
      obtain ⟨_, hd'⟩ := hsub d (by simp [Cell.parts])
      obtain ⟨ta, st1, N, hN⟩ := ha' false st hs hu
      have s1 := emit_step hH hpos N false st a ta st1 (hN N (le_refl N)) ha hs
      obtain ⟨td, st2, M, hM⟩ := hd' true st1 s1.ok (le_trans s1.un hu)
      refine ⟨.pair ta td, st2, max N M, fun n hn => ?_⟩
      simp only [hN n (le_trans (le_max_left _ _) hn), hM n (le_trans (le_max_right _ _) hn)]

/-- The parts of what is quoted end, too. -/
theorem quote_ends {H : List Cell} {t0 : Tab} {st : WSt} (hs : StOk t0 st) {a d x : V} {q : Quoter} (h : quoteForm H st a d = some (q, x))
    (hd : Ends H (Labelled t0) d) : ∃ p, d = .ptr p ∧ cellAt H p = .pair x (.imm .nil) ∧
      ∀ w ∈ (cellAt H p).parts, Ends H (Labelled t0) w := by
  obtain ⟨p, h1, h2, _, h4⟩ := quoteForm_eq h
  refine ⟨p, h1, h2, ?_⟩
  subst h1
  cases hd with
  | lab _ hl =>
    obtain ⟨k, hk, _⟩ := hl
    rcases hs.tab p with h | ⟨_, j, _, h⟩
    · rw [h4, hk] at h; cases h
    · rw [h4] at h; cases h
  | node _ h => exact h

theorem emit_total {H : List Cell} (hH : Closed H) {t0 : Tab} (hpos : Pos t0) (hlab : ∀ q, Labelled t0 q → ∀ w ∈ (cellAt H q).parts, Ends H (Labelled t0) w)
    (hr : ∀ p k, V.ref k ∉ (cellAt H p).parts) (m : Nat) :
    ∀ v, Ends H (Labelled t0) v → InHeap H v → (∀ k, v ≠ .ref k) → ∀ b st, StOk t0 st → unem H st ≤ m → ∃ t st', Emits H b st v t st' := by
  induction m using Nat.strong_induction_on with
  | _ m ihm =>
    -- the object `p`, when all its parts are known
    have node : ∀ p, p < H.length → (∀ v ∈ (cellAt H p).parts, ∀ b st, StOk t0 st → unem H st ≤ m → ∃ t st', Emits H b st v t st') →
        (∀ v ∈ (cellAt H p).parts, Ends H (Labelled t0) v) →
        (∀ a d x q st, cellAt H p = .pair a d → StOk t0 st → unem H st ≤ m → quoteForm H st a d = some (q, x) → ∃ t st', Emits H false st x t st') →
        ∀ b st, StOk t0 st → unem H st ≤ m → ∃ t st', Emits H b st (.ptr p) t st' := by
      intro p hp hsub hend hq b st hs hu
      have hbody := body_total hH hpos (p := p) (fun v hv => ⟨hH p v hv, hsub v hv⟩) hq
      cases hpl : (cellAt H p).plain with
      | true =>
        obtain ⟨t, st', N, hN⟩ := hbody b st hs hu
        refine ⟨t, st', N + 1, fun n hn => ?_⟩
        obtain ⟨n, rfl⟩ : ∃ k, n = k + 1 := ⟨n - 1, by omega⟩
        rw [emit, hpl, if_pos rfl, hN n (by omega)]
      | false =>
        by_cases h0 : st.val p ≤ 0
        · refine ⟨.ref (-st.val p).toNat, st, 1, fun n hn => ?_⟩
          obtain ⟨n, rfl⟩ : ∃ k, n = k + 1 := ⟨n - 1, by omega⟩
          rw [emit, hpl, if_neg (by decide), if_pos h0]
        by_cases h1 : st.val p > 1
        · obtain ⟨s1, hlt⟩ := step_mark hpos hp hs h1
          obtain ⟨t, st', N, hN⟩ := hbody false (st.mark p) s1.ok (le_trans s1.un hu)
          refine ⟨.lab st.cnt t, st', N + 1, fun n hn => ?_⟩
          obtain ⟨n, rfl⟩ : ∃ k, n = k + 1 := ⟨n - 1, by omega⟩
          rw [emit, hpl, if_neg (by decide), if_neg h0, if_pos h1, hN n (by omega)]
        · obtain ⟨t, st', N, hN⟩ := hbody b st hs hu
          refine ⟨t, st', N + 1, fun n hn => ?_⟩
          obtain ⟨n, rfl⟩ : ∃ k, n = k + 1 := ⟨n - 1, by omega⟩
          rw [emit, hpl, if_neg (by decide), if_neg h0, if_neg h1, hN n (by omega)]
    -- an object that waits for its label
    have marked : ∀ p, p < H.length → Labelled t0 p → ∀ b st, StOk t0 st → unem H st ≤ m → ∃ t st', Emits H b st (.ptr p) t st' := by
      intro p hp hl b st hs hu
      cases hpl : (cellAt H p).plain with
      | true =>
        have hparts := plain_parts hpl
        refine node p hp (by rw [hparts]; simp) (by rw [hparts]; simp) ?_ b st hs hu
        intro a d x q st hc
        rw [hc] at hparts; cases hparts
      | false =>
        by_cases h0 : st.val p ≤ 0
        · refine ⟨.ref (-st.val p).toNat, st, 1, fun n hn => ?_⟩
          obtain ⟨n, rfl⟩ : ∃ k, n = k + 1 := ⟨n - 1, by omega⟩
          rw [emit, hpl, if_neg (by decide), if_pos h0]
        have h1 : st.val p > 1 := by
          rcases hs.tab p with h | ⟨_, k, _, h⟩
          · obtain ⟨k, hk, hk2⟩ := hl
            unfold WSt.val; rw [h, hk]; simp; omega
          · exfalso; apply h0; unfold WSt.val; rw [h]; simp
        obtain ⟨s1, hlt⟩ := step_mark hpos hp hs h1
        have ih' := ihm (unem H (st.mark p)) (by omega)
        have hbody := body_total hH hpos (m := unem H (st.mark p)) (p := p)
          (fun v hv => ⟨hH p v hv, fun b st' h1 h2 => ih' v (hlab p hl v hv) (hH p v hv) (fun k hk => hr p k (hk ▸ hv)) b st' h1 h2⟩)
          (by
            intro a d x q st' hc h1 h2 h3
            have hd := hlab p hl d (by rw [hc]; simp [Cell.parts])
            obtain ⟨p', hp', hx, hend⟩ := quote_ends h1 h3 hd
            have hxm : x ∈ (cellAt H p').parts := by rw [hx]; simp [Cell.parts]
            exact ih' x (hend x hxm) (hH p' x hxm) (fun k hk => hr p' k (hk ▸ hxm)) false st' h1 h2)
        obtain ⟨t, st', N, hN⟩ := hbody false (st.mark p) s1.ok (le_refl _)
        refine ⟨.lab st.cnt t, st', N + 1, fun n hn => ?_⟩
        obtain ⟨n, rfl⟩ : ∃ k, n = k + 1 := ⟨n - 1, by omega⟩
        rw [emit, hpl, if_neg (by decide), if_neg h0, if_pos h1, hN n (by omega)]
    -- a value and, for the quoting forms, the parts of its parts
    have key : ∀ v, Ends H (Labelled t0) v →
        (InHeap H v → (∀ k, v ≠ .ref k) → ∀ b st, StOk t0 st → unem H st ≤ m → ∃ t st', Emits H b st v t st') ∧
        ∀ p, v = .ptr p → ¬ Labelled t0 p → ∀ w ∈ (cellAt H p).parts, ∀ b st, StOk t0 st → unem H st ≤ m → ∃ t st', Emits H b st w t st' := by
      intro v he
      induction he with
      | imm a =>
        refine ⟨fun _ _ b st _ _ => ⟨.atom a, st, 1, fun n hn => ?_⟩, fun p h => by cases h⟩
        obtain ⟨n, rfl⟩ : ∃ k, n = k + 1 := ⟨n - 1, by omega⟩
        rw [emit]
      | ref k => exact ⟨fun _ h => absurd rfl (h k), fun p h => by cases h⟩
      | lab p hl =>
        refine ⟨fun hin _ => marked p (hin p rfl) hl, ?_⟩
        intro p' hp' hn
        injection hp' with hp'
        exact absurd (hp' ▸ hl) hn
      | node p hparts ih =>
        have hsub : ∀ w ∈ (cellAt H p).parts, ∀ b st, StOk t0 st → unem H st ≤ m → ∃ t st', Emits H b st w t st' :=
          fun w hw => (ih w hw).1 (hH p w hw) (fun k hk => hr p k (hk ▸ hw))
        refine ⟨fun hin _ => node p (hin p rfl) hsub hparts ?_, ?_⟩
        · intro a d x q st hc hs hu hqf
          have hdm : d ∈ (cellAt H p).parts := by rw [hc]; simp [Cell.parts]
          obtain ⟨p', e1, e2, _, e4⟩ := quoteForm_eq hqf
          have hnl : ¬ Labelled t0 p' := by
            rintro ⟨k, hk, _⟩
            rcases hs.tab p' with h | ⟨_, j, _, h⟩
            · rw [e4, hk] at h; cases h
            · rw [e4] at h; cases h
          exact (ih d hdm).2 p' e1 hnl x (by rw [e2]; simp [Cell.parts]) false st hs hu
        · intro p' hp' _ w hw
          injection hp' with hp'
          subst hp'
          exact hsub w hw
    intro v he hin hnr
    exact (key v he).1 hin hnr

end Gauche.Sexp

import Verif.Proof.SexpBuild
import Mathlib.Algebra.BigOperators.Group.Finset.Basic
import Mathlib.Algebra.BigOperators.Group.Finset.Piecewise
/-
With `write-shared` each object of the graph is written once.
-/
namespace Gauche.Sexp

/-- The references to `p` from the objects of the walk that have not been written. -/
def edges (H : List Cell) (t0 : Tab) (Ex : List Nat) (p : Nat) : Nat :=
  ∑ q ∈ Finset.range H.length, if (t0 q).isSome = true ∧ q ∉ Ex then (cellAt H q).parts.count (.ptr p) else 0

/-- `K` are the values that wait to be written, `Ex` the objects that have been written: there are no more references to an object than the walk has counted. -/
structure TInv (H : List Cell) (t0 : Tab) (st : WSt) (K : List V) (Ex : List Nat) : Prop where
  closed : ∀ q, t0 q ≠ none → ∀ r, V.ptr r ∈ (cellAt H q).parts → (cellAt H r).plain = false → t0 r ≠ none
  heap : ∀ q r, V.ptr r ∈ (cellAt H q).parts → r < H.length
  nodup : (Ex.filter fun p => !(cellAt H p).plain).Nodup
  vis : ∀ p, V.ptr p ∈ K → p < H.length ∧ ((cellAt H p).plain = false → t0 p ≠ none)
  one : ∀ p, (cellAt H p).plain = false → t0 p = some 1 → K.count (.ptr p) + (if p ∈ Ex then 1 else 0) + edges H t0 Ex p ≤ 1
  lab : ∀ p, (cellAt H p).plain = false → p ∈ Ex → Labelled t0 p → ∃ k : Nat, st.tab p = some (-(k : Int))

theorem TInv.pop {H : List Cell} {t0 : Tab} {st : WSt} {v : V} {K : List V} {Ex : List Nat} (h : TInv H t0 st (v :: K) Ex) : TInv H t0 st K Ex := by
  refine ⟨h.closed, h.heap, h.nodup, fun p hp => h.vis p (List.mem_cons_of_mem _ hp), fun p h1 h2 => ?_, h.lab⟩
  have h3 := h.one p h1 h2
  have : K.count (V.ptr p) ≤ (v :: K).count (V.ptr p) := List.count_le_count_cons
  omega

theorem TInv.plain {H : List Cell} {t0 : Tab} {st : WSt} {K : List V} {Ex : List Nat} {p : Nat} (h : TInv H t0 st K Ex) (hp : (cellAt H p).plain = true) :
    TInv H t0 st K (p :: Ex) := by
  have hne : ∀ r, (cellAt H r).plain = false → r ≠ p := by intro r hr hrp; rw [hrp, hp] at hr; cases hr
  refine ⟨h.closed, h.heap, ?_, h.vis, fun r h1 h2 => ?_, fun r h1 h2 h3 => ?_⟩
  · rw [List.filter_cons]; simp only [hp]; exact h.nodup
  · have h3 := h.one r h1 h2
    have h4 : edges H t0 (p :: Ex) r = edges H t0 Ex r := by
      unfold edges
      refine Finset.sum_congr rfl fun q _ => ?_
      by_cases hq : q = p
      · rw [hq, plain_parts hp]; simp
      · simp [hq]
    have h5 : (r ∈ p :: Ex) ↔ r ∈ Ex := by simp [hne r h1]
    simp only [h5, h4]
    exact h3
  · rw [List.mem_cons] at h2
    rcases h2 with h2 | h2
    · exact absurd h2 (hne r h1)
    · exact h.lab r h1 h2 h3

theorem TInv.expand {H : List Cell} {t0 : Tab} {st st1 : WSt} {K : List V} {Ex : List Nat} {p : Nat} (h : TInv H t0 st (.ptr p :: K) Ex) (hp : (cellAt H p).plain = false)
    (hx : p ∉ Ex) (hkeep : ∀ q (k : Nat), st.tab q = some (-(k : Int)) → st1.tab q = some (-(k : Int))) (hl : Labelled t0 p → ∃ k : Nat, st1.tab p = some (-(k : Int))) :
    TInv H t0 st1 ((cellAt H p).parts ++ K) (p :: Ex) := by
  obtain ⟨hlen, hvis⟩ := h.vis p (by simp)
  have hv := hvis hp
  refine ⟨h.closed, h.heap, ?_, fun r hr => ?_, fun r h1 h2 => ?_, fun r h1 h2 h3 => ?_⟩
  · rw [List.filter_cons]
    simp only [hp, Bool.not_false, if_true]
    exact List.nodup_cons.2 ⟨fun hm => hx (List.mem_filter.1 hm).1, h.nodup⟩
  · rw [List.mem_append] at hr
    rcases hr with hr | hr
    · exact ⟨h.heap p r hr, h.closed p hv r hr⟩
    · exact h.vis r (List.mem_cons_of_mem _ hr)
  · have h3 := h.one r h1 h2
    have h4 : edges H t0 Ex r = edges H t0 (p :: Ex) r + (cellAt H p).parts.count (.ptr r) := by
      unfold edges
      rw [← Finset.sum_ite_eq_of_mem' (Finset.range H.length) p (fun q => (cellAt H q).parts.count (.ptr r)) (Finset.mem_range.2 hlen), ← Finset.sum_add_distrib]
      refine Finset.sum_congr rfl fun q _ => ?_
      by_cases hq : q = p
      · subst hq
        have : (t0 q).isSome = true := by cases hh : t0 q with | none => exact absurd hh hv | some _ => rfl
        simp [hx, this]
      · simp [hq]
    rw [h4] at h3
    rw [List.count_append]
    by_cases hr : r = p
    · subst hr
      rw [List.count_cons_self, if_neg hx] at h3
      rw [if_pos (by simp)]
      omega
    · have h5 : (r ∈ p :: Ex) ↔ r ∈ Ex := by simp [hr]
      rw [List.count_cons_of_ne (by intro hc; injection hc with hc; exact hr hc.symm)] at h3
      simp only [h5]
      omega
  · rw [List.mem_cons] at h2
    rcases h2 with h2 | h2
    · subst h2; exact hl h3
    · obtain ⟨k, hk⟩ := h.lab r h1 h2 h3
      exact ⟨k, hkeep r k hk⟩

/-- Writing the values `l` writes the objects `X`. -/
def Tok (H : List Cell) (t0 : Tab) (st : WSt) (l : List V) (st' : WSt) (X : List Nat) : Prop :=
  ∀ K Ex, TInv H t0 st (l ++ K) Ex → TInv H t0 st' K (X ++ Ex)

theorem tok_nil {H : List Cell} {t0 : Tab} (st : WSt) : Tok H t0 st [] st [] := fun _ _ h => h

theorem tok_cons {H : List Cell} {t0 : Tab} (s1 s2 s3 : WSt) (v : V) (vs : List V) (X Y : List Nat) (h1 : Tok H t0 s1 [v] s2 X) (h2 : Tok H t0 s2 vs s3 Y) :
    Tok H t0 s1 (v :: vs) s3 (Y ++ X) := by
  intro K Ex h
  rw [List.append_assoc]
  exact h2 _ _ (h1 (vs ++ K) Ex h)

theorem good_emit {H : List Cell} (hH : Closed H) {t0 : Tab} (hpos : Pos t0) (hns : ∀ p, ∀ v ∈ (cellAt H p).parts, NoStr v) {lam : Nat → Nat} (n : Nat) :
    ∀ b st v t st', emit H n b st v = some (t, st') → InHeap H v → NoStr v → StOk t0 st → Agree lam st' →
      ∃ X, Good H lam st v st' (strip t) X ∧ Tok H t0 st [v] st' X := by
  induction n with
  | zero => intro b st v t st' h; cases h
  | succ n ih =>
    intro b st v t st' h hv hn hs hag
    have body : ∀ b st st' p t, p < H.length → emitBody H (emit H n) b st (cellAt H p) = some (t, st') → StOk t0 st → Agree lam st' →
        ∃ X, Good H lam st (.ptr p) st' (strip t) (X ++ [p]) ∧ Tok H t0 st (cellAt H p).parts st' X := by
      intro b st st' p t hp h hs hag
      have hin := hH p
      have hnp := hns p
      unfold emitBody at h
      cases hc : cellAt H p with
      | str s =>
        rw [hc] at h; injection h with h; injection h with h1 h2; subst h1; subst h2
        exact ⟨[], good_str hp hc, tok_nil st⟩
      | vec l =>
        rw [hc] at h hin hnp
        simp only [] at h
        cases h1 : emitL (emit H n false) st l with
        | none => rw [h1] at h; cases h
        | some r =>
          obtain ⟨ts, st1⟩ := r
          rw [h1] at h
          injection h with h; injection h with h2 h3; subst h2; subst h3
          rw [strip]
          obtain ⟨X, htk, hg⟩ := good_list (t0 := t0) (Tok := Tok H t0) tok_nil tok_cons l st st1 ts h1
            (fun s1 v t s2 hm he hok => emit_step hH hpos n false s1 v t s2 he (hin v hm) hok)
            (fun s1 v t s2 hm he hok ha => ih false s1 v t s2 he (hin v hm) (hnp v hm) hok ha) hs hag
          exact ⟨X, good_vec hc hg, htk⟩
      | pair a d =>
        rw [hc] at h hin hnp
        simp only [] at h
        cases hq : (if b = true then none else quoteForm H st a d) with
        | some r =>
          obtain ⟨q, x⟩ := r
          rw [hq] at h
          simp only [] at h
          cases h1 : emit H n false st x with
          | none => rw [h1] at h; cases h
          | some r =>
            obtain ⟨t', st1⟩ := r
            rw [h1] at h
            injection h with h; injection h with h2 h3; subst h2; subst h3
            have hq' : quoteForm H st a d = some (q, x) := by cases b <;> simp at hq; exact hq
            obtain ⟨p', e1, e2, e3, e4⟩ := quoteForm_eq hq'
            subst e1; subst e3
            rw [strip]
            obtain ⟨X, hg, _⟩ := ih false st x t' st1 h1 (hH p' x (by rw [e2]; simp [Cell.parts])) (hns p' x (by rw [e2]; simp [Cell.parts])) hs hag
            refine ⟨_, good_pair hc (good_imm (by intro s hs; cases hs)) (good_pair e2 hg (good_imm (by intro s hs; cases hs))), ?_⟩
            intro K Ex hT
            exfalso
            have := (hT.vis p' (by simp [Cell.parts])).2 (by rw [e2]; rfl)
            rcases hs.tab p' with h | ⟨_, j, _, h⟩
            · rw [e4] at h; exact this h.symm
            · rw [e4] at h; cases h
        | none =>
          rw [hq] at h
          simp only [] at h
          cases h1 : emit H n false st a with
          | none => rw [h1] at h; cases h
          | some r =>
            obtain ⟨ta, st1⟩ := r
            rw [h1] at h
            simp only [] at h
            cases h2 : emit H n true st1 d with
            | none => rw [h2] at h; cases h
            | some r2 =>
              obtain ⟨td, st2⟩ := r2
              rw [h2] at h
              injection h with h; injection h with h3 h4; subst h3; subst h4
              have s1 := emit_step hH hpos n false st a ta st1 h1 (hin a (by simp [Cell.parts])) hs
              have s2 := emit_step hH hpos n true st1 d td st2 h2 (hin d (by simp [Cell.parts])) s1.ok
              rw [strip]
              obtain ⟨Xa, ga, ka⟩ := ih false st a ta st1 h1 (hin a (by simp [Cell.parts])) (hnp a (by simp [Cell.parts])) hs (hag.back s2)
              obtain ⟨Xd, gd, kd⟩ := ih true st1 d td st2 h2 (hin d (by simp [Cell.parts])) (hnp d (by simp [Cell.parts])) s1.ok hag
              exact ⟨Xd ++ Xa, by rw [List.append_assoc]; exact good_pair hc ga gd, tok_cons _ _ _ _ _ _ _ ka kd⟩
    cases v with
    | imm a =>
      rw [emit] at h; injection h with h; injection h with h1 h2; subst h1; subst h2
      exact ⟨[], good_imm (by intro s hs; subst hs; exact hn s rfl), fun K Ex hT => hT.pop⟩
    | ref k => cases h
    | ptr p =>
      rw [emit] at h
      cases hpl : (cellAt H p).plain with
      | true =>
        rw [hpl, if_pos rfl] at h
        obtain ⟨X, hg, hk⟩ := body b st st' p t (hv p rfl) h hs hag
        refine ⟨X ++ [p], hg, fun K Ex hT => ?_⟩
        rw [List.append_assoc]
        refine hk K (p :: Ex) ?_
        rw [plain_parts hpl]
        exact hT.pop.plain hpl
      | false =>
        rw [hpl, if_neg (by decide)] at h
        by_cases h0 : st.val p ≤ 0
        · rw [if_pos h0] at h; injection h with h; injection h with h1 h2; subst h1; subst h2
          obtain ⟨k, hk, htab⟩ : ∃ k : Nat, k < st.cnt ∧ st.tab p = some (-(k : Int)) := by
            rcases hs.tab p with h1 | ⟨_, h1⟩
            · exfalso
              unfold WSt.val at h0
              cases htp : st.tab p with
              | none => rw [htp] at h0; simp at h0
              | some k =>
                rw [htp] at h1 h0
                have := hpos p k h1.symm
                simp at h0; omega
            · exact h1
          have hval : (-st.val p).toNat = k := by unfold WSt.val; rw [htab]; simp
          rw [hval, strip]
          exact ⟨[], good_ref hk (hag p k htab), fun K Ex hT => hT.pop⟩
        rw [if_neg h0] at h
        by_cases h1 : st.val p > 1
        · rw [if_pos h1] at h
          obtain ⟨s1, _⟩ := step_mark hpos (hv p rfl) hs h1
          cases h2 : emitBody H (emit H n) false (st.mark p) (cellAt H p) with
          | none => rw [h2] at h; cases h
          | some r =>
            obtain ⟨t', st1⟩ := r
            rw [h2] at h
            injection h with h; injection h with h3 h4; subst h3; subst h4
            have s2 := emitBody_step hH (emit_step hH hpos n) h2 s1.ok
            have hmk : (st.mark p).tab p = some (-(st.cnt : Int)) := by unfold WSt.mark Tab.set; simp
            rw [strip]
            obtain ⟨X, hg, hk⟩ := body false _ _ p t' (hv p rfl) h2 s1.ok hag
            refine ⟨X ++ [p], good_lab hg (strip_body_ne h2) (hag p st.cnt (s2.keep p st.cnt hmk)) s2.cnt, fun K Ex hT => ?_⟩
            rw [List.append_assoc]
            refine hk K (p :: Ex) (hT.expand hpl ?_ s1.keep fun _ => ⟨st.cnt, hmk⟩)
            intro hx
            have hlab : Labelled t0 p := by
              rcases hs.tab p with h1' | ⟨h1', _⟩
              · unfold WSt.val at h1
                cases htp : st.tab p with
                | none => rw [htp] at h1; simp at h1
                | some k => rw [htp] at h1; simp at h1; exact ⟨k, by rw [← h1']; exact htp, by omega⟩
              · exact h1'
            obtain ⟨k, hk⟩ := hT.lab p hpl hx hlab
            unfold WSt.val at h1
            rw [hk] at h1; simp at h1; omega
        · rw [if_neg h1] at h
          obtain ⟨X, hg, hk⟩ := body b st st' p t (hv p rfl) h hs hag
          refine ⟨X ++ [p], hg, fun K Ex hT => ?_⟩
          rw [List.append_assoc]
          have hv := (hT.vis p (by simp)).2 hpl
          have ht1 : t0 p = some 1 := by
            rcases hs.tab p with h1' | ⟨_, k, _, h1'⟩
            · unfold WSt.val at h0 h1
              cases htp : st.tab p with
              | none => rw [htp] at h1'; exact absurd h1'.symm hv
              | some k =>
                rw [htp] at h0 h1
                simp at h0 h1
                rw [← h1', htp]
                congr 1
                omega
            · exfalso; apply h0; unfold WSt.val; rw [h1']; simp
          refine hk K (p :: Ex) (hT.expand hpl ?_ (fun _ _ h => h) ?_)
          · intro hx
            have := hT.one p hpl ht1
            rw [List.singleton_append, List.count_cons_self, if_pos hx] at this
            omega
          · rintro ⟨k, hk, hk2⟩
            rw [ht1] at hk; injection hk with hk; omega

end Gauche.Sexp

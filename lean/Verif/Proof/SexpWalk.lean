import Verif.Model.SexpGraph
import Mathlib.Data.List.Basic
import Mathlib.Tactic.Tauto
/-
The walk ends, and every cycle has an object that gets a label.
-/
namespace Gauche.Sexp

/-- An object gets a label: its count is at least two. -/
def Labelled (t : Tab) (q : Nat) : Prop := ∃ k, t q = some k ∧ 2 ≤ k

/-- The entries that are there stay, with at least the same count. -/
def Mono (t t' : Tab) : Prop := ∀ q k, t q = some k → ∃ k', t' q = some k' ∧ k ≤ k'

/-- Counts are positive. -/
def Pos (t : Tab) : Prop := ∀ q k, t q = some k → 1 ≤ k

theorem Mono.refl (t : Tab) : Mono t t := fun _ k h => ⟨k, h, le_refl k⟩
theorem Mono.trans {t u w : Tab} (h1 : Mono t u) (h2 : Mono u w) : Mono t w := by
  intro q k h
  obtain ⟨k', hk', hle⟩ := h1 q k h
  obtain ⟨k'', hk'', hle'⟩ := h2 q k' hk'
  exact ⟨k'', hk'', le_trans hle hle'⟩
theorem Mono.lab {t u : Tab} (h : Mono t u) {q : Nat} (hq : Labelled t q) : Labelled u q := by
  obtain ⟨k, hk, h2⟩ := hq
  obtain ⟨k', hk', hle⟩ := h q k hk
  exact ⟨k', hk', le_trans h2 hle⟩

/-- From a value, following the parts of objects that are not in `L`, one gets to an end. -/
inductive Ends (H : List Cell) (L : Nat → Prop) : V → Prop
  | imm (a : Atom) : Ends H L (.imm a)
  | ref (k : Nat) : Ends H L (.ref k)
  | lab (p : Nat) : L p → Ends H L (.ptr p)
  | node (p : Nat) : (∀ w ∈ (cellAt H p).parts, Ends H L w) → Ends H L (.ptr p)

/-- The number of objects below `n` that are not in the table. -/
def absent (n : Nat) (t : Tab) : Nat := ((List.range n).filter fun p => (t p).isNone).length

theorem filter_len_le {α : Type} {l : List α} {f g : α → Bool} (h : ∀ x ∈ l, g x = true → f x = true) : (l.filter g).length ≤ (l.filter f).length := by
  induction l with
  | nil => simp
  | cons a l ih =>
    have ih' := ih fun x hx => h x (List.mem_cons_of_mem _ hx)
    have ha := h a (by simp)
    simp only [List.filter_cons]
    cases hg : g a <;> cases hf : f a <;> simp_all <;> omega

theorem filter_len_lt {α : Type} {l : List α} {f g : α → Bool} (h : ∀ x ∈ l, g x = true → f x = true) {a : α} (ha : a ∈ l) (h1 : f a = true) (h2 : g a = false) :
    (l.filter g).length < (l.filter f).length := by
  induction l with
  | nil => cases ha
  | cons b l ih =>
    have hle := filter_len_le (l := l) fun x hx => h x (List.mem_cons_of_mem _ hx)
    simp only [List.filter_cons]
    rw [List.mem_cons] at ha
    rcases ha with rfl | ha
    · simp [h1, h2]; omega
    · have ih' := ih (fun x hx => h x (List.mem_cons_of_mem _ hx)) ha
      have hb := h b (by simp)
      cases hg : g b <;> cases hf : f b <;> simp_all <;> omega

theorem absent_mono {n : Nat} {t u : Tab} (h : Mono t u) : absent n u ≤ absent n t := by
  refine filter_len_le fun p _ hp => ?_
  cases htp : t p with
  | none => rfl
  | some k =>
    obtain ⟨k', hk', _⟩ := h p k htp
    rw [hk'] at hp; cases hp

theorem absent_set {n : Nat} {t : Tab} {p : Nat} {x : Int} (hp : p < n) (h : t p = none) : absent n (t.set p (some x)) < absent n t := by
  refine filter_len_lt (a := p) ?_ (List.mem_range.2 hp) (by simp [h]) (by simp [Tab.set])
  intro q _ hq
  unfold Tab.set at hq
  by_cases hqp : q = p
  · rw [if_pos hqp] at hq; cases hq
  · rw [if_neg hqp] at hq; exact hq

/-- All addresses are in the heap. -/
def InHeap (H : List Cell) (v : V) : Prop := ∀ p, v = .ptr p → p < H.length

theorem set_mono {t : Tab} {p : Nat} {k : Int} (h : ∀ k', t p = some k' → k' ≤ k) : Mono t (t.set p (some k)) := by
  intro q j hq
  unfold Tab.set
  by_cases hqp : q = p
  · rw [if_pos hqp]; subst hqp; exact ⟨k, rfl, h j hq⟩
  · rw [if_neg hqp]; exact ⟨j, hq, le_refl j⟩

/-- What one walk does. -/
def WalkOk (H : List Cell) (t t' : Tab) (vs : List V) : Prop :=
  Mono t t' ∧ (Pos t → Pos t') ∧
    ∀ L : Nat → Prop, (∀ q, Labelled t' q → L q) →
      (∀ v ∈ vs, Ends H L v) ∧ ∀ q, t q = none → t' q ≠ none → ∀ w ∈ (cellAt H q).parts, Ends H L w

theorem walkL_ok {H : List Cell} {f : Tab → V → Option Tab} {m : Nat}
    (hf : ∀ t v, InHeap H v → Pos t → absent H.length t < m → ∃ t', f t v = some t' ∧ WalkOk H t t' [v]) :
    ∀ (l : List V) (t : Tab), (∀ v ∈ l, InHeap H v) → Pos t → absent H.length t < m → ∃ t', walkL f t l = some t' ∧ WalkOk H t t' l := by
  intro l
  induction l with
  | nil =>
    intro t _ _ _
    refine ⟨t, rfl, Mono.refl t, id, fun L _ => ⟨by simp, fun q h1 h2 => absurd h1 h2⟩⟩
  | cons v vs ih =>
    intro t hv hp ha
    obtain ⟨t1, h1, hm1, hp1, hL1⟩ := hf t v (hv v (by simp)) hp ha
    obtain ⟨t2, h2, hm2, hp2, hL2⟩ := ih t1 (fun w hw => hv w (List.mem_cons_of_mem _ hw)) (hp1 hp) (lt_of_le_of_lt (absent_mono hm1) ha)
    refine ⟨t2, by rw [walkL, h1]; exact h2, hm1.trans hm2, fun h => hp2 (hp1 h), fun L hL => ?_⟩
    obtain ⟨a1, a2⟩ := hL1 L fun q hq => hL q (hm2.lab hq)
    obtain ⟨b1, b2⟩ := hL2 L hL
    refine ⟨?_, ?_⟩
    · intro w hw
      rw [List.mem_cons] at hw
      rcases hw with rfl | hw
      · exact a1 _ (by simp)
      · exact b1 w hw
    · intro q hq hq'
      cases hq1 : t1 q with
      | none => exact b2 q hq1 hq'
      | some k => exact a2 q hq (by rw [hq1]; simp)

theorem plain_parts {c : Cell} (h : c.plain = true) : c.parts = [] := by
  cases c with
  | str s => rfl
  | pair a d => cases h
  | vec l => simpa [Cell.plain, Cell.parts] using h

theorem walk_ok {H : List Cell} (hH : ∀ c ∈ H, ∀ v ∈ c.parts, InHeap H v) (shared : Bool) (m : Nat) :
    ∀ t v, InHeap H v → Pos t → absent H.length t < m → ∃ t', walk H shared m t v = some t' ∧ WalkOk H t t' [v] := by
  induction m with
  | zero => intro t v _ _ h; omega
  | succ m ih =>
    intro t v hv hp ha
    have triv : ∀ (v : V), (∀ L, Ends H L v) → WalkOk H t t [v] := fun v hv =>
      ⟨Mono.refl t, id, fun L _ => ⟨by simpa using hv L, fun q h1 h2 => absurd h1 h2⟩⟩
    cases v with
    | imm a => exact ⟨t, rfl, triv _ fun L => .imm a⟩
    | ref k => exact ⟨t, rfl, triv _ fun L => .ref k⟩
    | ptr p =>
      rw [walk]
      have hpl : p < H.length := hv p rfl
      have hcell : cellAt H p ∈ H := by unfold cellAt; rw [List.getD_eq_getElem?_getD, List.getElem?_eq_getElem hpl]; simp
      cases hpp : (cellAt H p).plain with
      | true =>
        rw [if_pos rfl]
        exact ⟨t, rfl, triv _ fun L => .node p (by rw [plain_parts hpp]; simp)⟩
      | false =>
        rw [if_neg (by decide)]
        cases htp : t p with
        | some k =>
          simp only []
          have hk := hp p k htp
          refine ⟨_, rfl, set_mono (by rw [htp]; intro k' h'; injection h' with h'; omega), ?_, ?_⟩
          · intro _ q j hq
            unfold Tab.set at hq
            by_cases hqp : q = p
            · rw [if_pos hqp] at hq; injection hq with hq; omega
            · rw [if_neg hqp] at hq; exact hp q j hq
          · intro L hL
            refine ⟨?_, ?_⟩
            · intro v hv
              rw [List.mem_singleton] at hv
              subst hv
              exact .lab p (hL p ⟨k + 1, by simp [Tab.set], by omega⟩)
            · intro q hq hq'
              unfold Tab.set at hq'
              by_cases hqp : q = p
              · rw [hqp, htp] at hq; cases hq
              · rw [if_neg hqp] at hq'; exact absurd hq hq'
        | none =>
          simp only []
          have hab := absent_set (x := 1) hpl htp
          have hpos1 : Pos (t.set p (some 1)) := by
            intro q j hq
            unfold Tab.set at hq
            by_cases hqp : q = p
            · rw [if_pos hqp] at hq; injection hq with hq; omega
            · rw [if_neg hqp] at hq; exact hp q j hq
          obtain ⟨t2, h2, hm, hpos, hL2⟩ := walkL_ok ih (cellAt H p).parts (t.set p (some 1)) (hH _ hcell) hpos1 (by omega)
          rw [h2]
          have hm0 : Mono t (t.set p (some 1)) := set_mono (by rw [htp]; intro k' h'; cases h')
          have htset : ∀ q, q ≠ p → t.set p (some 1) q = t q := by intro q hq; unfold Tab.set; rw [if_neg hq]
          by_cases hdel : shared = false ∧ t2 p = some 1
          · simp only [if_pos hdel]
            have hne : ∀ q, q ≠ p → (t2.set p none) q = t2 q := by intro q hq; unfold Tab.set; rw [if_neg hq]
            have heq : (t2.set p none) p = none := by unfold Tab.set; rw [if_pos rfl]
            refine ⟨_, rfl, ?_, ?_, ?_⟩
            · intro q j hq
              have hqp : q ≠ p := by rintro rfl; rw [htp] at hq; cases hq
              rw [hne q hqp]
              exact (hm0.trans hm) q j hq
            · intro _ q j hq
              have hqp : q ≠ p := by rintro rfl; rw [heq] at hq; cases hq
              rw [hne q hqp] at hq
              exact hpos hpos1 q j hq
            · intro L hL
              obtain ⟨b1, b2⟩ := hL2 L (by
                intro q ⟨k, hk, hk2⟩
                have hqp : q ≠ p := by rintro rfl; rw [hdel.2] at hk; injection hk with hk; omega
                exact hL q ⟨k, by rw [hne q hqp]; exact hk, hk2⟩)
              refine ⟨?_, ?_⟩
              · intro v hv
                rw [List.mem_singleton] at hv
                subst hv
                exact .node p b1
              · intro q hq hq'
                have hqp : q ≠ p := by rintro rfl; rw [heq] at hq'; exact hq' rfl
                rw [hne q hqp] at hq'
                exact b2 q (by rw [htset q hqp]; exact hq) hq'
          · simp only [if_neg hdel]
            refine ⟨_, rfl, hm0.trans hm, fun _ => hpos hpos1, ?_⟩
            intro L hL
            obtain ⟨b1, b2⟩ := hL2 L hL
            refine ⟨?_, ?_⟩
            · intro v hv
              rw [List.mem_singleton] at hv
              subst hv
              exact .node p b1
            · intro q hq hq'
              by_cases hqp : q = p
              · subst hqp; exact b1
              · exact b2 q (by rw [htset q hqp]; exact hq) hq'

/-- The walk of a whole datum: it ends, and with labels on the objects counted twice the datum is finite. -/
theorem walk_root {H : List Cell} (hH : ∀ c ∈ H, ∀ v ∈ c.parts, InHeap H v) (shared : Bool) {v : V} (hv : InHeap H v) {m : Nat} (hm : H.length < m) :
    ∃ t, walk H shared m (fun _ => none) v = some t ∧ Pos t ∧ Ends H (Labelled t) v ∧ ∀ q, t q ≠ none → ∀ w ∈ (cellAt H q).parts, Ends H (Labelled t) w := by
  have hab : absent H.length (fun _ => none) < m := by
    refine lt_of_le_of_lt ?_ hm
    unfold absent
    exact le_trans (List.length_filter_le _ _) (by simp)
  obtain ⟨t, h1, _, hp, hL⟩ := walk_ok hH shared m (fun _ => none) v hv (by intro q k h; cases h) hab
  obtain ⟨a, b⟩ := hL (Labelled t) fun _ h => h
  exact ⟨t, h1, hp (by intro q k h; cases h), a v (by simp), fun q hq => b q rfl hq⟩

end Gauche.Sexp

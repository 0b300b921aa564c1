import Verif.Proof.SexpEmit
import Verif.Spec.Sexp
import Mathlib.Data.List.Forall2
/-
What the reader builds from the tree of a graph has the structure of the graph.
-/
namespace Gauche.Sexp

/-- A value of the reader stands for a value of the graph; `h` gives the object of the graph for each object of the reader, `lam` the object of a label. -/
inductive VRel (lam : Nat → Nat) (h : List Nat) : V → V → Prop
  | imm (a : Atom) : VRel lam h (.imm a) (.imm a)
  | ptr (p i : Nat) : h[i]? = some p → VRel lam h (.ptr p) (.ptr i)
  | ref (k : Nat) : VRel lam h (.ptr (lam k)) (.ref k)

inductive CellRel (lam : Nat → Nat) (h : List Nat) : Cell → Cell → Prop
  | str (s : List Char) : CellRel lam h (.str s) (.str s)
  | pair {a d a' d' : V} : VRel lam h a a' → VRel lam h d d' → CellRel lam h (.pair a d) (.pair a' d')
  | vec {l l' : List V} : List.Forall₂ (VRel lam h) l l' → CellRel lam h (.vec l) (.vec l')

theorem VRel.ext {lam : Nat → Nat} {h e : List Nat} {v w : V} (hr : VRel lam h v w) : VRel lam (h ++ e) v w := by
  cases hr with
  | imm a => exact .imm a
  | ptr p i hp => exact .ptr p i (by rw [List.getElem?_append_left (List.getElem?_eq_some_iff.1 hp).1]; exact hp)
  | ref k => exact .ref k

theorem CellRel.ext {lam : Nat → Nat} {h e : List Nat} {c d : Cell} (hr : CellRel lam h c d) : CellRel lam (h ++ e) c d := by
  cases hr with
  | str s => exact .str s
  | pair h1 h2 => exact .pair h1.ext h2.ext
  | vec hl => exact .vec (List.Forall₂.imp (fun _ _ h => VRel.ext h) hl)

/-- An object has a read reference. -/
def HasRef (c : Cell) : Prop := ∃ v ∈ c.parts, v.isRef = true

/-- From a pair along the cdrs. -/
inductive Path (G : List Cell) : Nat → Nat → Prop
  | refl (i : Nat) : Path G i i
  | step {j m i : Nat} {a a' d' : V} : cellAt G j = .pair a (.ptr m) → cellAt G m = .pair a' d' → Path G m i → Path G j i

theorem cellAt_append {G G2 : List Cell} {i : Nat} (h : i < G.length) : cellAt (G ++ G2) i = cellAt G i := by
  unfold cellAt
  rw [List.getD_eq_getElem?_getD, List.getD_eq_getElem?_getD, List.getElem?_append_left h]

theorem cellAt_big {G : List Cell} {i : Nat} (h : G.length ≤ i) : cellAt G i = .str [] := by
  unfold cellAt
  rw [List.getD_eq_getElem?_getD, List.getElem?_eq_none_iff.2 h]; rfl

theorem cellAt_last {G : List Cell} {c : Cell} : cellAt (G ++ [c]) G.length = c := by
  unfold cellAt
  simp

theorem Path.ext {G G2 : List Cell} {j i : Nat} (h : Path G j i) : Path (G ++ G2) j i := by
  induction h with
  | refl i => exact .refl i
  | @step j m i a a' d' h h2 _ ih =>
    refine .step (a := a) (a' := a') (d' := d') ?_ ?_ ih
    · rw [cellAt_append]
      · exact h
      · refine lt_of_not_ge fun hge => ?_
        rw [cellAt_big hge] at h; cases h
    · rw [cellAt_append]
      · exact h2
      · refine lt_of_not_ge fun hge => ?_
        rw [cellAt_big hge] at h2; cases h2

/-- Every object with a reference is in a list or vector that is pending. -/
def Covered (rst : RSt) : Prop := ∀ i, HasRef (cellAt rst.heap i) → ∃ j ∈ rst.pending, Path rst.heap j i

/-- The objects of the reader correspond to the graph, the labels to the state of the writer. -/
structure RInv (H : List Cell) (lam : Nat → Nat) (h : List Nat) (st : WSt) (rst : RSt) : Prop where
  len : h.length = rst.heap.length
  cells : ∀ i p, h[i]? = some p → CellRel lam h (cellAt H p) (cellAt rst.heap i)
  lab1 : ∀ k, rst.labels k = none ↔ st.cnt ≤ k
  lab2 : ∀ k v, rst.labels k = some (some v) → ∃ i, v = .ptr i ∧ h[i]? = some (lam k)
  refs : ∀ i k, V.ref k ∈ (cellAt rst.heap i).parts → rst.labels k ≠ none
  pend : ∀ j ∈ rst.pending, ∀ s, cellAt rst.heap j ≠ .str s
  inh : ∀ p ∈ h, p < H.length

/-- From one state of the reader to a later one. -/
structure Later (h : List Nat) (rst : RSt) (h' : List Nat) (rst' : RSt) : Prop where
  ext : ∃ e, h' = h ++ e
  heap : ∃ G, rst'.heap = rst.heap ++ G
  pend : ∀ j ∈ rst.pending, j ∈ rst'.pending
  prog : ∀ k, rst'.labels k = some none ↔ rst.labels k = some none

theorem Later.refl (h : List Nat) (rst : RSt) : Later h rst h rst := ⟨⟨[], by simp⟩, ⟨[], by simp⟩, fun _ h => h, fun _ => Iff.rfl⟩
theorem Later.trans {h h' h'' : List Nat} {r r' r'' : RSt} (a : Later h r h' r') (b : Later h' r' h'' r'') : Later h r h'' r'' := by
  obtain ⟨e1, he1⟩ := a.ext
  obtain ⟨e2, he2⟩ := b.ext
  obtain ⟨G1, hG1⟩ := a.heap
  obtain ⟨G2, hG2⟩ := b.heap
  exact ⟨⟨e1 ++ e2, by rw [he2, he1, List.append_assoc]⟩, ⟨G1 ++ G2, by rw [hG2, hG1, List.append_assoc]⟩, fun j hj => b.pend j (a.pend j hj),
    fun k => (b.prog k).trans (a.prog k)⟩
theorem Later.vrel {lam : Nat → Nat} {h h' : List Nat} {r r' : RSt} (a : Later h r h' r') {v w : V} (hv : VRel lam h v w) : VRel lam h' v w := by
  obtain ⟨e, rfl⟩ := a.ext
  exact hv.ext

/-- The result of building one datum. -/
structure Post (H : List Cell) (lam : Nat → Nat) (h : List Nat) (rst : RSt) (st' : WSt) (v : V) (s : Tree) (w : V) (f : Bool) (h' : List Nat) (rst' : RSt) (X : List Nat) : Prop where
  objs : ∃ e, h' = h ++ e ∧ e.Perm X
  later : Later h rst h' rst'
  inv : RInv H lam h' st' rst'
  rel : VRel lam h' v w
  ref : ∀ k, w = .ref k → s = .ref k ∧ rst.labels k = some none
  flag : s.isPair = false → f = w.isRef
  flag' : w.isRef = true → f = true
  cov : ∀ i, HasRef (cellAt rst'.heap i) → (∃ j ∈ rst'.pending, Path rst'.heap j i) ∨ (f = true ∧ ∃ j, w = .ptr j ∧ Path rst'.heap j i)
  ispair : s.isPair = true → ∃ j a d, w = .ptr j ∧ cellAt rst'.heap j = .pair a d

/-- The tree of a value can be built in any state that corresponds; `X` are the objects of the graph that the new objects stand for. -/
def Good (H : List Cell) (lam : Nat → Nat) (st : WSt) (v : V) (st' : WSt) (s : Tree) (X : List Nat) : Prop :=
  ∀ h rst, RInv H lam h st rst → Covered rst → ∃ w f h' rst', build s rst = some (w, f, rst') ∧ Post H lam h rst st' v s w f h' rst' X

/-- After `finish`. -/
structure FPost (H : List Cell) (lam : Nat → Nat) (h : List Nat) (rst : RSt) (st' : WSt) (v : V) (s : Tree) (w : V) (h' : List Nat) (rst' : RSt) (X : List Nat) : Prop where
  objs : ∃ e, h' = h ++ e ∧ e.Perm X
  later : Later h rst h' rst'
  inv : RInv H lam h' st' rst'
  rel : VRel lam h' v w
  ref : ∀ k, w = .ref k → s = .ref k ∧ rst.labels k = some none
  cov : Covered rst'

theorem good_finish {H : List Cell} {lam : Nat → Nat} {st : WSt} {v : V} {st' : WSt} {s : Tree} {X : List Nat} (hg : Good H lam st v st' s X) {h : List Nat} {rst : RSt}
    (hi : RInv H lam h st rst) (hc : Covered rst) :
    ∃ r, build s rst = some r ∧ ∃ h', FPost H lam h rst st' v s (finish s r).1 h' (finish s r).2 X := by
  obtain ⟨w, f, h', rst', hb, hp⟩ := hg h rst hi hc
  refine ⟨_, hb, h', ?_⟩
  unfold finish
  by_cases hpush : (s.isPair && f) = true
  · simp only [hpush, if_true]
    rw [Bool.and_eq_true] at hpush
    obtain ⟨j, a, d, hw, hcell⟩ := hp.ispair hpush.1
    subst hw
    have hheap : (rst'.push (.ptr j)).heap = rst'.heap := rfl
    have hpend : (rst'.push (.ptr j)).pending = j :: rst'.pending := rfl
    have hlab : (rst'.push (.ptr j)).labels = rst'.labels := rfl
    refine ⟨hp.objs, ⟨hp.later.ext, hp.later.heap, fun i hi => ?_, hp.later.prog⟩, ⟨hp.inv.len, hp.inv.cells, hp.inv.lab1, hp.inv.lab2, hp.inv.refs, ?_, hp.inv.inh⟩, hp.rel, hp.ref, ?_⟩
    · rw [hpend]; exact List.mem_cons_of_mem _ (hp.later.pend i hi)
    · intro i hi s
      rw [hpend, List.mem_cons] at hi
      rw [hheap]
      rcases hi with rfl | hi
      · rw [hcell]; simp
      · exact hp.inv.pend i hi s
    · intro i hi
      rw [hheap] at hi ⊢
      rw [hpend]
      rcases hp.cov i hi with ⟨m, hm, hpath⟩ | ⟨_, m, hm, hpath⟩
      · exact ⟨m, List.mem_cons_of_mem _ hm, hpath⟩
      · injection hm with hm; subst hm; exact ⟨_, by simp, hpath⟩
  · simp only [hpush, if_false]
    refine ⟨hp.objs, hp.later, hp.inv, hp.rel, hp.ref, ?_⟩
    intro i hi
    rcases hp.cov i hi with hcov | ⟨hf, m, hm, _⟩
    · exact hcov
    · exfalso
      cases hs : s.isPair with
      | true => rw [hs, hf] at hpush; simp at hpush
      | false => have := hp.flag hs; rw [hf, hm] at this; cases this

theorem good_imm {H : List Cell} {lam : Nat → Nat} {st : WSt} {a : Atom} (ha : ∀ s, a ≠ .str s) : Good H lam st (.imm a) st (.atom a) [] := by
  intro h rst hi hc
  refine ⟨.imm a, false, h, rst, ?_, ⟨[], by simp, .refl _⟩, Later.refl h rst, hi, .imm a, (fun k hk => by cases hk), fun _ => rfl, (fun hk => by cases hk), fun i hr => Or.inl (hc i hr), (fun hk => by cases hk)⟩
  cases a with
  | str s => exact absurd rfl (ha s)
  | _ => rfl

/-- A new object. -/
theorem inv_alloc {H : List Cell} {lam : Nat → Nat} {h : List Nat} {st : WSt} {rst : RSt} (hi : RInv H lam h st rst) {p : Nat} {c : Cell} (hlt : p < H.length)
    (hc : CellRel lam h (cellAt H p) c) (hr : ∀ k, V.ref k ∈ c.parts → rst.labels k ≠ none) :
    RInv H lam (h ++ [p]) st (rst.alloc c).2 ∧ Later h rst (h ++ [p]) (rst.alloc c).2 ∧ VRel lam (h ++ [p]) (.ptr p) (rst.alloc c).1 := by
  have hheap : (rst.alloc c).2.heap = rst.heap ++ [c] := rfl
  refine ⟨⟨?_, ?_, hi.lab1, ?_, ?_, ?_, ?_⟩, ⟨⟨[p], rfl⟩, ⟨[c], rfl⟩, fun _ h => h, fun _ => Iff.rfl⟩, ?_⟩
  · rw [hheap]; simp [hi.len]
  · intro i q hq
    rw [hheap]
    by_cases hlt : i < h.length
    · rw [List.getElem?_append_left hlt] at hq
      rw [cellAt_append (by rw [← hi.len]; exact hlt)]
      exact (hi.cells i q hq).ext
    · have hie : i = h.length := by
        have := (List.getElem?_eq_some_iff.1 hq).1
        simp at this; omega
      subst hie
      simp at hq
      subst hq
      rw [hi.len, cellAt_last]
      exact hc.ext
  · intro k v hk
    obtain ⟨i, h1, h2⟩ := hi.lab2 k v hk
    exact ⟨i, h1, by rw [List.getElem?_append_left (List.getElem?_eq_some_iff.1 h2).1]; exact h2⟩
  · intro i k hk
    rw [hheap] at hk
    by_cases hlt : i < rst.heap.length
    · rw [cellAt_append hlt] at hk; exact hi.refs i k hk
    · by_cases hie : i = rst.heap.length
      · subst hie; rw [cellAt_last] at hk; exact hr k hk
      · rw [cellAt_big (by simp; omega)] at hk; cases hk
  · intro j hj s
    rw [hheap]
    have h1 := hi.pend j hj
    have hlt : j < rst.heap.length := by
      refine lt_of_not_ge fun hge => ?_
      exact h1 [] (cellAt_big hge)
    rw [cellAt_append hlt]
    exact h1 s
  · intro q hq
    rw [List.mem_append, List.mem_singleton] at hq
    rcases hq with hq | rfl
    · exact hi.inh q hq
    · exact hlt
  · refine .ptr p _ ?_
    rw [← hi.len]; simp

/-- Paths and references after an allocation. -/
theorem cov_alloc {rst : RSt} {c : Cell} {i : Nat} (h : HasRef (cellAt (rst.alloc c).2.heap i)) :
    (i = rst.heap.length ∧ HasRef c) ∨ HasRef (cellAt rst.heap i) := by
  have hheap : (rst.alloc c).2.heap = rst.heap ++ [c] := rfl
  rw [hheap] at h
  by_cases hlt : i < rst.heap.length
  · rw [cellAt_append hlt] at h; exact Or.inr h
  · by_cases hie : i = rst.heap.length
    · subst hie; rw [cellAt_last] at h; exact Or.inl ⟨rfl, h⟩
    · rw [cellAt_big (by simp; omega)] at h
      obtain ⟨v, hv, _⟩ := h; cases hv

theorem good_str {H : List Cell} {lam : Nat → Nat} {st : WSt} {p : Nat} {s : List Char} (hp : p < H.length) (hc : cellAt H p = .str s) : Good H lam st (.ptr p) st (.atom (.str s)) [p] := by
  intro h rst hi hcov
  obtain ⟨h1, h2, h3⟩ := inv_alloc hi (p := p) (c := .str s) hp (by rw [hc]; exact .str s) (by intro k hk; cases hk)
  refine ⟨_, _, h ++ [p], _, rfl, ⟨[p], rfl, .refl _⟩, h2, h1, h3, (fun k hk => by cases hk), fun _ => rfl, (fun hk => by cases hk), ?_, (fun hk => by cases hk)⟩
  intro i hr
  rcases cov_alloc hr with ⟨_, v, hv, _⟩ | hr
  · cases hv
  · obtain ⟨j, hj, hp⟩ := hcov i hr
    exact Or.inl ⟨j, hj, hp.ext⟩

theorem good_pair {H : List Cell} {lam : Nat → Nat} {st st1 st2 : WSt} {a d : V} {ta td : Tree} {Xa Xd : List Nat} {p : Nat} (hc : cellAt H p = .pair a d)
    (ha : Good H lam st a st1 ta Xa) (hd : Good H lam st1 d st2 td Xd) : Good H lam st (.ptr p) st2 (.pair ta td) (Xd ++ (Xa ++ [p])) := by
  intro h rst hi hcov
  obtain ⟨r, hb, h1, hf⟩ := good_finish ha hi hcov
  obtain ⟨w, f, h2, rst2, hb2, hp⟩ := hd h1 _ hf.inv hf.cov
  have hrefA : ∀ k, (finish ta r).1 = .ref k → rst2.labels k = some none := by
    intro k hk
    obtain ⟨_, hl⟩ := hf.ref k hk
    exact (hp.later.prog k).2 ((hf.later.prog k).2 hl)
  have hrefD : ∀ k, w = .ref k → rst2.labels k = some none := by
    intro k hk
    obtain ⟨_, hl⟩ := hp.ref k hk
    exact (hp.later.prog k).2 hl
  obtain ⟨i1, i2, i3⟩ := inv_alloc hp.inv (p := p) (c := .pair (finish ta r).1 w) (lt_of_not_ge fun hge => by rw [cellAt_big hge] at hc; cases hc)
    (by rw [hc]; exact .pair (hp.later.vrel hf.rel) hp.rel) (by
      intro k hk
      simp only [Cell.parts, List.mem_cons, List.not_mem_nil, or_false] at hk
      rcases hk with hk | hk
      · rw [hrefA k hk.symm]; simp
      · rw [hrefD k hk.symm]; simp)
  refine ⟨(rst2.alloc (.pair (finish ta r).1 w)).1, (finish ta r).1.isRef || f, h2 ++ [p], (rst2.alloc (.pair (finish ta r).1 w)).2, ?_, ?_,
    (hf.later.trans hp.later).trans i2, i1, i3, (fun k hk => by cases hk), (fun hk => by cases hk), (fun hk => by cases hk), ?_, ?_⟩
  · rw [build, hb]; simp only []; rw [hb2]
  · obtain ⟨ea, rfl, pa⟩ := hf.objs
    obtain ⟨ed, rfl, pd⟩ := hp.objs
    refine ⟨ea ++ ed ++ [p], by simp, ?_⟩
    rw [← List.append_assoc]
    exact ((pa.append pd).trans List.perm_append_comm).append (.refl _)
  · intro i hr
    have hheap : (rst2.alloc (.pair (finish ta r).1 w)).2.heap = rst2.heap ++ [.pair (finish ta r).1 w] := rfl
    have hpn : (rst2.alloc (.pair (finish ta r).1 w)).2.pending = rst2.pending := rfl
    rcases cov_alloc hr with ⟨hie, v, hv, hv'⟩ | hr
    · right
      refine ⟨?_, _, rfl, by rw [hie]; exact .refl _⟩
      simp only [Cell.parts, List.mem_cons, List.not_mem_nil, or_false] at hv
      rcases hv with rfl | rfl
      · rw [hv']; rfl
      · rw [hp.flag' hv']; simp
    · rcases hp.cov i hr with ⟨j, hj, hpath⟩ | ⟨hft, j, hw, hpath⟩
      · exact Or.inl ⟨j, hj, by rw [hheap]; exact hpath.ext⟩
      · right
        refine ⟨by rw [hft]; simp, _, rfl, ?_⟩
        rw [hheap]
        have hpr : td.isPair = true := by
          cases hpt : td.isPair with
          | true => rfl
          | false => have := hp.flag hpt; rw [hft, hw] at this; cases this
        obtain ⟨j', a', d', hw', hcell⟩ := hp.ispair hpr
        have hjj : j' = j := by rw [hw] at hw'; injection hw' with hw'; exact hw'.symm
        subst hjj
        refine .step (a := (finish ta r).1) (m := j') (a' := a') (d' := d') ?_ ?_ hpath.ext
        · rw [cellAt_last, hw]
        · rw [cellAt_append]
          · exact hcell
          · refine lt_of_not_ge fun hge => ?_
            rw [cellAt_big hge] at hcell; cases hcell
  · intro _
    exact ⟨_, (finish ta r).1, w, rfl, cellAt_last⟩

/-- The labels of a state of the writer are those of `lam`. -/
def Agree (lam : Nat → Nat) (st : WSt) : Prop := ∀ p (k : Nat), st.tab p = some (-(k : Int)) → lam k = p

theorem Agree.back {H : List Cell} {t0 : Tab} {lam : Nat → Nat} {st st' : WSt} (h : Agree lam st') (hs : Step H t0 st st') : Agree lam st :=
  fun p k hk => h p k (hs.keep p k hk)

theorem emitL_step' {H : List Cell} {t0 : Tab} {f : WSt → V → Option (Tree × WSt)} :
    ∀ (l : List V) st ts st', emitL f st l = some (ts, st') → (∀ st1 v t st2, v ∈ l → f st1 v = some (t, st2) → StOk t0 st1 → Step H t0 st1 st2) → StOk t0 st → Step H t0 st st' := by
  intro l
  induction l with
  | nil => intro st ts st' h _ hs; rw [emitL] at h; injection h with h; injection h with _ h; subst h; exact Step.refl hs
  | cons v vs ih =>
    intro st ts st' h hf hs
    rw [emitL] at h
    cases h1 : f st v with
    | none => rw [h1] at h; cases h
    | some r =>
      obtain ⟨t, st1⟩ := r
      rw [h1] at h
      simp only [] at h
      cases h2 : emitL f st1 vs with
      | none => rw [h2] at h; cases h
      | some r2 =>
        obtain ⟨ts', st2⟩ := r2
        rw [h2] at h
        injection h with h; injection h with _ h; subst h
        have s1 := hf st v t st1 (by simp) h1 hs
        exact s1.trans (ih st1 ts' _ h2 (fun s1 w t s2 hw => hf s1 w t s2 (List.mem_cons_of_mem _ hw)) s1.ok)

/-- The elements of a vector. -/
theorem good_list {H : List Cell} {t0 : Tab} {lam : Nat → Nat} {f : WSt → V → Option (Tree × WSt)} {Tok : WSt → List V → WSt → List Nat → Prop}
    (tnil : ∀ st, Tok st [] st []) (tcons : ∀ s1 s2 s3 v vs X Y, Tok s1 [v] s2 X → Tok s2 vs s3 Y → Tok s1 (v :: vs) s3 (Y ++ X)) :
    ∀ (l : List V) (st st' : WSt) (ts : List Tree), emitL f st l = some (ts, st') →
      (∀ st1 v t st2, v ∈ l → f st1 v = some (t, st2) → StOk t0 st1 → Step H t0 st1 st2) →
      (∀ st1 v t st2, v ∈ l → f st1 v = some (t, st2) → StOk t0 st1 → Agree lam st2 → ∃ X, Good H lam st1 v st2 (strip t) X ∧ Tok st1 [v] st2 X) →
      StOk t0 st → Agree lam st' → ∃ X, Tok st l st' X ∧
      ∀ h rst, RInv H lam h st rst → Covered rst → ∃ vs h' rst', buildL (stripL ts) rst = some (vs, rst') ∧ (∃ e, h' = h ++ e ∧ e.Perm X) ∧ Later h rst h' rst' ∧ RInv H lam h' st' rst' ∧
        Covered rst' ∧ List.Forall₂ (VRel lam h') l vs ∧ ∀ k, V.ref k ∈ vs → rst'.labels k = some none := by
  intro l
  induction l with
  | nil =>
    intro st st' ts h _ _ _ _
    rw [emitL] at h
    injection h with h; injection h with h1 h2; subst h1; subst h2
    refine ⟨[], tnil st, fun hh rst hi hc => ?_⟩
    exact ⟨[], hh, rst, by rw [stripL, buildL], ⟨[], by simp, .refl _⟩, Later.refl _ _, hi, hc, .nil, fun k hk => by cases hk⟩
  | cons v vs ih =>
    intro st st' ts h hstep hg hok hag
    rw [emitL] at h
    cases h1 : f st v with
    | none => rw [h1] at h; cases h
    | some r =>
      obtain ⟨t, st1⟩ := r
      rw [h1] at h
      simp only [] at h
      cases h2 : emitL f st1 vs with
      | none => rw [h2] at h; cases h
      | some r2 =>
        obtain ⟨ts', st2⟩ := r2
        rw [h2] at h
        injection h with h; injection h with h3 h4; subst h3; subst h4
        have s1 := hstep st v t st1 (by simp) h1 hok
        have s2 := emitL_step' vs st1 ts' st2 h2 (fun s1 w t s2 hw => hstep s1 w t s2 (List.mem_cons_of_mem _ hw)) s1.ok
        obtain ⟨X, hgd, htk⟩ := hg st v t st1 (by simp) h1 hok (hag.back s2)
        obtain ⟨Y, htk2, hrest⟩ := ih st1 st2 ts' h2 (fun s1 w t s2 hw => hstep s1 w t s2 (List.mem_cons_of_mem _ hw)) (fun s1 w t s2 hw => hg s1 w t s2 (List.mem_cons_of_mem _ hw)) s1.ok hag
        refine ⟨Y ++ X, tcons _ _ _ _ _ _ _ htk htk2, fun hh rst hi hc => ?_⟩
        obtain ⟨r, hb, h', hf⟩ := good_finish hgd hi hc
        obtain ⟨ws, h'', rst'', hbl, ho2, hl, hinv, hcov, hrel, href⟩ := hrest h' _ hf.inv hf.cov
        refine ⟨(finish (strip t) r).1 :: ws, h'', rst'', ?_, ?_, hf.later.trans hl, hinv, hcov, .cons (hl.vrel hf.rel) hrel, ?_⟩
        · rw [stripL, buildL, hb]; simp only []; rw [hbl]
        · obtain ⟨e1, rfl, p1⟩ := hf.objs
          obtain ⟨e2, rfl, p2⟩ := ho2
          exact ⟨e1 ++ e2, by simp, (p1.append p2).trans List.perm_append_comm⟩
        · intro k hk
          rw [List.mem_cons] at hk
          rcases hk with hk | hk
          · exact (hl.prog k).2 ((hf.later.prog k).2 (hf.ref k hk.symm).2)
          · exact href k hk

theorem good_vec {H : List Cell} {lam : Nat → Nat} {st st' : WSt} {l : List V} {ts : List Tree} {X : List Nat} {p : Nat} (hc : cellAt H p = .vec l)
    (hl : ∀ h rst, RInv H lam h st rst → Covered rst → ∃ vs h' rst', buildL (stripL ts) rst = some (vs, rst') ∧ (∃ e, h' = h ++ e ∧ e.Perm X) ∧ Later h rst h' rst' ∧ RInv H lam h' st' rst' ∧
        Covered rst' ∧ List.Forall₂ (VRel lam h') l vs ∧ ∀ k, V.ref k ∈ vs → rst'.labels k = some none) : Good H lam st (.ptr p) st' (.vec (stripL ts)) (X ++ [p]) := by
  intro h rst hi hcov
  obtain ⟨vs, h1, rst1, hb, hob, hlat, hinv, hcov1, hrel, href⟩ := hl h rst hi hcov
  obtain ⟨i1, i2, i3⟩ := inv_alloc hinv (p := p) (c := .vec vs) (lt_of_not_ge fun hge => by rw [cellAt_big hge] at hc; cases hc) (by rw [hc]; exact .vec hrel) (by
    intro k hk; rw [href k hk]; simp)
  have hheap : (rst1.alloc (.vec vs)).2.heap = rst1.heap ++ [.vec vs] := rfl
  have hpn : (rst1.alloc (.vec vs)).2.pending = rst1.pending := rfl
  have hob' : ∃ e, h1 ++ [p] = h ++ e ∧ e.Perm (X ++ [p]) := by
    obtain ⟨e, rfl, pe⟩ := hob
    exact ⟨e ++ [p], by simp, pe.append (.refl _)⟩
  by_cases hany : vs.any V.isRef = true
  · refine ⟨(rst1.alloc (.vec vs)).1, false, h1 ++ [p], (rst1.alloc (.vec vs)).2.push (rst1.alloc (.vec vs)).1, ?_, hob', ?_, ?_, i3, (fun k hk => by cases hk), fun _ => rfl,
      (fun hk => by cases hk), ?_, (fun hk => by cases hk)⟩
    · rw [build, hb]; simp only [hany, if_true]
    · refine (hlat.trans i2).trans ⟨⟨[], by simp⟩, ⟨[], by simp [RSt.push, RSt.alloc]⟩, ?_, fun _ => Iff.rfl⟩
      intro j hj; exact List.mem_cons_of_mem _ hj
    · refine ⟨i1.len, i1.cells, i1.lab1, i1.lab2, i1.refs, ?_, i1.inh⟩
      intro j hj s
      have hj' : j = rst1.heap.length ∨ j ∈ rst1.pending := by simpa [RSt.push, RSt.alloc] using hj
      rcases hj' with rfl | hj'
      · show cellAt (rst1.heap ++ [.vec vs]) rst1.heap.length ≠ .str s
        rw [cellAt_last]; simp
      · exact i1.pend j hj' s
    · intro i hr
      left
      have hr' : HasRef (cellAt (rst1.alloc (.vec vs)).2.heap i) := hr
      rcases cov_alloc hr' with ⟨hie, _⟩ | hr'
      · subst hie; exact ⟨rst1.heap.length, by simp [RSt.push, RSt.alloc], .refl _⟩
      · obtain ⟨j, hj, hp⟩ := hcov1 i hr'
        exact ⟨j, List.mem_cons_of_mem _ hj, hp.ext⟩
  · refine ⟨(rst1.alloc (.vec vs)).1, false, h1 ++ [p], (rst1.alloc (.vec vs)).2, ?_, hob', hlat.trans i2, i1, i3, (fun k hk => by cases hk), fun _ => rfl,
      (fun hk => by cases hk), ?_, (fun hk => by cases hk)⟩
    · rw [build, hb]; simp only [hany]; rfl
    · intro i hr
      left
      rcases cov_alloc hr with ⟨_, v, hv, hv'⟩ | hr'
      · exfalso; exact hany (List.any_eq_true.2 ⟨v, hv, hv'⟩)
      · obtain ⟨j, hj, hp⟩ := hcov1 i hr'
        exact ⟨j, hj, hp.ext⟩

theorem good_ref {H : List Cell} {lam : Nat → Nat} {st : WSt} {p k : Nat} (hk : k < st.cnt) (hl : lam k = p) : Good H lam st (.ptr p) st (.ref k) [] := by
  intro h rst hi hcov
  cases hlk : rst.labels k with
  | none => have := (hi.lab1 k).1 hlk; omega
  | some x =>
    cases x with
    | none =>
      refine ⟨.ref k, true, h, rst, by rw [build, hlk], ⟨[], by simp, .refl _⟩, Later.refl _ _, hi, by rw [← hl]; exact .ref k, ?_, fun _ => rfl, fun _ => rfl, fun i hr => Or.inl (hcov i hr), (fun hk => by cases hk)⟩
      intro j hj
      injection hj with hj; subst hj
      exact ⟨rfl, hlk⟩
    | some v =>
      obtain ⟨i, hv, hh⟩ := hi.lab2 k v hlk
      subst hv
      refine ⟨.ptr i, false, h, rst, by rw [build, hlk]; rfl, ⟨[], by simp, .refl _⟩, Later.refl _ _, hi, .ptr p i (by rw [hh, hl]), (fun j hj => by cases hj), fun _ => rfl, (fun hj => by cases hj),
        fun i hr => Or.inl (hcov i hr), (fun hk => by cases hk)⟩

theorem good_lab {H : List Cell} {lam : Nat → Nat} {st st' : WSt} {p : Nat} {s : Tree} {X : List Nat} (hg : Good H lam (st.mark p) (.ptr p) st' s X) (hs : ∀ k, s ≠ .ref k)
    (hl : lam st.cnt = p) (hcnt : (st.mark p).cnt ≤ st'.cnt) : Good H lam st (.ptr p) st' (.lab st.cnt s) X := by
  intro h rst hi hcov
  have hnone : rst.labels st.cnt = none := (hi.lab1 st.cnt).2 (le_refl _)
  have hlab : ∀ k, (rst.setLabel st.cnt none).labels k = if k = st.cnt then some none else rst.labels k := fun k => rfl
  have hi1 : RInv H lam h (st.mark p) (rst.setLabel st.cnt none) := by
    refine ⟨hi.len, hi.cells, ?_, ?_, ?_, hi.pend, hi.inh⟩
    · intro k
      rw [hlab]
      by_cases hk : k = st.cnt
      · rw [if_pos hk]; simp [WSt.mark, hk]
      · rw [if_neg hk, hi.lab1]; simp [WSt.mark]; omega
    · intro k v hv
      rw [hlab] at hv
      by_cases hk : k = st.cnt
      · rw [if_pos hk] at hv; cases hv
      · rw [if_neg hk] at hv; exact hi.lab2 k v hv
    · intro i k hk
      rw [hlab]
      by_cases hk' : k = st.cnt
      · rw [if_pos hk']; simp
      · rw [if_neg hk']; exact hi.refs i k hk
  obtain ⟨r, hb, h', hf⟩ := good_finish hg hi1 hcov
  obtain ⟨i, hw, hh⟩ : ∃ i, (finish s r).1 = .ptr i ∧ h'[i]? = some p := by
    have hrel := hf.rel
    cases hw : (finish s r).1 with
    | imm a => rw [hw] at hrel; cases hrel
    | ref k => exact absurd (hf.ref k hw).1 (hs k)
    | ptr i => rw [hw] at hrel; cases hrel with | ptr _ _ hh => exact ⟨i, rfl, hh⟩
  have hlab' : ∀ k, ((finish s r).2.setLabel st.cnt (some (.ptr i))).labels k = if k = st.cnt then some (some (.ptr i)) else (finish s r).2.labels k := fun k => rfl
  refine ⟨.ptr i, false, h', (finish s r).2.setLabel st.cnt (some (.ptr i)), ?_, hf.objs, ⟨hf.later.ext, hf.later.heap, hf.later.pend, ?_⟩, ⟨hf.inv.len, hf.inv.cells, ?_, ?_, ?_, hf.inv.pend, hf.inv.inh⟩,
    .ptr p i hh, (fun k hk => by cases hk), fun _ => rfl, (fun hk => by cases hk), fun j hr => Or.inl (hf.cov j hr), (fun hk => by cases hk)⟩
  · rw [build, hnone]
    simp only [hb, hw]
    rfl
  · intro k
    rw [hlab']
    by_cases hk : k = st.cnt
    · rw [if_pos hk, hk, hnone]; simp
    · rw [if_neg hk, hf.later.prog k, hlab, if_neg hk]
  · intro k
    rw [hlab']
    by_cases hk : k = st.cnt
    · rw [if_pos hk]
      have : (st.mark p).cnt = st.cnt + 1 := rfl
      simp; omega
    · rw [if_neg hk]; exact hf.inv.lab1 k
  · intro k v hv
    rw [hlab'] at hv
    by_cases hk : k = st.cnt
    · rw [if_pos hk] at hv
      injection hv with hv; injection hv with hv
      exact ⟨i, hv.symm, by rw [hh, hk, hl]⟩
    · rw [if_neg hk] at hv; exact hf.inv.lab2 k v hv
  · intro j k hk
    rw [hlab']
    by_cases hk' : k = st.cnt
    · rw [if_pos hk']; simp
    · rw [if_neg hk']; exact hf.inv.refs j k hk

/-! ### the whole tree -/

/-- The immediate values of the graph are not strings. -/
def NoStr (v : V) : Prop := ∀ s, v ≠ .imm (.str s)

theorem strip_body_ne {H : List Cell} {f : Bool → WSt → V → Option (Tree × WSt)} {b : Bool} {st st' : WSt} {c : Cell} {t : Tree}
    (h : emitBody H f b st c = some (t, st')) : ∀ k, strip t ≠ .ref k := by
  unfold emitBody at h
  intro k hk
  cases c with
  | str s => injection h with h; injection h with h _; subst h; cases hk
  | vec l =>
    simp only [] at h
    cases h1 : emitL (f false) st l with
    | none => rw [h1] at h; cases h
    | some r => rw [h1] at h; injection h with h; injection h with h _; subst h; cases hk
  | pair a d =>
    simp only [] at h
    cases hq : (if b = true then none else quoteForm H st a d) with
    | some r =>
      rw [hq] at h
      simp only [] at h
      cases h1 : f false st r.2 with
      | none => rw [h1] at h; cases h
      | some r => rw [h1] at h; injection h with h; injection h with h _; subst h; cases hk
    | none =>
      rw [hq] at h
      simp only [] at h
      cases h1 : f false st a with
      | none => rw [h1] at h; cases h
      | some r =>
        obtain ⟨ta, st1⟩ := r
        rw [h1] at h
        simp only [] at h
        cases h2 : f true st1 d with
        | none => rw [h2] at h; cases h
        | some r2 => rw [h2] at h; injection h with h; injection h with h _; subst h; cases hk

end Gauche.Sexp

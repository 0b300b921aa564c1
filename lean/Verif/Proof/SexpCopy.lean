import Verif.Proof.SexpFlush
import Verif.Proof.SexpCount
import Verif.Proof.SexpMachine
import Verif.Spec.SexpGraph
import Mathlib.Order.OrderIsoNat
/-
Writing and reading a graph.
-/
namespace Gauche.Sexp

theorem cellAt_some {H : List Cell} {p : Nat} {c : Cell} (h : H[p]? = some c) : cellAt H p = c := by
  unfold cellAt; rw [List.getD_eq_getElem?_getD, h]; rfl

theorem cellAt_lt {H : List Cell} {p : Nat} (h : p < H.length) : H[p]? = some (cellAt H p) := by
  unfold cellAt; rw [List.getD_eq_getElem?_getD, List.getElem?_eq_getElem h]; rfl

theorem parts_value {H : List Cell} (hH : HeapOk H) (p : Nat) : ∀ v ∈ (cellAt H p).parts, Value H v := by
  intro v hv
  by_cases hp : p < H.length
  · have hm : cellAt H p ∈ H := List.mem_of_getElem? (cellAt_lt hp)
    have h1 := hH _ hm
    cases hc : cellAt H p with
    | str s => rw [hc] at hv; cases hv
    | pair a d =>
      rw [hc] at hv h1
      simp only [Cell.parts, List.mem_cons, List.not_mem_nil, or_false] at hv
      rcases hv with rfl | rfl
      · exact h1.1
      · exact h1.2
    | vec l => rw [hc] at hv h1; exact h1 v hv
  · rw [cellAt_big (by omega)] at hv; cases hv

theorem Value.inHeap {H : List Cell} {v : V} (h : Value H v) : InHeap H v := by
  intro p hp
  rcases h with ⟨a, h, _⟩ | ⟨q, h, h'⟩
  · rw [h] at hp; cases hp
  · rw [h'] at hp; injection hp with hp; rw [← hp]; exact h

theorem Value.noStr {H : List Cell} {v : V} (h : Value H v) : NoStr v := by
  intro s hs
  rcases h with ⟨a, h, h'⟩ | ⟨q, _, h⟩
  · rw [h] at hs; injection hs with hs; exact h' s hs
  · rw [h] at hs; cases hs

theorem Value.noRef {H : List Cell} {v : V} (h : Value H v) : ∀ k, v ≠ .ref k := by
  intro k hk
  rcases h with ⟨a, h, _⟩ | ⟨q, _, h⟩
  · rw [h] at hk; cases hk
  · rw [h] at hk; cases hk

theorem heap_closed {H : List Cell} (hH : HeapOk H) : Closed H := fun p v hv => (parts_value hH p v hv).inHeap

theorem cdr_wf {H : List Cell} (h : ListsEnd H) : WellFounded (CdrOf H) := by
  rw [wellFounded_iff_isEmpty_descending_chain]
  refine ⟨fun ⟨f, hf⟩ => h ⟨f, fun n => ?_⟩⟩
  obtain ⟨a, ha⟩ := hf n
  refine ⟨a, ?_⟩
  have hlt : f n < H.length := by
    refine lt_of_not_ge fun hge => ?_
    rw [cellAt_big hge] at ha; cases ha
  rw [cellAt_lt hlt, ha]

/-- The label of an object. -/
noncomputable def lamOf (st : WSt) (k : Nat) : Nat := by
  classical
  exact if h : ∃ p, st.tab p = some (-(k : Int)) then h.choose else 0

theorem lam_agree {t0 : Tab} {st : WSt} (h : StOk t0 st) : Agree (lamOf st) st := by
  intro p k hk
  have hex : ∃ p, st.tab p = some (-(k : Int)) := ⟨p, hk⟩
  unfold lamOf
  rw [dif_pos hex]
  exact h.inj _ _ k hex.choose_spec hk

theorem copy_of_inv {H : List Cell} {lam : Nat → Nat} {h : List Nat} {L : Nat → Option (Option V)} {G : List Cell} (hi : FInv H lam h L G) (hno : ∀ i, ¬ HasRef (cellAt G i))
    (hin : ∀ p ∈ h, p < H.length) {v w : V} (hr : VRel lam h v w) (hw : w.isRef = false) : CopyBy (fun p i => h[i]? = some p) H v G w := by
  have same : ∀ x y, VRel lam h x y → y.isRef = false → SameV (fun p i => h[i]? = some p) x y := by
    intro x y hxy hy
    cases hxy with
    | imm a => exact .imm a
    | ptr p i hp => exact .ptr p i hp
    | ref k => cases hy
  refine ⟨same v w hr hw, fun p i hp => ?_, fun p q i h1 h2 => by rw [h1] at h2; injection h2⟩
  have hlt : i < G.length := by rw [← hi.len]; exact (List.getElem?_eq_some_iff.1 hp).1
  refine ⟨_, _, cellAt_lt (hin p (List.mem_of_getElem? hp)), cellAt_lt hlt, ?_⟩
  have hc := hi.cells i p hp
  have hn : ∀ y ∈ (cellAt G i).parts, y.isRef = false := fun y hy => noref_cell (hno i) hy
  generalize cellAt H p = c at hc
  generalize cellAt G i = d at hc hn
  cases hc with
  | str s => exact .str s
  | pair h1 h2 => exact .pair (same _ _ h1 (hn _ (by simp [Cell.parts]))) (same _ _ h2 (hn _ (by simp [Cell.parts])))
  | vec hl =>
    refine .vec hl.length_eq fun n x y hx hy => ?_
    obtain ⟨hx1, hx2⟩ := List.getElem?_eq_some_iff.1 hx
    obtain ⟨hy1, hy2⟩ := List.getElem?_eq_some_iff.1 hy
    have := List.forall₂_iff_get.1 hl
    refine same x y ?_ (hn y (List.mem_of_getElem? hy))
    have h3 := this.2 n hx1 hy1
    simp only [List.get_eq_getElem] at h3
    rw [← hx2, ← hy2]
    exact h3

theorem walkL_mono {f g : Tab → V → Option Tab} (hfg : ∀ t v t', f t v = some t' → g t v = some t') : ∀ (vs : List V) t t', walkL f t vs = some t' → walkL g t vs = some t' := by
  intro vs
  induction vs with
  | nil => intro t t' h; exact h
  | cons v vs ih =>
    intro t t' h
    rw [walkL] at h ⊢
    cases h1 : f t v with
    | none => rw [h1] at h; cases h
    | some u => rw [h1] at h; rw [hfg t v u h1]; exact ih u t' h

theorem walk_succ {H : List Cell} {b : Bool} (n : Nat) : ∀ t v t', walk H b n t v = some t' → walk H b (n + 1) t v = some t' := by
  induction n with
  | zero => intro t v t' h; cases h
  | succ n ih =>
    intro t v t' h
    cases v with
    | imm a => exact h
    | ref a => exact h
    | ptr p =>
      rw [walk] at h ⊢
      by_cases hp : (cellAt H p).plain = true
      · rw [if_pos hp] at h ⊢; exact h
      · rw [if_neg hp] at h ⊢
        cases htp : t p with
        | some k => rw [htp] at h; exact h
        | none =>
          rw [htp] at h
          simp only [] at h ⊢
          cases hw : walkL (walk H b n) (t.set p (some 1)) (cellAt H p).parts with
          | none => rw [hw] at h; cases h
          | some u => rw [hw] at h; rw [walkL_mono ih _ _ _ hw]; exact h

theorem walk_mono {H : List Cell} {b : Bool} {n k : Nat} {t : Tab} {v : V} {t' : Tab} (h : walk H b n t v = some t') : walk H b (n + k) t v = some t' := by
  induction k with
  | zero => exact h
  | succ k ih => exact walk_succ (n + k) t v t' ih

/-- Writing a graph: the walk ends, and the text is the text of a tree that can be built. -/
theorem write_ok {H : List Cell} (hH : HeapOk H) {v : V} (hv : Value H v) (shared : Bool) :
    ∃ t0 tr st' N, Pos t0 ∧ StOk t0 ⟨t0, 0⟩ ∧ (∀ m, N ≤ m → walk H shared m (fun _ => none) v = some t0 ∧ emit H m false ⟨t0, 0⟩ v = some (tr, st')) ∧
      (∀ e, ∃ M, ∀ m, M ≤ m → writeGraph e shared m H v = some (writeTree e tr)) ∧ st'.cnt ≤ H.length := by
  have hcl := heap_closed hH
  have hcl' : ∀ c ∈ H, ∀ v ∈ c.parts, InHeap H v := by
    intro c hc w hw
    obtain ⟨p, hp⟩ := List.getElem?_of_mem hc
    exact hcl p w (by rw [cellAt_some hp]; exact hw)
  obtain ⟨t0, h1, h2, h3, h4⟩ := walk_root hcl' shared hv.inHeap (m := H.length + 1) (by omega)
  have hwalk : ∀ m, H.length + 1 ≤ m → walk H shared m (fun _ => none) v = some t0 := by
    intro m hm
    obtain ⟨n, rfl⟩ : ∃ n, m = H.length + 1 + n := ⟨m - (H.length + 1), by omega⟩
    exact walk_mono h1
  have hok : StOk t0 ⟨t0, 0⟩ := by
    refine ⟨fun p => Or.inl rfl, fun p q k hp => ?_⟩
    have := h2 p _ hp
    omega
  obtain ⟨tr, st', N, hN⟩ := emit_total hcl h2 (fun q hq => h4 q (by obtain ⟨k, hk, _⟩ := hq; rw [hk]; simp)) (fun p k hk => (parts_value hH p _ hk).noRef k rfl) (unem H ⟨t0, 0⟩)
    v h3 hv.inHeap hv.noRef false ⟨t0, 0⟩ hok (le_refl _)
  refine ⟨t0, tr, st', max N (H.length + 1), h2, hok, fun m hm => ⟨hwalk m (le_trans (le_max_right _ _) hm), hN m (le_trans (le_max_left _ _) hm)⟩, fun e => ?_, ?_⟩
  · obtain ⟨M, hM⟩ := writeRec_emit (e := e) ⟨N, hN⟩
    refine ⟨max M (H.length + 1), fun m hm => ?_⟩
    unfold writeGraph
    rw [hwalk m (le_trans (le_max_right _ _) hm)]
    simp only []
    rw [hM m (le_trans (le_max_left _ _) hm)]
    rfl
  · have hs := (emit_step hcl h2 N false _ v tr st' (hN N (le_refl N)) hv.inHeap hok).sum
    have hu : unem H ⟨t0, 0⟩ ≤ H.length := le_trans (List.length_filter_le _ _) (by simp)
    simp only [] at hs
    omega

/-- The state after reading the tree of a graph. -/
theorem build_ok {H : List Cell} (hH : HeapOk H) {v : V} (hv : Value H v) {t0 : Tab} (hpos : Pos t0) (hok : StOk t0 ⟨t0, 0⟩) {m : Nat} {tr : Tree} {st' : WSt}
    (he : emit H m false ⟨t0, 0⟩ v = some (tr, st')) :
    ∃ r X h, build (strip tr) ⟨[], fun _ => none, []⟩ = some r ∧ h.Perm X ∧ Tok H t0 ⟨t0, 0⟩ [v] st' X ∧ (∀ p ∈ h, p < H.length) ∧
      FInv H (lamOf st') h (finish (strip tr) r).2.labels (finish (strip tr) r).2.heap ∧ Covered (finish (strip tr) r).2 ∧
      (∀ j ∈ (finish (strip tr) r).2.pending, ∀ s, cellAt (finish (strip tr) r).2.heap j ≠ .str s) ∧
      VRel (lamOf st') h v (finish (strip tr) r).1 ∧ (finish (strip tr) r).1.isRef = false := by
  have hcl := heap_closed hH
  have hst := emit_step hcl hpos m false _ v tr st' he hv.inHeap hok
  obtain ⟨X, hg, htok⟩ := good_emit hcl hpos (fun p w hw => (parts_value hH p w hw).noStr) m false _ v tr st' he hv.inHeap hv.noStr hok (lam_agree hst.ok)
  have hi : RInv H (lamOf st') [] ⟨t0, 0⟩ ⟨[], fun _ => none, []⟩ :=
    ⟨rfl, (fun i p hp => by simp at hp), (fun k => by simp), (fun k v hk => by cases hk), (fun i k hk => by simp [cellAt, Cell.parts] at hk), (fun j hj => by simp at hj), (fun p hp => by simp at hp)⟩
  obtain ⟨r, hb, h, hf⟩ := good_finish hg hi (fun i hr => by obtain ⟨v, hv, _⟩ := hr; simp [cellAt, Cell.parts] at hv)
  obtain ⟨e, he1, he2⟩ := hf.objs
  have hprog : ∀ k, (finish (strip tr) r).2.labels k ≠ some none := fun k hk => by
    have := (hf.later.prog k).1 hk
    cases this
  refine ⟨r, X, h, hb, by rw [he1]; exact he2, htok, hf.inv.inh, ⟨hf.inv.len, hf.inv.cells, hf.inv.lab2, fun i k hk => ?_⟩, hf.cov, hf.inv.pend, hf.rel, ?_⟩
  · have h1 := hf.inv.refs i k hk
    have h2 := hprog k
    cases hl : (finish (strip tr) r).2.labels k with
    | none => exact absurd hl h1
    | some x =>
      cases x with
      | none => exact absurd hl h2
      | some y => exact ⟨y, rfl⟩
  · cases hw : (finish (strip tr) r).1 with
    | imm a => rfl
    | ptr p => rfl
    | ref k => have := (hf.ref k hw).2; cases this

end Gauche.Sexp

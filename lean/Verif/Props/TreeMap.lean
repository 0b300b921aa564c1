import Verif.Proof.TreeMapOps
/-
Properties C01, C02, C03 for <tree-map>.

Specification.  `cmp` is any total preorder on keys.  The observable contents of a tree-map are
what `tree-map->alist` returns (`toAlist`).  Each theorem states, for every tree-map reachable by
any history of public operations (`Reach`), what an operation returns and how it changes the
answers of `tree-map-get` (`get`) for *all* keys.
-/
set_option linter.unusedSectionVars false
namespace Gauche.TreeMap
open Std OrdList Color Tree

/-- Tree-maps obtainable by any history of public operations. -/
inductive Reach {κ : Type} (cmp : κ → κ → Ordering) : {ν : Type} → Core κ ν → Prop
  | init {ν} : Reach cmp (Core.init : Core κ ν)
  | put {ν} {t t' : Core κ ν} {k v} : Reach cmp t → t.put cmp k v = some t' → Reach cmp t'
  | adjoin {ν} {t t' : Core κ ν} {k v} : Reach cmp t → t.adjoin cmp k v = some t' → Reach cmp t'
  | replace {ν} {t : Core κ ν} {k v} : Reach cmp t → Reach cmp (t.replace cmp k v)
  | update {ν} {t t' : Core κ ν} {k f fb} : Reach cmp t → t.update cmp k f fb = some t' → Reach cmp t'
  | push {α : Type} {t t' : Core κ (List α)} {k x} : Reach cmp t → t.push cmp k x = some t' → Reach cmp t'
  | pop {α : Type} {t : Core κ (List α)} {k fb r} : Reach cmp t → t.pop cmp k fb = some r → Reach cmp r.2
  | delete {ν} {t : Core κ ν} {k r} : Reach cmp t → t.delete cmp k = some r → Reach cmp r.2
  | clear {ν} {t : Core κ ν} : Reach cmp t → Reach cmp t.clear
  | popMin {ν} {t : Core κ ν} {r} : Reach cmp t → t.popMin = some r → Reach cmp r.2
  | popMax {ν} {t : Core κ ν} {r} : Reach cmp t → t.popMax = some r → Reach cmp r.2
  | copy {ν} {t : Core κ ν} : Reach cmp t → Reach cmp t.copy

section
variable {κ ν : Type} {cmp : κ → κ → Ordering} [TransCmp cmp]

/-- Representation invariant. -/
def Inv (cmp : κ → κ → Ordering) (t : Core κ ν) : Prop :=
  RB t.root ∧ Sorted cmp (elems t.root) ∧ t.num = (elems t.root).length

theorem create_inv {t : Core κ ν} (h : Inv cmp t) (k : κ) (f : Option ν → ν) :
    (t.create cmp k f = none ↔ getL cmp k (elems t.root) = none ∧ t.num = intMax) ∧
    (∀ t', t.create cmp k f = some t' → Inv cmp t' ∧ elems t'.root = updL cmp k f (elems t.root)) := by
  obtain ⟨root, num⟩ := t
  obtain ⟨⟨⟨n, hv⟩, hb⟩, hs, hn⟩ := h
  simp only at *
  have hlen : (updL cmp k f (elems root)).length =
      if (getL cmp k (elems root)).isNone then (elems root).length + 1 else (elems root).length := by
    clear hv hb hn
    generalize elems root = l at *
    induction l with
    | nil => simp [updL, getL, putL]
    | cons e l ih =>
      have hs' : Sorted cmp ([] ++ e :: l) := hs
      cases hc : cmp k e.1 with
      | lt =>
        have h1 := updL_lt hs' hc f
        have h2 := (mid_lt hs' hc e.2).2.2
        simp only [List.nil_append] at h1 h2
        rw [h1, h2]; simp [updL, getL, putL]
      | eq =>
        have h1 := updL_eq hs' hc f
        have h2 := (mid_eq hs' hc e.2).2.2
        simp only [List.nil_append] at h1 h2
        rw [h1, h2]; simp
      | gt =>
        have h1 := updL_gt hs' hc f
        have h2 := (mid_gt hs' hc e.2).2.2
        simp only [List.nil_append] at h1 h2
        rw [h1, h2, List.length_cons, ih (sorted_mid.1 hs').2.1]
        split <;> simp
  unfold Core.create
  cases root with
  | nil =>
    simp only
    split
    · next h => simp [getL, h]
    · next h =>
      refine ⟨by simp [h], fun t' he => ?_⟩
      cases he
      refine ⟨⟨⟨⟨1, .black .nil .nil⟩, rfl⟩, ?_, ?_⟩, ?_⟩
      · simp [Sorted]
      · simp at hn ⊢; exact hn
      · simp [updL, getL, putL]
  | node c l k0 v0 r =>
    obtain ⟨root', e1, e2, e3⟩ := create_spec (cmp := cmp) k f (node c l k0 v0 r) [] n hv (by simp [hb]) trivial hs
    simp only [ctxL_nil, ctxR_nil, List.nil_append, List.append_nil] at e3
    simp only [e1, bind, Option.bind]
    rw [← e3] at hlen
    cases hg : getL cmp k (elems (node c l k0 v0 r)) with
    | some e =>
      simp only [hg, Option.isNone_some, Bool.false_eq_true, if_false] at hlen ⊢
      refine ⟨by simp, fun t' he => ?_⟩
      cases he
      exact ⟨⟨e2, by simp only [e3]; exact updL_sorted hs _ _, by simp only; omega⟩, e3⟩
    | none =>
      simp only [hg, Option.isNone_none, if_true] at hlen ⊢
      split
      · next h => simp [h]
      · next h =>
        refine ⟨by simp [h], fun t' he => ?_⟩
        cases he
        exact ⟨⟨e2, by simp only [e3]; exact updL_sorted hs _ _, by simp only; omega⟩, e3⟩

theorem setValue_inv {t : Core κ ν} (h : Inv cmp t) (k : κ) (v : ν) :
    Inv cmp ⟨setValue cmp k v t.root, t.num⟩ := by
  obtain ⟨⟨⟨n, hv⟩, hb⟩, hs, hn⟩ := h
  have hsv := setValue_valid (cmp := cmp) k v hv
  have hlen : ∀ r : Tree κ ν, (elems (setValue cmp k v r)).length = (elems r).length := by
    intro r
    induction r with
    | nil => rfl
    | node c l k0 v0 r ihl ihr => unfold setValue; split <;> simp [ihl, ihr]
  refine ⟨⟨⟨n, hsv.1⟩, by rw [hsv.2, hb]⟩, ?_, by simp only [hlen]; exact hn⟩
  simp only
  rw [setValue_eq hs]
  split
  · exact putL_sorted hs _
  · exact hs

theorem delL_length {l : List (κ × ν)} (h : Sorted cmp l) {k : κ} {e} (he : getL cmp k l = some e) :
    (delL cmp k l).length + 1 = l.length := by
  induction l with
  | nil => simp [getL] at he
  | cons x l ih =>
    have hs' : Sorted cmp ([] ++ x :: l) := h
    cases hc : cmp k x.1 with
    | lt =>
      have h2 := (mid_lt hs' hc x.2).2.2
      simp only [List.nil_append] at h2
      rw [h2] at he; simp [getL] at he
    | eq =>
      have h2 := (mid_eq hs' hc x.2).2.1
      simp only [List.nil_append] at h2
      rw [h2]; simp
    | gt =>
      have h2 := (mid_gt hs' hc x.2).2
      simp only [List.nil_append] at h2
      rw [h2.2] at he
      rw [h2.1, List.length_cons, List.length_cons, ih (sorted_mid.1 hs').2.1 he]

theorem delete_inv {t : Core κ ν} (h : Inv cmp t) (k : κ) :
    ∃ t', t.delete cmp k = some (getL cmp k (elems t.root), t') ∧ Inv cmp t' ∧
      elems t'.root = delL cmp k (elems t.root) := by
  obtain ⟨⟨⟨n, hv⟩, hb⟩, hs, hn⟩ := h
  unfold Core.delete
  rcases delete_spec (cmp := cmp) k t.root [] n hv (by simp [hb]) trivial hs with ⟨h1, h2⟩ | ⟨e, root', h1, h2, h3, h4⟩
  · rw [h2, h1]
    refine ⟨t, rfl, ⟨⟨⟨n, hv⟩, hb⟩, hs, hn⟩, ?_⟩
    unfold delL; symm; rw [List.filter_eq_self]
    intro x hx
    have := getL_eq_none.1 h1 x hx
    simpa using this
  · rw [h2, h1]
    simp only [ctxL_nil, ctxR_nil, List.nil_append, List.append_nil] at h4
    refine ⟨⟨root', t.num - 1⟩, rfl, ⟨h3, by simp only [h4]; exact delL_sorted hs k, ?_⟩, h4⟩
    have := delL_length hs h1
    simp only [h4]; omega

theorem popMin_inv {t : Core κ ν} (h : Inv cmp t) :
    ∃ t', t.popMin = some ((elems t.root).head?, t') ∧ Inv cmp t' ∧ elems t'.root = (elems t.root).tail := by
  obtain ⟨root, num⟩ := t
  obtain ⟨⟨⟨n, hv⟩, hb⟩, hs, hn⟩ := h
  simp only at *
  unfold Core.popMin
  cases root with
  | nil => exact ⟨_, rfl, ⟨⟨⟨n, hv⟩, hb⟩, hs, hn⟩, rfl⟩
  | node c l k v r =>
    simp only
    obtain ⟨q, hq⟩ : ∃ q, leftmost c l k v r [] = q := ⟨_, rfl⟩
    obtain ⟨⟨c', k', v', r'⟩, path⟩ := q
    obtain ⟨_, h2, h3⟩ := leftmost_spec _ _ _ _ _ _ _ _ _ _ _ hq
    obtain ⟨m, r1, r2, r3⟩ := leftmost_valid _ _ _ _ _ _ n _ _ _ _ _ hq hv (by intro hc; subst hc; simp at hb) trivial
    obtain ⟨res, d1, d2⟩ := deleteNode1_valid r1 r2 r3
    rw [hq]
    have d1' : deleteNode c' nil r' path = some res := by simpa [deleteNode] using d1
    have d3 := elems_deleteNode d1'
    simp only [ctxR_nil, List.append_nil, ctxL_nil, List.nil_append, elems_nil, h3] at h2 d3
    simp only [d1', Option.map_some]
    refine ⟨⟨res, num - 1⟩, ?_, ⟨d2, ?_, ?_⟩, ?_⟩
    · rw [h2]; rfl
    · rw [h2] at hs; rw [d3]; simp only [Sorted, List.cons_append, List.pairwise_cons] at hs; exact hs.2
    · have := congrArg List.length h2
      simp only [d3]; rw [hn, this]; simp
    · simp only [d3, h2]; rfl

theorem popMax_inv {t : Core κ ν} (h : Inv cmp t) :
    ∃ t', t.popMax = some ((elems t.root).getLast?, t') ∧ Inv cmp t' ∧
      elems t'.root = (elems t.root).dropLast := by
  obtain ⟨root, num⟩ := t
  obtain ⟨⟨⟨n, hv⟩, hb⟩, hs, hn⟩ := h
  simp only at *
  unfold Core.popMax
  cases root with
  | nil => exact ⟨_, rfl, ⟨⟨⟨n, hv⟩, hb⟩, hs, hn⟩, rfl⟩
  | node c l k v r =>
    simp only
    obtain ⟨q, hq⟩ : ∃ q, rightmost c l k v r [] = q := ⟨_, rfl⟩
    obtain ⟨⟨c', l', k', v'⟩, path⟩ := q
    obtain ⟨_, h2, h3, _⟩ := rightmost_spec _ _ _ _ _ _ _ _ _ _ _ hq
    obtain ⟨m, r1, r2, r3⟩ := rightmost_valid _ _ _ _ _ _ n _ _ _ _ _ hq hv (by intro hc; subst hc; simp at hb) trivial
    obtain ⟨res, d1, d2⟩ := deleteNode1_valid r1 r2 r3
    rw [hq]
    have d1' : deleteNode c' l' nil path = some res := by
      cases l' <;> simpa [deleteNode] using d1
    have d3 := elems_deleteNode d1'
    simp only [ctxR_nil, List.append_nil, ctxL_nil, List.nil_append, elems_nil, h3] at h2 d3
    simp only [d1', Option.map_some]
    refine ⟨⟨res, num - 1⟩, ?_, ⟨d2, ?_, ?_⟩, ?_⟩
    · rw [h2]; simp
    · rw [h2] at hs; rw [d3]; exact (sorted_append.1 hs).1
    · have := congrArg List.length h2
      simp only [d3]; rw [hn, this]; simp
    · simp only [d3, h2]; simp

theorem reach_inv {t : Core κ ν} (h : Reach cmp t) : Inv cmp t := by
  induction h with
  | init => exact ⟨⟨⟨0, .nil⟩, rfl⟩, sorted_nil, rfl⟩
  | put _ h ih => exact ((create_inv ih _ _).2 _ h).1
  | adjoin _ h ih => exact ((create_inv ih _ _).2 _ h).1
  | replace _ ih => exact setValue_inv ih _ _
  | @update ν t t' k f fb _ h ih =>
    unfold Core.update at h
    split at h
    · split at h
      · cases h
      · cases h; exact setValue_inv ih _ _
    · exact ((create_inv ih _ _).2 _ h).1
  | push _ h ih => exact ((create_inv ih _ _).2 _ h).1
  | @pop α t k fb r _ h ih =>
    unfold Core.pop at h
    split at h
    · cases fb with
      | none => simp at h
      | some x => simp at h; subst h; exact ih
    · cases fb with
      | none => simp at h
      | some x => simp at h; subst h; exact ih
    · cases h; exact setValue_inv ih _ _
  | @delete ν t k r _ h ih =>
    obtain ⟨t', h1, h2, _⟩ := delete_inv ih k
    rw [h] at h1; cases h1; exact h2
  | clear => exact ⟨⟨⟨0, .nil⟩, rfl⟩, sorted_nil, rfl⟩
  | popMin _ h ih =>
    obtain ⟨t', h1, h2, _⟩ := popMin_inv ih
    rw [h] at h1; cases h1; exact h2
  | popMax _ h ih =>
    obtain ⟨t', h1, h2, _⟩ := popMax_inv ih
    rw [h] at h1; cases h1; exact h2
  | copy _ ih => unfold Core.copy; rw [copyTree_eq]; exact ih

theorem toAlist_eq {t : Core κ ν} (h : Inv cmp t) : t.toAlist = some (elems t.root) := by
  unfold Core.toAlist Core.fold
  rw [foldLoop_bwd _ _ _ _ (by rw [init_bwd, h.2.2]; omega), init_bwd]
  simp

theorem get_eq {t : Core κ ν} (h : Inv cmp t) (k : κ) :
    t.get cmp k = (getL cmp k (elems t.root)).map (·.2) := by
  unfold Core.get; rw [coreGet_eq h.2.1]

/-! ### C01: a tree-map is a finite ordered map -/

theorem treemap_init (k : κ) : (Core.init : Core κ ν).get cmp k = none ∧
    (Core.init : Core κ ν).toAlist = some [] ∧ (Core.init : Core κ ν).num = 0 := ⟨rfl, rfl, rfl⟩

/-- `tree-map->alist`, `tree-map-keys`, `tree-map-values`, both folds and `tree-map-num-entries` agree:
the alist is strictly ascending, holds exactly the entries that `tree-map-get` finds, and its length is
the entry count. -/
theorem treemap_alist (t : Core κ ν) (h : Reach cmp t) :
    ∃ l, t.toAlist = some l ∧ l.Pairwise (fun a b => cmp a.1 b.1 = .lt) ∧ t.num = l.length ∧
      (∀ k v, t.get cmp k = some v ↔ ∃ k', (k', v) ∈ l ∧ cmp k' k = .eq) ∧
      (∀ k, t.exists_ cmp k = true ↔ ∃ e ∈ l, cmp e.1 k = .eq) ∧
      t.keys = some (l.map (·.1)) ∧ t.values = some (l.map (·.2)) ∧
      ∀ {σ : Type} (kons : κ → ν → σ → σ) (z : σ),
        t.fold kons z false = some (l.foldl (fun s e => kons e.1 e.2 s) z) ∧
        t.fold kons z true = some (l.foldr (fun e s => kons e.1 e.2 s) z) := by
  have hi := reach_inv h
  have hfold : ∀ {σ : Type} (kons : κ → ν → σ → σ) (z : σ),
      t.fold kons z false = some ((elems t.root).foldl (fun s e => kons e.1 e.2 s) z) ∧
      t.fold kons z true = some ((elems t.root).foldr (fun e s => kons e.1 e.2 s) z) := by
    intro σ kons z
    unfold Core.fold
    rw [foldLoop_fwd _ _ _ _ (by rw [init_fwd, hi.2.2]; omega), init_fwd,
      foldLoop_bwd _ _ _ _ (by rw [init_bwd, hi.2.2]; omega), init_bwd]
    exact ⟨rfl, rfl⟩
  refine ⟨_, toAlist_eq hi, hi.2.1, hi.2.2, ?_, ?_, ?_, ?_, hfold⟩
  · intro k v
    rw [get_eq hi]
    simp only [Option.map_eq_some_iff]
    constructor
    · rintro ⟨e, he, rfl⟩
      rw [getL_eq_some hi.2.1] at he
      exact ⟨e.1, he⟩
    · rintro ⟨k', he⟩
      exact ⟨(k', v), (getL_eq_some hi.2.1).2 he, rfl⟩
  · intro k
    unfold Core.exists_
    rw [coreGet_eq hi.2.1, Option.isSome_iff_exists]
    constructor
    · rintro ⟨e, he⟩; exact ⟨e, (getL_eq_some hi.2.1).1 he⟩
    · rintro ⟨e, he⟩; exact ⟨e, (getL_eq_some hi.2.1).2 he⟩
  · unfold Core.keys; rw [(hfold _ _).2]; congr 1
    induction elems t.root <;> simp_all
  · unfold Core.values; rw [(hfold _ _).2]; congr 1
    induction elems t.root <;> simp_all

theorem get_updL {l : List (κ × ν)} (h : Sorted cmp l) (k k' : κ) (f) :
    (getL cmp k' (updL cmp k f l)).map (·.2) =
      if cmp k k' = .eq then some (f ((getL cmp k l).map (·.2))) else (getL cmp k' l).map (·.2) := by
  unfold updL
  cases hg : getL cmp k l with
  | none =>
    simp only [getL_putL h]
    split <;> rfl
  | some e =>
    simp only [getL_putL h]
    have he := getL_some_eq hg
    have : cmp e.1 k' = cmp k k' := TransCmp.congr_left he
    rw [this]
    split <;> rfl

private theorem create_get {t : Core κ ν} (h : Inv cmp t) (k : κ) (f : Option ν → ν) :
    (t.create cmp k f = none ↔ t.get cmp k = none ∧ t.num = intMax) ∧
    (∀ t', t.create cmp k f = some t' →
      (∀ k', t'.get cmp k' = if cmp k k' = .eq then some (f (t.get cmp k)) else t.get cmp k') ∧
      t'.num = if t.get cmp k = none then t.num + 1 else t.num) := by
  obtain ⟨h1, h2⟩ := create_inv h k f
  refine ⟨by rw [h1, get_eq h]; simp, fun t' he => ?_⟩
  obtain ⟨h3, h4⟩ := h2 t' he
  refine ⟨fun k' => ?_, ?_⟩
  · rw [get_eq h3, h4, get_updL h.2.1, get_eq h, get_eq h]
  · rw [get_eq h]
    have : t.create cmp k f = some t' := he
    unfold Core.create at this
    obtain ⟨root, num⟩ := t
    obtain ⟨⟨⟨n, hv⟩, hb⟩, hs, hn⟩ := h
    cases root with
    | nil =>
      simp only at this
      split at this
      · cases this
      · cases this; simp [getL]
    | node c l k0 v0 r =>
      obtain ⟨root', e1, e2, e3⟩ := create_spec (cmp := cmp) k f (node c l k0 v0 r) [] n hv
        (by simp only at hb; simp [hb]) trivial hs
      simp only [e1, bind, Option.bind] at this
      simp only
      cases hg : getL cmp k (elems (node c l k0 v0 r)) with
      | some e => simp only [hg, Option.isNone_some, Bool.false_eq_true, if_false] at this; cases this; simp
      | none =>
        simp only [hg, Option.isNone_none, if_true] at this
        split at this
        · cases this
        · cases this; simp

/-- `tree-map-put!`: error exactly when adding a key to a map with INT_MAX entries; otherwise the key now
has the value and all other keys are as before. -/
theorem treemap_put (t : Core κ ν) (h : Reach cmp t) (k : κ) (v : ν) :
    (t.put cmp k v = none ↔ t.get cmp k = none ∧ t.num = intMax) ∧
    (∀ t', t.put cmp k v = some t' →
      (∀ k', t'.get cmp k' = if cmp k k' = .eq then some v else t.get cmp k') ∧
      t'.num = if t.get cmp k = none then t.num + 1 else t.num) :=
  create_get (reach_inv h) k fun _ => v

/-- `tree-map-adjoin!` only adds. -/
theorem treemap_adjoin (t : Core κ ν) (h : Reach cmp t) (k : κ) (v : ν) :
    (t.adjoin cmp k v = none ↔ t.get cmp k = none ∧ t.num = intMax) ∧
    (∀ t', t.adjoin cmp k v = some t' →
      (∀ k', t'.get cmp k' = if cmp k k' = .eq then some ((t.get cmp k).getD v) else t.get cmp k') ∧
      t'.num = if t.get cmp k = none then t.num + 1 else t.num) :=
  create_get (reach_inv h) k fun o => o.getD v

private theorem setValue_get {t : Core κ ν} (h : Inv cmp t) (k : κ) (v : ν) (k' : κ) :
    (⟨setValue cmp k v t.root, t.num⟩ : Core κ ν).get cmp k' =
      if cmp k k' = .eq ∧ t.get cmp k ≠ none then some v else t.get cmp k' := by
  rw [get_eq (setValue_inv h k v), get_eq h, get_eq h]
  simp only
  rw [setValue_eq h.2.1]
  cases hg : getL cmp k (elems t.root) with
  | none => simp
  | some e =>
    have : cmp e.1 k' = cmp k k' := TransCmp.congr_left (getL_some_eq hg)
    simp only [getL_putL h.2.1, this]
    split <;> simp_all

/-- `tree-map-replace!` only changes an existing entry. -/
theorem treemap_replace (t : Core κ ν) (h : Reach cmp t) (k : κ) (v : ν) (k' : κ) :
    (t.replace cmp k v).get cmp k' =
      if cmp k k' = .eq ∧ t.get cmp k ≠ none then some v else t.get cmp k' :=
  setValue_get (reach_inv h) k v k'

/-- `tree-map-update!`. -/
theorem treemap_update (t : Core κ ν) (h : Reach cmp t) (k : κ) (f : ν → ν) (fb : Option ν) :
    (t.update cmp k f fb = none ↔ t.get cmp k = none ∧ (fb = none ∨ t.num = intMax)) ∧
    (∀ t', t.update cmp k f fb = some t' → ∃ old, (t.get cmp k).or fb = some old ∧
      ∀ k', t'.get cmp k' = if cmp k k' = .eq then some (f old) else t.get cmp k') := by
  have hi := reach_inv h
  unfold Core.update
  cases fb with
  | none =>
    have hg : t.get cmp k = (coreGet cmp k t.root).map (·.2) := rfl
    cases hc : coreGet cmp k t.root with
    | none => rw [hc] at hg; simp [hg]
    | some e =>
      rw [hc] at hg
      refine ⟨by simp [hg], fun t' he => ?_⟩
      cases he
      refine ⟨e.2, by simp [hg], fun k' => ?_⟩
      rw [setValue_get hi, hg]; simp
  | some fb =>
    obtain ⟨c1, c2⟩ := create_get hi k (fun o => f (o.getD fb))
    refine ⟨by simpa using c1, fun t' he => ?_⟩
    refine ⟨(t.get cmp k).getD fb, by cases t.get cmp k <;> rfl, (c2 t' he).1⟩

/-- `tree-map-push!`. -/
theorem treemap_push {α : Type} (t : Core κ (List α)) (h : Reach cmp t) (k : κ) (x : α) :
    (t.push cmp k x = none ↔ t.get cmp k = none ∧ t.num = intMax) ∧
    (∀ t', t.push cmp k x = some t' → ∀ k', t'.get cmp k' =
      if cmp k k' = .eq then some (x :: (t.get cmp k).getD []) else t.get cmp k') := by
  obtain ⟨c1, c2⟩ := create_get (reach_inv h) k (fun o => x :: o.getD [])
  exact ⟨c1, fun t' he => (c2 t' he).1⟩

/-- `tree-map-pop!`. -/
theorem treemap_pop {α : Type} (t : Core κ (List α)) (h : Reach cmp t) (k : κ) (fb : Option α) :
    (∀ x xs, t.get cmp k = some (x :: xs) → ∃ t', t.pop cmp k fb = some (x, t') ∧
      ∀ k', t'.get cmp k' = if cmp k k' = .eq then some xs else t.get cmp k') ∧
    (t.get cmp k = none ∨ t.get cmp k = some [] → t.pop cmp k fb = fb.map (·, t)) := by
  have hi := reach_inv h
  have hg : t.get cmp k = (coreGet cmp k t.root).map (·.2) := rfl
  unfold Core.pop
  cases hc : coreGet cmp k t.root with
  | none => rw [hc] at hg; simp [hg]
  | some e =>
    obtain ⟨k0, v0⟩ := e
    rw [hc] at hg
    cases v0 with
    | nil => simp [hg]
    | cons y ys =>
      refine ⟨fun x xs he => ?_, by simp [hg]⟩
      rw [hg] at he; simp at he
      obtain ⟨rfl, rfl⟩ := he
      refine ⟨_, rfl, fun k' => ?_⟩
      rw [setValue_get hi, hg]; simp

/-- `tree-map-delete!` never fails, reports whether the key was there, and removes exactly that key. -/
theorem treemap_delete (t : Core κ ν) (h : Reach cmp t) (k : κ) :
    ∃ e t', t.delete cmp k = some (e, t') ∧ e.map (·.2) = t.get cmp k ∧
      (∀ k', t'.get cmp k' = if cmp k k' = .eq then none else t.get cmp k') ∧
      t'.num = if t.get cmp k = none then t.num else t.num - 1 := by
  have hi := reach_inv h
  obtain ⟨t', h1, h2, h3⟩ := delete_inv hi k
  refine ⟨_, t', h1, (get_eq hi k).symm, fun k' => ?_, ?_⟩
  · rw [get_eq h2, h3, getL_delL hi.2.1, get_eq hi]; split <;> rfl
  · rw [h2.2.2, hi.2.2, h3, get_eq hi]
    cases hg : getL cmp k (elems t.root) with
    | none =>
      simp
      rw [← h3]
      have : delL cmp k (elems t.root) = elems t.root := by
        unfold delL; rw [List.filter_eq_self]
        intro x hx; simpa using getL_eq_none.1 hg x hx
      rw [h3, this]
    | some e => have := delL_length hi.2.1 hg; simp; omega

theorem treemap_clear (t : Core κ ν) (k : κ) : t.clear.get cmp k = none ∧ t.clear.num = 0 := ⟨rfl, rfl⟩

/-- `tree-map-copy` gives a map with the same contents (a separate value). -/
theorem treemap_copy (t : Core κ ν) : t.copy = t := by
  unfold Core.copy; rw [copyTree_eq]

/-- `tree-map-min/max/pop-min!/pop-max!` deliver and remove the first/last entry of the alist. -/
theorem treemap_bounds (t : Core κ ν) (h : Reach cmp t) :
    ∃ l, t.toAlist = some l ∧ t.min = l.head? ∧ t.max = l.getLast? ∧
      (∃ t', t.popMin = some (l.head?, t') ∧ t'.toAlist = some l.tail) ∧
      (∃ t', t.popMax = some (l.getLast?, t') ∧ t'.toAlist = some l.dropLast) := by
  have hi := reach_inv h
  refine ⟨_, toAlist_eq hi, ?_, ?_, ?_, ?_⟩
  · have := minLoc_spec t.root
    unfold Core.min
    cases hr : t.root with
    | nil => rfl
    | node c l k v r =>
      rw [hr] at this
      simp only [minLoc] at this
      rw [this.2]; rfl
  · have := maxLoc_spec t.root
    unfold Core.max
    cases hr : t.root with
    | nil => rfl
    | node c l k v r =>
      rw [hr] at this
      simp only [maxLoc] at this
      rw [this.2, List.getLast?_append]; rfl
  · obtain ⟨t', h1, h2, h3⟩ := popMin_inv hi
    exact ⟨t', h1, by rw [toAlist_eq h2, h3]⟩
  · obtain ⟨t', h1, h2, h3⟩ := popMax_inv hi
    exact ⟨t', h1, by rw [toAlist_eq h2, h3]⟩

/-! ### C02: balance -/

/-- The consistency checker accepts every reachable tree-map, and the longest search path has at most
`2*log2(n+1)` nodes. -/
theorem treemap_balanced (t : Core κ ν) (h : Reach cmp t) :
    t.check = true ∧ depth t.root ≤ 2 * Nat.log2 (t.num + 1) := by
  obtain ⟨⟨⟨n, hv⟩, hb⟩, hs, hn⟩ := reach_inv h
  constructor
  · unfold Core.check
    rw [hb]
    cases hr : t.root with
    | nil => rw [hr] at hn; simpa using hn
    | node c l k v r =>
      have := check_valid hv 1
      rw [hr] at this hn
      simp only [Bool.false_eq_true, if_false, this]
      simpa using hn.symm
  · obtain ⟨d1, d2⟩ := valid_depth hv
    rw [hb] at d1
    have : n ≤ Nat.log2 (t.num + 1) := (Nat.le_log2 (by omega)).2 (by rw [hn]; exact d2)
    simp at d1; omega

/-- What the checker's acceptance means: black root, no adjacent reds, equal black counts, exact entry
count (independent of reachability). -/
theorem treemap_check_iff (t : Core κ ν) : t.check = true ↔ RB t.root ∧ t.num = (elems t.root).length := by
  unfold Core.check
  cases hb : isRed t.root with
  | true => simp [RB, hb]
  | false =>
    simp only [Bool.false_eq_true, if_false]
    cases hr : t.root with
    | nil => simp [RB]; intro _; exact ⟨0, .nil⟩
    | node c l k v r =>
      simp only
      cases hc : checkTraverse (node c l k v r) 1 with
      | none =>
        simp only [Bool.false_eq_true, false_iff]
        rintro ⟨⟨⟨n, hv⟩, _⟩, _⟩
        rw [check_valid hv] at hc; cases hc
      | some p =>
        obtain ⟨m, cnt⟩ := p
        obtain ⟨n, _, hv, hl⟩ := valid_of_check _ _ _ _ hc
        rw [hr] at hb
        simp only [beq_iff_eq]
        constructor
        · intro he; exact ⟨⟨⟨n, hv⟩, hb⟩, by omega⟩
        · intro he; omega

/-! ### C03: nearest entries -/

private theorem near_root (t : Core κ ν) (hi : Inv cmp t) (k : κ) :
    (coreNear cmp k t.root []).1.map Loc.entry = getL cmp k (elems t.root) ∧
    (coreNear cmp k t.root []).2.1.map Loc.entry = (below cmp k (elems t.root)).getLast? ∧
    (coreNear cmp k t.root []).2.2.map Loc.entry = (above cmp k (elems t.root)).head? := by
  cases hr : t.root with
  | nil => exact ⟨rfl, rfl, rfl⟩
  | node c l k0 v0 r =>
    have hs := hi.2.1
    rw [hr] at hs
    have := near_spec (cmp := cmp) k (node c l k0 v0 r) [] (by simp) hs (by simp) (by simp)
    simpa using this

private theorem last_iff {l : List (κ × ν)} (h : Sorted cmp l) (P : κ × ν → Bool) (e : κ × ν) :
    (l.filter P).getLast? = some e ↔ e ∈ l ∧ P e = true ∧ ∀ e' ∈ l, P e' = true → cmp e'.1 e.1 ≠ .gt := by
  have hf : Sorted cmp (l.filter P) := h.filter _
  constructor
  · intro hl
    have hm := List.mem_of_getLast? hl
    rw [List.mem_filter] at hm
    refine ⟨hm.1, hm.2, fun e' he' hp => ?_⟩
    have hm' : e' ∈ l.filter P := List.mem_filter.2 ⟨he', hp⟩
    obtain ⟨ys, hys⟩ := List.getLast?_eq_some_iff.1 hl
    rw [hys] at hm' hf
    rcases List.mem_append.1 hm' with hm' | hm'
    · have := (sorted_append.1 hf).2.2 e' hm' e (by simp); simp [this]
    · simp at hm'; subst hm'; simp [ReflCmp.compare_self]
  · rintro ⟨h1, h2, h3⟩
    have hm : e ∈ l.filter P := List.mem_filter.2 ⟨h1, h2⟩
    cases hl : (l.filter P).getLast? with
    | none => simp at hl; exact absurd h2 (by simpa using hl e.1 e.2 h1)
    | some x =>
      obtain ⟨ys, hys⟩ := List.getLast?_eq_some_iff.1 hl
      have hx : x ∈ l.filter P := by rw [hys]; simp
      rw [List.mem_filter] at hx
      rw [hys] at hm hf
      rcases List.mem_append.1 hm with hm | hm
      · have h4 := (sorted_append.1 hf).2.2 e hm x (by simp)
        exact absurd (gt_iff.2 h4) (h3 x hx.1 hx.2)
      · simp at hm; rw [hm]

private theorem head_iff {l : List (κ × ν)} (h : Sorted cmp l) (P : κ × ν → Bool) (e : κ × ν) :
    (l.filter P).head? = some e ↔ e ∈ l ∧ P e = true ∧ ∀ e' ∈ l, P e' = true → cmp e'.1 e.1 ≠ .lt := by
  have hf : Sorted cmp (l.filter P) := h.filter _
  constructor
  · intro hl
    have hm := List.mem_of_head? hl
    rw [List.mem_filter] at hm
    refine ⟨hm.1, hm.2, fun e' he' hp => ?_⟩
    have hm' : e' ∈ l.filter P := List.mem_filter.2 ⟨he', hp⟩
    obtain ⟨ys, hys⟩ := List.head?_eq_some_iff.1 hl
    rw [hys] at hm' hf
    rcases List.mem_cons.1 hm' with hm' | hm'
    · subst hm'; simp [ReflCmp.compare_self]
    · simp only [Sorted, List.pairwise_cons] at hf
      have := gt_iff.2 (hf.1 e' hm'); simp [this]
  · rintro ⟨h1, h2, h3⟩
    have hm : e ∈ l.filter P := List.mem_filter.2 ⟨h1, h2⟩
    cases hl : (l.filter P).head? with
    | none => simp at hl; exact absurd h2 (by simpa using hl e.1 e.2 h1)
    | some x =>
      obtain ⟨ys, hys⟩ := List.head?_eq_some_iff.1 hl
      have hx : x ∈ l.filter P := by rw [hys]; simp
      rw [List.mem_filter] at hx
      rw [hys] at hm hf
      rcases List.mem_cons.1 hm with hm | hm
      · rw [hm]
      · simp only [Sorted, List.pairwise_cons] at hf
        exact absurd (hf.1 e hm) (h3 x hx.1 hx.2)

/-- `tree-map-predecessor`: the entry with the greatest key less than `k`; none iff there is none. -/
theorem treemap_predecessor (t : Core κ ν) (h : Reach cmp t) (k : κ) (e : κ × ν) :
    t.predecessor cmp k = some e ↔ ∃ l, t.toAlist = some l ∧ e ∈ l ∧ cmp e.1 k = .lt ∧
      ∀ e' ∈ l, cmp e'.1 k = .lt → cmp e'.1 e.1 ≠ .gt := by
  have hi := reach_inv h
  unfold Core.predecessor
  rw [(near_root t hi k).2.1, below, last_iff hi.2.1, toAlist_eq hi]
  simp

/-- `tree-map-successor`: the entry with the least key greater than `k`; none iff there is none. -/
theorem treemap_successor (t : Core κ ν) (h : Reach cmp t) (k : κ) (e : κ × ν) :
    t.successor cmp k = some e ↔ ∃ l, t.toAlist = some l ∧ e ∈ l ∧ cmp e.1 k = .gt ∧
      ∀ e' ∈ l, cmp e'.1 k = .gt → cmp e'.1 e.1 ≠ .lt := by
  have hi := reach_inv h
  unfold Core.successor
  rw [(near_root t hi k).2.2, above, head_iff hi.2.1, toAlist_eq hi]
  simp

/-- `tree-map-floor`: the entry with the greatest key ≤ `k`. -/
theorem treemap_floor (t : Core κ ν) (h : Reach cmp t) (k : κ) (e : κ × ν) :
    t.floor cmp k = some e ↔ ∃ l, t.toAlist = some l ∧ e ∈ l ∧ cmp e.1 k ≠ .gt ∧
      ∀ e' ∈ l, cmp e'.1 k ≠ .gt → cmp e'.1 e.1 ≠ .gt := by
  have hi := reach_inv h
  rw [toAlist_eq hi]
  obtain ⟨n1, n2, _⟩ := near_root t hi k
  have key : t.floor cmp k = (getL cmp k (elems t.root)).or (below cmp k (elems t.root)).getLast? := by
    rw [← n1, ← n2]
    unfold Core.floor
    generalize coreNear cmp k t.root [] = r
    obtain ⟨a, b, c⟩ := r
    cases a <;> cases b <;> rfl
  rw [key]
  simp only [Option.some.injEq, exists_eq_left']
  cases hg : getL cmp k (elems t.root) with
  | some x =>
    obtain ⟨hx, hxk⟩ := (getL_eq_some hi.2.1).1 hg
    rw [Option.some_or, Option.some.injEq]
    constructor
    · rintro rfl
      refine ⟨hx, by simp [hxk], fun e' _ hc => ?_⟩
      rw [show cmp e'.1 x.1 = cmp e'.1 k from TransCmp.congr_right hxk]; exact hc
    · rintro ⟨h1, h2, h3⟩
      have h4 := h3 x hx (by simp [hxk])
      rw [show cmp x.1 e.1 = cmp k e.1 from TransCmp.congr_left hxk] at h4
      have : cmp e.1 k = .eq := by
        cases hc : cmp e.1 k with
        | eq => rfl
        | lt => exact absurd (gt_iff.2 hc) h4
        | gt => exact absurd hc h2
      have := (getL_eq_some hi.2.1).2 ⟨h1, this⟩
      rw [hg] at this; exact Option.some.inj this
  | none =>
    rw [Option.none_or, below, last_iff hi.2.1]
    have hne := getL_eq_none.1 hg
    have hiff : ∀ e' ∈ elems t.root, (cmp e'.1 k = .lt ↔ cmp e'.1 k ≠ .gt) := by
      intro e' he'; have := hne e' he'; cases hc : cmp e'.1 k <;> simp_all
    constructor
    · rintro ⟨h1, h2, h3⟩
      exact ⟨h1, (hiff e h1).1 (by simpa using h2), fun e' he' hc => h3 e' he' (by simpa using (hiff e' he').2 hc)⟩
    · rintro ⟨h1, h2, h3⟩
      exact ⟨h1, by simpa using (hiff e h1).2 h2, fun e' he' hc => h3 e' he' ((hiff e' he').1 (by simpa using hc))⟩

/-- `tree-map-ceiling`: the entry with the least key ≥ `k`. -/
theorem treemap_ceiling (t : Core κ ν) (h : Reach cmp t) (k : κ) (e : κ × ν) :
    t.ceiling cmp k = some e ↔ ∃ l, t.toAlist = some l ∧ e ∈ l ∧ cmp e.1 k ≠ .lt ∧
      ∀ e' ∈ l, cmp e'.1 k ≠ .lt → cmp e'.1 e.1 ≠ .lt := by
  have hi := reach_inv h
  rw [toAlist_eq hi]
  obtain ⟨n1, _, n2⟩ := near_root t hi k
  have key : t.ceiling cmp k = (getL cmp k (elems t.root)).or (above cmp k (elems t.root)).head? := by
    rw [← n1, ← n2]
    unfold Core.ceiling
    generalize coreNear cmp k t.root [] = r
    obtain ⟨a, b, c⟩ := r
    cases a <;> cases c <;> rfl
  rw [key]
  simp only [Option.some.injEq, exists_eq_left']
  cases hg : getL cmp k (elems t.root) with
  | some x =>
    obtain ⟨hx, hxk⟩ := (getL_eq_some hi.2.1).1 hg
    rw [Option.some_or, Option.some.injEq]
    constructor
    · rintro rfl
      refine ⟨hx, by simp [hxk], fun e' _ hc => ?_⟩
      rw [show cmp e'.1 x.1 = cmp e'.1 k from TransCmp.congr_right hxk]; exact hc
    · rintro ⟨h1, h2, h3⟩
      have h4 := h3 x hx (by simp [hxk])
      rw [show cmp x.1 e.1 = cmp k e.1 from TransCmp.congr_left hxk] at h4
      have : cmp e.1 k = .eq := by
        cases hc : cmp e.1 k with
        | eq => rfl
        | lt => exact absurd hc h2
        | gt => exact absurd (gt_iff.1 hc) h4
      have := (getL_eq_some hi.2.1).2 ⟨h1, this⟩
      rw [hg] at this; exact Option.some.inj this
  | none =>
    rw [Option.none_or, above, head_iff hi.2.1]
    have hne := getL_eq_none.1 hg
    have hiff : ∀ e' ∈ elems t.root, (cmp e'.1 k = .gt ↔ cmp e'.1 k ≠ .lt) := by
      intro e' he'; have := hne e' he'; cases hc : cmp e'.1 k <;> simp_all
    constructor
    · rintro ⟨h1, h2, h3⟩
      exact ⟨h1, (hiff e h1).1 (by simpa using h2), fun e' he' hc => h3 e' he' (by simpa using (hiff e' he').2 hc)⟩
    · rintro ⟨h1, h2, h3⟩
      exact ⟨h1, by simpa using (hiff e h1).2 h2, fun e' he' hc => h3 e' he' ((hiff e' he').1 (by simpa using hc))⟩

end

/-! ### Non-vacuity: a reachable map with insertions, an overwrite and a deletion -/
section
def exOps : Option (Core Nat String) := do
  let t ← Core.init.put compare 5 "a"
  let t ← t.put compare 3 "b"
  let t ← t.put compare 8 "c"
  let t ← t.put compare 9 "d"
  let t ← t.put compare 3 "e"
  let (_, t) ← t.delete compare 5
  some t
theorem exOps_reach : ∃ t, exOps = some t ∧ Reach compare t ∧ t.toAlist = some [(3, "e"), (8, "c"), (9, "d")] := by
  obtain ⟨t1, h1⟩ : ∃ t, Core.init.put compare 5 "a" = some t := ⟨_, rfl⟩
  obtain ⟨t2, h2⟩ : ∃ t, t1.put compare 3 "b" = some t := by cases h1; exact ⟨_, rfl⟩
  obtain ⟨t3, h3⟩ : ∃ t, t2.put compare 8 "c" = some t := by cases h1; cases h2; exact ⟨_, rfl⟩
  obtain ⟨t4, h4⟩ : ∃ t, t3.put compare 9 "d" = some t := by cases h1; cases h2; cases h3; exact ⟨_, rfl⟩
  obtain ⟨t5, h5⟩ : ∃ t, t4.put compare 3 "e" = some t := by cases h1; cases h2; cases h3; cases h4; exact ⟨_, rfl⟩
  obtain ⟨r, h6⟩ : ∃ r, t5.delete compare 5 = some r := by
    cases h1; cases h2; cases h3; cases h4; cases h5; exact ⟨_, rfl⟩
  refine ⟨r.2, by simp [exOps, h1, h2, h3, h4, h5, h6], ?_, ?_⟩
  · exact .delete (.put (.put (.put (.put (.put .init h1) h2) h3) h4) h5) h6
  · cases h1; cases h2; cases h3; cases h4; cases h5; cases h6; rfl
end
end Gauche.TreeMap

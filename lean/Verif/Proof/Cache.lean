import Verif.Model.Cache
import Mathlib.Data.List.Sort
import Mathlib.Data.List.Perm.Subperm
import Mathlib.Tactic.Linarith
/-
Proofs about lib/data/cache.scm.
-/
namespace Gauche.Cache
open Gauche.Spec.Cache

variable {κ ν : Type} [DecidableEq κ]

/-! ### Association lists -/

theorem dictGet_nil {β : Type} (k : κ) : dictGet ([] : List (κ × β)) k = none := rfl

theorem dictGet_cons {β : Type} (p : κ × β) (d : List (κ × β)) (k : κ) :
    dictGet (p :: d) k = if p.1 = k then some p.2 else dictGet d k := by
  unfold dictGet
  rw [List.find?_cons]
  by_cases h : p.1 = k <;> simp [h]

theorem dictGet_delete {β : Type} (d : List (κ × β)) (k j : κ) :
    dictGet (dictDelete d k) j = if j = k then none else dictGet d j := by
  induction d with
  | nil => simp [dictDelete, dictGet_nil]
  | cons p d ih =>
    unfold dictDelete at ih ⊢
    rw [List.filter_cons]
    by_cases h : p.1 = k
    · rw [if_neg (by simp [h]), ih, dictGet_cons]
      by_cases hj : j = k
      · simp [hj]
      · rw [if_neg hj, if_neg hj, if_neg (by rw [h]; exact fun e => hj e.symm)]
    · rw [if_pos (by simp [h]), dictGet_cons, dictGet_cons, ih]
      by_cases hj : j = k
      · rw [if_pos hj, if_neg (by rw [hj]; exact h)]; simp [hj]
      · simp [hj]

theorem dictGet_put {β : Type} (d : List (κ × β)) (k j : κ) (b : β) :
    dictGet (dictPut d k b) j = if j = k then some b else dictGet d j := by
  unfold dictPut
  rw [dictGet_cons, dictGet_delete]
  by_cases h : j = k
  · simp [h]
  · rw [if_neg (fun e => h e.symm), if_neg h, if_neg h]

theorem dictGet_eq_some {β : Type} {d : List (κ × β)} (hd : (d.map (·.1)).Nodup) (k : κ) (b : β) :
    dictGet d k = some b ↔ (k, b) ∈ d := by
  induction d with
  | nil => simp [dictGet_nil]
  | cons p d ih =>
    rw [List.map_cons, List.nodup_cons] at hd
    rw [dictGet_cons]
    by_cases h : p.1 = k
    · rw [if_pos h]
      constructor
      · intro e
        have : p = (k, b) := by rw [← h, ← Option.some.inj e]
        rw [this]; exact List.mem_cons_self
      · intro e
        rcases List.mem_cons.1 e with e | e
        · rw [← e]
        · exact absurd (List.mem_map.2 ⟨(k, b), e, rfl⟩) (by rw [← h]; exact hd.1)
    · rw [if_neg h, ih hd.2]
      constructor
      · exact List.mem_cons_of_mem _
      · intro e
        rcases List.mem_cons.1 e with e | e
        · exact absurd (by rw [← e]) h
        · exact e

theorem nodup_delete {β : Type} {d : List (κ × β)} (hd : (d.map (·.1)).Nodup) (k : κ) :
    ((dictDelete d k).map (·.1)).Nodup :=
  hd.sublist (List.Sublist.map _ List.filter_sublist)

theorem nodup_put {β : Type} {d : List (κ × β)} (hd : (d.map (·.1)).Nodup) (k : κ) (b : β) :
    ((dictPut d k b).map (·.1)).Nodup := by
  unfold dictPut
  rw [List.map_cons, List.nodup_cons]
  refine ⟨?_, nodup_delete hd k⟩
  intro h
  obtain ⟨e, he, h⟩ := List.mem_map.1 h
  have := (List.mem_filter.1 he).2
  simp at this
  exact this h

theorem spec_find_eq (a : List (κ × ν)) (k : κ) : find a k = dictGet a k := rfl
theorem spec_without_eq (a : List (κ × ν)) (k : κ) : without a k = dictDelete a k := rfl

/-! ### Sorting -/

theorem insertBy_perm (less : Int → Int → Bool) (x : κ × Int) (l : List (κ × Int)) : (insertBy less x l).Perm (x :: l) := by
  induction l with
  | nil => exact List.Perm.refl _
  | cons y l ih =>
    unfold insertBy
    by_cases h : less y.2 x.2 = true
    · rw [if_pos h]; exact (ih.cons y).trans (List.Perm.swap x y l)
    · rw [if_neg h]

theorem sortBy_perm (less : Int → Int → Bool) (l : List (κ × Int)) : (sortBy less l).Perm l := by
  induction l with
  | nil => exact List.Perm.refl _
  | cons x l ih => exact (insertBy_perm less x _).trans (ih.cons x)

theorem insertBy_pairwise (less : Int → Int → Bool) (r : Int → Int → Prop) (h1 : ∀ a b, less a b = true → r a b)
    (h2 : ∀ a b, ¬ less a b = true → r b a) (htr : ∀ a b c, r a b → r b c → r a c) (x : κ × Int) (l : List (κ × Int))
    (hl : l.Pairwise fun a b => r a.2 b.2) : (insertBy less x l).Pairwise fun a b => r a.2 b.2 := by
  induction l with
  | nil => exact List.pairwise_singleton _ _
  | cons y l ih =>
    unfold insertBy
    rw [List.pairwise_cons] at hl
    by_cases h : less y.2 x.2 = true
    · rw [if_pos h, List.pairwise_cons]
      refine ⟨?_, ih hl.2⟩
      intro e he
      rcases List.mem_cons.1 ((insertBy_perm less x l).mem_iff.1 he) with he | he
      · rw [he]; exact h1 _ _ h
      · exact hl.1 e he
    · rw [if_neg h, List.pairwise_cons]
      refine ⟨?_, List.pairwise_cons.2 hl⟩
      intro e he
      rcases List.mem_cons.1 he with he | he
      · rw [he]; exact h2 _ _ h
      · exact htr _ _ _ (h2 _ _ h) (hl.1 e he)

theorem sortBy_asc (l : List (κ × Int)) : (sortBy (fun a b => decide (a < b)) l).Pairwise fun a b => a.2 ≤ b.2 := by
  induction l with
  | nil => exact List.Pairwise.nil
  | cons x l ih =>
    refine insertBy_pairwise _ (fun a b => a ≤ b) ?_ ?_ ?_ x _ ih
    · intro a b h; have := of_decide_eq_true h; omega
    · intro a b h; have := of_decide_eq_false (Bool.eq_false_iff.2 h); omega
    · intro a b c; omega

theorem sortBy_desc (l : List (κ × Int)) : (sortBy (fun a b => decide (b < a)) l).Pairwise fun a b => b.2 ≤ a.2 := by
  induction l with
  | nil => exact List.Pairwise.nil
  | cons x l ih =>
    refine insertBy_pairwise _ (fun a b => b ≤ a) ?_ ?_ ?_ x _ ih
    · intro a b h; have := of_decide_eq_true h; omega
    · intro a b h; have := of_decide_eq_false (Bool.eq_false_iff.2 h); omega
    · intro a b c; omega

theorem perm_asc_unique (l l' : List (κ × Int)) (hp : l.Perm l') (hl : l.Pairwise fun a b => a.2 ≤ b.2)
    (hl' : l'.Pairwise fun a b => a.2 < b.2) : l = l' := by
  induction l' generalizing l with
  | nil => exact hp.eq_nil
  | cons y l' ih =>
    rw [List.pairwise_cons] at hl'
    cases l with
    | nil => exact absurd hp.symm.eq_nil (List.cons_ne_nil _ _)
    | cons x l =>
      rw [List.pairwise_cons] at hl
      have hxy : x = y := by
        rcases List.mem_cons.1 (hp.mem_iff.1 (List.mem_cons_self (a := x) (l := l))) with h | h
        · exact h
        · have h1 := hl'.1 x h
          rcases List.mem_cons.1 (hp.mem_iff.2 (List.mem_cons_self (a := y) (l := l'))) with h' | h'
          · exact h'.symm
          · have h2 := hl.1 y h'
            omega
      subst hxy
      rw [ih l hp.cons_inv hl.2 hl'.2]

theorem sortBy_asc_eq {l l' : List (κ × Int)} (hp : l.Perm l') (hl' : l'.Pairwise fun a b => a.2 < b.2) :
    sortBy (fun a b => decide (a < b)) l = l' :=
  perm_asc_unique _ _ ((sortBy_perm _ l).trans hp) (sortBy_asc l) hl'

theorem sortBy_desc_eq {q : List (κ × Int)} (hq : q.Pairwise fun a b => a.2 < b.2) :
    sortBy (fun a b => decide (b < a)) q = q.reverse := by
  have h := perm_asc_unique (sortBy (fun a b => decide (b < a)) q).reverse q
    ((List.reverse_perm _).trans (sortBy_perm _ q)) (List.pairwise_reverse.2 (sortBy_desc q)) hq
  have h' := congrArg List.reverse h
  rw [List.reverse_reverse] at h'
  exact h'

/-! ### Compaction -/

theorem compactLoop_sublist (l : List (κ × Int)) (seen : List κ) (acc : List (κ × Int)) :
    (compactLoop l seen acc).Sublist (l.reverse ++ acc) := by
  induction l generalizing seen acc with
  | nil => exact List.Sublist.refl _
  | cons x l ih =>
    unfold compactLoop
    rw [List.reverse_cons, List.append_assoc]
    by_cases h : x.1 ∈ seen
    · rw [if_pos h]
      exact (ih seen acc).trans (List.Sublist.append (List.Sublist.refl _) (List.sublist_cons_self _ _))
    · rw [if_neg h]; exact ih _ _

theorem acc_subset_compactLoop (l : List (κ × Int)) (seen : List κ) (acc : List (κ × Int)) (e : κ × Int) (he : e ∈ acc) :
    e ∈ compactLoop l seen acc := by
  induction l generalizing seen acc with
  | nil => exact he
  | cons x l ih =>
    unfold compactLoop
    by_cases h : x.1 ∈ seen
    · rw [if_pos h]; exact ih _ _ he
    · rw [if_neg h]; exact ih _ _ (List.mem_cons_of_mem _ he)

theorem newest_mem_compactLoop (l : List (κ × Int)) (seen : List κ) (acc : List (κ × Int)) (e : κ × Int)
    (hl : l.Pairwise fun a b => b.2 ≤ a.2) (he : e ∈ l) (hs : e.1 ∉ seen) (hmax : ∀ m, (e.1, m) ∈ l → m ≤ e.2) :
    e ∈ compactLoop l seen acc := by
  induction l generalizing seen acc with
  | nil => exact absurd he List.not_mem_nil
  | cons x l ih =>
    rw [List.pairwise_cons] at hl
    unfold compactLoop
    by_cases hxe : x.1 = e.1
    · rw [if_neg (by rw [hxe]; exact hs)]
      have hx : x = e := by
        rcases List.mem_cons.1 he with h | h
        · exact h.symm
        · have h1 := hl.1 e h
          have h2 := hmax x.2 (by rw [← hxe]; exact List.mem_cons_self)
          have h3 : x.2 = e.2 := by omega
          exact Prod.ext hxe h3
      exact acc_subset_compactLoop _ _ _ _ (by rw [hx]; exact List.mem_cons_self)
    · have he' : e ∈ l := by
        rcases List.mem_cons.1 he with h | h
        · exact absurd (by rw [h]) hxe
        · exact h
      have hmax' : ∀ m, (e.1, m) ∈ l → m ≤ e.2 := fun m hm => hmax m (List.mem_cons_of_mem _ hm)
      by_cases h : x.1 ∈ seen
      · rw [if_pos h]; exact ih _ _ hl.2 he' hs hmax'
      · rw [if_neg h]
        refine ih _ _ hl.2 he' ?_ hmax'
        intro hc
        rcases List.mem_cons.1 hc with hc | hc
        · exact hxe hc.symm
        · exact hs hc

theorem compactQueue_mem {q : List (κ × Int)} {e : κ × Int} (h : e ∈ compactQueue q) : e ∈ q := by
  have h1 := (compactLoop_sublist _ _ _).subset h
  rw [List.append_nil, List.mem_reverse] at h1
  exact (sortBy_perm _ q).mem_iff.1 h1

theorem compactQueue_newest {q : List (κ × Int)} {e : κ × Int} (he : e ∈ q) (hmax : ∀ m, (e.1, m) ∈ q → m ≤ e.2) :
    e ∈ compactQueue q :=
  newest_mem_compactLoop _ _ _ _ (sortBy_desc q) ((sortBy_perm _ q).mem_iff.2 he) List.not_mem_nil
    (fun m hm => hmax m ((sortBy_perm _ q).mem_iff.1 hm))

theorem compactQueue_asc (q : List (κ × Int)) : (compactQueue q).Pairwise fun a b => a.2 ≤ b.2 := by
  have h := compactLoop_sublist (sortBy (fun a b => decide (b < a)) q) [] []
  rw [List.append_nil] at h
  exact (List.pairwise_reverse.2 (sortBy_desc q)).sublist h

theorem compactQueue_sublist {q : List (κ × Int)} (hq : q.Pairwise fun a b => a.2 < b.2) : (compactQueue q).Sublist q := by
  have h := compactLoop_sublist (sortBy (fun a b => decide (b < a)) q) [] []
  rw [List.append_nil, sortBy_desc_eq hq, List.reverse_reverse] at h
  unfold compactQueue
  rw [sortBy_desc_eq hq]
  exact h

theorem filterMap_sublist_eq {α β : Type} {q' q : List α} (h : q'.Sublist q) (hn : q.Nodup) (f : α → Option β)
    (hf : ∀ e ∈ q, (f e).isSome → e ∈ q') : q'.filterMap f = q.filterMap f := by
  induction h with
  | slnil => rfl
  | cons a hs ih =>
    rename_i l1 l2
    rw [List.nodup_cons] at hn
    have hna : f a = none := by
      cases hfa : f a with
      | none => rfl
      | some b => exact absurd (hs.subset (hf a List.mem_cons_self (by rw [hfa]; rfl))) hn.1
    rw [List.filterMap_cons_none hna]
    exact ih hn.2 fun e he => hf e (List.mem_cons_of_mem _ he)
  | cons_cons a hs ih =>
    rename_i l1 l2
    rw [List.nodup_cons] at hn
    have := ih hn.2 (fun e he hs' => by
      rcases List.mem_cons.1 (hf e (List.mem_cons_of_mem _ he) hs') with h | h
      · exact absurd (h ▸ he) hn.1
      · exact h)
    rw [List.filterMap_cons, List.filterMap_cons, this]

/-! ### The invariant -/

/-- The entry that a queue element stands for, if it is the newest one of its key. -/
def live (d : List (κ × Int × ν)) (e : κ × Int) : Option (κ × ν) :=
  match dictGet d e.1 with
  | some nv => if e.2 = nv.1 then some (e.1, nv.2) else none
  | none => none

theorem live_eq_some {d : List (κ × Int × ν)} {e : κ × Int} {p : κ × ν} :
    live d e = some p ↔ p.1 = e.1 ∧ dictGet d e.1 = some (e.2, p.2) := by
  unfold live
  cases h : dictGet d e.1 with
  | none => simp
  | some nv =>
    dsimp only
    by_cases h2 : e.2 = nv.1
    · rw [if_pos h2]
      constructor
      · intro h3; rw [← Option.some.inj h3]; exact ⟨rfl, by rw [h2]⟩
      · intro ⟨h3, h4⟩
        have h5 := congrArg Prod.snd (Option.some.inj h4)
        dsimp only at h5
        rw [← h3, h5]
    · rw [if_neg h2]
      constructor
      · intro h3; exact absurd h3 (by simp)
      · intro ⟨_, h4⟩; rw [Option.some.inj h4] at h2; exact absurd rfl h2

structure Inv (d : List (κ × Int × ν)) (q : List (κ × Int)) (cnt : Int) : Prop where
  nodup : (d.map (·.1)).Nodup
  asc : q.Pairwise fun a b => a.2 < b.2
  lt : ∀ e ∈ q, e.2 < cnt
  mem : ∀ k n v, dictGet d k = some (n, v) → (k, n) ∈ q
  max : ∀ k n v, dictGet d k = some (n, v) → ∀ m, (k, m) ∈ q → m ≤ n

theorem Inv.nodup_q {d : List (κ × Int × ν)} {q : List (κ × Int)} {cnt : Int} (h : Inv d q cnt) : q.Nodup := by
  refine h.asc.imp ?_
  intro a b hab e
  rw [e] at hab; omega

theorem mem_abs {d : List (κ × Int × ν)} {q : List (κ × Int)} {cnt : Int} (h : Inv d q cnt) (p : κ × ν) :
    p ∈ q.filterMap (live d) ↔ ∃ n, dictGet d p.1 = some (n, p.2) := by
  rw [List.mem_filterMap]
  constructor
  · rintro ⟨e, _, he2⟩
    rw [live_eq_some] at he2
    exact ⟨e.2, by rw [he2.1]; exact he2.2⟩
  · rintro ⟨n, hn⟩
    exact ⟨(p.1, n), h.mem _ _ _ hn, live_eq_some.2 ⟨rfl, hn⟩⟩

theorem abs_nodup {d : List (κ × Int × ν)} {q : List (κ × Int)} (hq : q.Nodup) : ((q.filterMap (live d)).map (·.1)).Nodup := by
  rw [List.Nodup, List.pairwise_map]
  rw [List.pairwise_filterMap]
  refine hq.imp ?_
  intro a b hab p hp p' hp' hpp
  rw [live_eq_some] at hp hp'
  apply hab
  have h1 : a.1 = b.1 := by rw [← hp.1, ← hp'.1, hpp]
  refine Prod.ext h1 ?_
  have h2 := hp.2
  rw [h1, hp'.2] at h2
  exact (congrArg Prod.fst (Option.some.inj h2)).symm

theorem dictGet_abs {d : List (κ × Int × ν)} {q : List (κ × Int)} {cnt : Int} (h : Inv d q cnt) (k : κ) :
    find (q.filterMap (live d)) k = (dictGet d k).map (·.2) := by
  rw [spec_find_eq]
  apply Option.ext
  intro v
  rw [dictGet_eq_some (abs_nodup h.nodup_q), mem_abs h]
  constructor
  · rintro ⟨n, hn⟩
    dsimp only at hn
    rw [hn]; rfl
  · intro hv
    cases hd : dictGet d k with
    | none => rw [hd] at hv; exact absurd hv (by simp)
    | some nv =>
      rw [hd] at hv
      have : nv.2 = v := Option.some.inj hv
      exact ⟨nv.1, by dsimp only; rw [← this]⟩

theorem perm_abs {d : List (κ × Int × ν)} {q : List (κ × Int)} {cnt : Int} (h : Inv d q cnt) :
    (d.map fun e => (e.1, e.2.2)).Perm (q.filterMap (live d)) := by
  have hn1 : (d.map fun e => (e.1, e.2.2)).Nodup := by
    have := h.nodup
    refine List.Nodup.of_map (·.1) ?_
    rw [List.map_map]; exact this
  have hn2 : (q.filterMap (live d)).Nodup := List.Nodup.of_map _ (abs_nodup h.nodup_q)
  rw [List.perm_ext_iff_of_nodup hn1 hn2]
  intro p
  rw [mem_abs h, List.mem_map]
  constructor
  · rintro ⟨e, he, rfl⟩
    exact ⟨e.2.1, (dictGet_eq_some h.nodup _ _).2 he⟩
  · rintro ⟨n, hn⟩
    exact ⟨(p.1, n, p.2), (dictGet_eq_some h.nodup _ _).1 hn, rfl⟩

theorem length_abs {d : List (κ × Int × ν)} {q : List (κ × Int)} {cnt : Int} (h : Inv d q cnt) :
    (q.filterMap (live d)).length = d.length := by
  rw [← (perm_abs h).length_eq, List.length_map]

theorem Inv.delete {d : List (κ × Int × ν)} {q : List (κ × Int)} {cnt : Int} (h : Inv d q cnt) (k : κ) :
    Inv (dictDelete d k) q cnt := by
  refine ⟨nodup_delete h.nodup k, h.asc, h.lt, ?_, ?_⟩
  · intro j n v hj
    rw [dictGet_delete] at hj
    by_cases hjk : j = k
    · rw [if_pos hjk] at hj; exact absurd hj (by simp)
    · rw [if_neg hjk] at hj; exact h.mem _ _ _ hj
  · intro j n v hj
    rw [dictGet_delete] at hj
    by_cases hjk : j = k
    · rw [if_pos hjk] at hj; exact absurd hj (by simp)
    · rw [if_neg hjk] at hj; exact h.max _ _ _ hj

theorem live_delete (d : List (κ × Int × ν)) (k : κ) (e : κ × Int) :
    live (dictDelete d k) e = if e.1 = k then none else live d e := by
  unfold live
  rw [dictGet_delete]
  by_cases h : e.1 = k
  · simp [h]
  · rw [if_neg h, if_neg h]

theorem live_put (d : List (κ × Int × ν)) (k : κ) (b : Int × ν) (e : κ × Int) :
    live (dictPut d k b) e = if e.1 = k then (if e.2 = b.1 then some (k, b.2) else none) else live d e := by
  unfold live
  rw [dictGet_put]
  by_cases h : e.1 = k
  · simp [h]
  · rw [if_neg h, if_neg h]

theorem filterMap_live_without (d : List (κ × Int × ν)) (k : κ) (f : κ × Int → Option (κ × ν)) (q : List (κ × Int))
    (hf : ∀ e ∈ q, f e = if e.1 = k then none else live d e) : q.filterMap f = without (q.filterMap (live d)) k := by
  induction q with
  | nil => rfl
  | cons e q ih =>
    have ih := ih fun e he => hf e (List.mem_cons_of_mem _ he)
    have h1 := hf e List.mem_cons_self
    rw [List.filterMap_cons, List.filterMap_cons, h1, ih]
    by_cases h : e.1 = k
    · rw [if_pos h]
      cases hl : live d e with
      | none => rfl
      | some p =>
        dsimp only
        unfold without
        rw [List.filter_cons, if_neg (by rw [(live_eq_some.1 hl).1]; simp [h])]
    · rw [if_neg h]
      cases hl : live d e with
      | none => rfl
      | some p =>
        dsimp only
        unfold without
        rw [List.filter_cons, if_pos (by rw [(live_eq_some.1 hl).1]; simp [h])]

theorem abs_delete (d : List (κ × Int × ν)) (k : κ) (q : List (κ × Int)) :
    q.filterMap (live (dictDelete d k)) = without (q.filterMap (live d)) k :=
  filterMap_live_without d k _ q fun e _ => live_delete d k e

/-- Every key in the queue is in the storage. -/
def Clean (d : List (κ × Int × ν)) (q : List (κ × Int)) : Prop := ∀ e ∈ q, (dictGet d e.1).isSome

theorem evictLoop_spec {d : List (κ × Int × ν)} {q : List (κ × Int)} {cnt : Int} (h : Inv d q cnt) (hd : d ≠ []) :
    ∃ d' q', evictLoop d q = some (d', q') ∧ Inv d' q' cnt ∧ q'.filterMap (live d') = (q.filterMap (live d)).tail ∧
      (Clean d q → Clean d' q') := by
  induction q with
  | nil =>
    cases d with
    | nil => exact absurd rfl hd
    | cons p d =>
      have := h.mem p.1 p.2.1 p.2.2 (by rw [dictGet_cons, if_pos rfl])
      exact absurd this List.not_mem_nil
  | cons e q ih =>
    have hasc := List.pairwise_cons.1 h.asc
    unfold evictLoop
    have key : live d e = none → Inv d q cnt := by
      intro hl
      refine ⟨h.nodup, hasc.2, fun e he => h.lt e (List.mem_cons_of_mem _ he), ?_,
        fun k n v hk m hm => h.max k n v hk m (List.mem_cons_of_mem _ hm)⟩
      intro k n v hk
      rcases List.mem_cons.1 (h.mem k n v hk) with h1 | h1
      · have : live d e = some (k, v) := live_eq_some.2 ⟨by rw [← h1], by rw [← h1]; exact hk⟩
        rw [this] at hl; exact absurd hl (by simp)
      · exact h1
    have keyc : Clean d (e :: q) → Clean d q := fun hc e he => hc e (List.mem_cons_of_mem _ he)
    cases hg : dictGet d e.1 with
    | none =>
      dsimp only
      have hl : live d e = none := by unfold live; rw [hg]
      obtain ⟨d', q', h1, h2, h3, h4⟩ := ih (key hl)
      exact ⟨d', q', h1, h2, by rw [h3, List.filterMap_cons_none hl], fun hc => h4 (keyc hc)⟩
    | some nv =>
      dsimp only
      by_cases hn : e.2 = nv.1
      · rw [if_pos hn]
        have hl : live d e = some (e.1, nv.2) := by unfold live; rw [hg]; dsimp only; rw [if_pos hn]
        have hno : ∀ x ∈ q, x.1 ≠ e.1 := by
          intro x hx hxe
          have h1 := hasc.1 x hx
          have h2 := h.max e.1 nv.1 nv.2 hg x.2 (by rw [← hxe]; exact List.mem_cons_of_mem _ hx)
          omega
        refine ⟨_, _, rfl, ?_, ?_, ?_⟩
        · refine ⟨nodup_delete h.nodup _, hasc.2, fun e he => h.lt e (List.mem_cons_of_mem _ he), ?_, ?_⟩
          · intro k n v hk
            rw [dictGet_delete] at hk
            by_cases hke : k = e.1
            · rw [if_pos hke] at hk; exact absurd hk (by simp)
            · rw [if_neg hke] at hk
              rcases List.mem_cons.1 (h.mem k n v hk) with h1 | h1
              · exact absurd (by rw [← h1]) hke
              · exact h1
          · intro k n v hk m hm
            rw [dictGet_delete] at hk
            by_cases hke : k = e.1
            · rw [if_pos hke] at hk; exact absurd hk (by simp)
            · rw [if_neg hke] at hk
              exact h.max k n v hk m (List.mem_cons_of_mem _ hm)
        · rw [List.filterMap_cons_some hl, List.tail_cons]
          apply List.filterMap_congr
          intro x hx
          rw [live_delete, if_neg (hno x hx)]
        · intro hc x hx
          rw [dictGet_delete, if_neg (hno x hx)]
          exact hc x (List.mem_cons_of_mem _ hx)
      · rw [if_neg hn]
        have hl : live d e = none := by unfold live; rw [hg]; dsimp only; rw [if_neg hn]
        obtain ⟨d', q', h1, h2, h3, h4⟩ := ih (key hl)
        exact ⟨d', q', h1, h2, by rw [h3, List.filterMap_cons_none hl], fun hc => h4 (keyc hc)⟩

theorem put_spec {d : List (κ × Int × ν)} {q : List (κ × Int)} {cnt : Int} (h : Inv d q cnt) (k : κ) (v : ν) :
    Inv (dictPut d k (cnt, v)) (q ++ [(k, cnt)]) (cnt + 1) ∧
    (q ++ [(k, cnt)]).filterMap (live (dictPut d k (cnt, v))) = without (q.filterMap (live d)) k ++ [(k, v)] ∧
    (Clean d q → Clean (dictPut d k (cnt, v)) (q ++ [(k, cnt)])) := by
  refine ⟨⟨nodup_put h.nodup _ _, ?_, ?_, ?_, ?_⟩, ?_, ?_⟩
  · rw [List.pairwise_append]
    refine ⟨h.asc, List.pairwise_singleton _ _, ?_⟩
    intro a ha b hb
    rw [List.mem_singleton] at hb
    rw [hb]; exact h.lt a ha
  · intro e he
    rcases List.mem_append.1 he with he | he
    · have := h.lt e he; omega
    · rw [List.mem_singleton] at he; rw [he]; show cnt < cnt + 1; omega
  · intro j n w hj
    rw [dictGet_put] at hj
    by_cases hjk : j = k
    · rw [if_pos hjk] at hj
      have : cnt = n := congrArg Prod.fst (Option.some.inj hj)
      rw [hjk, this]; exact List.mem_append_right _ (List.mem_singleton.2 rfl)
    · rw [if_neg hjk] at hj
      exact List.mem_append_left _ (h.mem _ _ _ hj)
  · intro j n w hj m hm
    rw [dictGet_put] at hj
    by_cases hjk : j = k
    · rw [if_pos hjk] at hj
      have hn : cnt = n := congrArg Prod.fst (Option.some.inj hj)
      rcases List.mem_append.1 hm with hm | hm
      · have := h.lt _ hm; dsimp only at this; omega
      · have := congrArg Prod.snd (List.mem_singleton.1 hm); dsimp only at this; omega
    · rw [if_neg hjk] at hj
      rcases List.mem_append.1 hm with hm | hm
      · exact h.max _ _ _ hj _ hm
      · exact absurd (congrArg Prod.fst (List.mem_singleton.1 hm)) hjk
  · rw [List.filterMap_append, filterMap_live_without d k _ q]
    · congr 1
      have : live (dictPut d k (cnt, v)) (k, cnt) = some (k, v) := by rw [live_put]; simp
      rw [List.filterMap_cons_some this]; rfl
    · intro e he
      rw [live_put]
      by_cases hek : e.1 = k
      · rw [if_pos hek, if_pos hek, if_neg]
        have := h.lt e he
        dsimp only; omega
      · rw [if_neg hek, if_neg hek]
  · intro hc e he
    rw [dictGet_put]
    by_cases hek : e.1 = k
    · rw [if_pos hek]; rfl
    · rw [if_neg hek]
      rcases List.mem_append.1 he with he | he
      · exact hc e he
      · rw [List.mem_singleton] at he; rw [he] at hek; exact absurd rfl hek

theorem compact_spec {d : List (κ × Int × ν)} {q : List (κ × Int)} {cnt : Int} (h : Inv d q cnt) :
    Inv d (compactQueue q) cnt ∧ (compactQueue q).filterMap (live d) = q.filterMap (live d) ∧
    (Clean d q → Clean d (compactQueue q)) := by
  have hs := compactQueue_sublist h.asc
  refine ⟨⟨h.nodup, h.asc.sublist hs, fun e he => h.lt e (hs.subset he), ?_, ?_⟩, ?_, fun hc e he => hc e (hs.subset he)⟩
  · intro k n v hk
    exact compactQueue_newest (h.mem _ _ _ hk) (h.max _ _ _ hk)
  · intro k n v hk m hm
    exact h.max _ _ _ hk m (hs.subset hm)
  · apply filterMap_sublist_eq hs h.nodup_q
    intro e he hl
    obtain ⟨p, hp⟩ := Option.isSome_iff_exists.1 hl
    have := (live_eq_some.1 hp).2
    exact compactQueue_newest he (h.max _ _ _ this)

/-! ### Renumbering -/

theorem renumberLoop_spec (d0 : List (κ × Int × ν)) (top : Int) (l : List (κ × Int)) :
    ∀ (seen : List κ) (cnt : Int) (queue : List (κ × Int)) (st : List (κ × Int × ν)),
    (∀ e ∈ l, e.1 ∈ seen → live d0 e = none) →
    (l.Pairwise fun a b => a.1 = b.1 → live d0 b = none) →
    (∀ k, k ∉ seen → dictGet st k = dictGet d0 k) →
    (∀ e ∈ queue, e.1 ∈ seen ∧ (live st e).isSome ∧ cnt < e.2 ∧ e.2 ≤ top) →
    (queue.Pairwise fun a b => a.2 < b.2) → cnt ≤ top →
    (∀ e ∈ l, (dictGet d0 e.1).isSome) →
    (∀ k n v, k ∉ seen → dictGet d0 k = some (n, v) → (k, n) ∈ l) →
    (∀ k n v, k ∈ seen → dictGet st k = some (n, v) → (k, n) ∈ queue) →
    ((st.map (·.1)).Nodup) →
    ∃ q' d', renumberLoop l seen cnt queue st = some (q', d') ∧
      q'.filterMap (live d') = (l.filterMap (live d0)).reverse ++ queue.filterMap (live st) ∧
      (q'.Pairwise fun a b => a.2 < b.2) ∧ (∀ e ∈ q', (live d' e).isSome ∧ e.2 ≤ top) ∧
      (∀ k n v, dictGet d' k = some (n, v) → (k, n) ∈ q') ∧ (d'.map (·.1)).Nodup := by
  induction l with
  | nil =>
    intro seen cnt queue st h1 h2 h3 h4 h5 h5' h6 h7 h8 h9
    refine ⟨queue, st, rfl, rfl, h5, fun e he => ⟨(h4 e he).2.1, (h4 e he).2.2.2⟩, ?_, h9⟩
    intro k n v hk
    by_cases hs : k ∈ seen
    · exact h8 k n v hs hk
    · rw [h3 k hs] at hk; exact absurd (h7 k n v hs hk) List.not_mem_nil
  | cons e l ih =>
    intro seen cnt queue st h1 h2 h3 h4 h5 h5' h6 h7 h8 h9
    rw [List.pairwise_cons] at h2
    unfold renumberLoop
    by_cases hs : e.1 ∈ seen
    · rw [if_pos hs]
      have hl : live d0 e = none := h1 e List.mem_cons_self hs
      obtain ⟨q', d', r1, r2, r3⟩ := ih seen cnt queue st (fun e he => h1 e (List.mem_cons_of_mem _ he)) h2.2 h3 h4 h5 h5'
        (fun e he => h6 e (List.mem_cons_of_mem _ he))
        (fun k n v hk hg => by
          rcases List.mem_cons.1 (h7 k n v hk hg) with h | h
          · exact absurd (by rw [← h]; exact hk) (not_not.2 hs)
          · exact h) h8 h9
      exact ⟨q', d', r1, by rw [r2, List.filterMap_cons_none hl], r3⟩
    · rw [if_neg hs, h3 e.1 hs]
      obtain ⟨nv, hnv⟩ := Option.isSome_iff_exists.1 (h6 e List.mem_cons_self)
      have hmem := h7 e.1 nv.1 nv.2 hs hnv
      have hlive : live d0 (e.1, nv.1) = some (e.1, nv.2) := live_eq_some.2 ⟨rfl, hnv⟩
      have heq : e = (e.1, nv.1) := by
        rcases List.mem_cons.1 hmem with h | h
        · exact h.symm
        · rw [h2.1 _ h rfl] at hlive; exact absurd hlive (by simp)
      rw [hnv, Option.bind_some]
      obtain ⟨q', d', r1, r2, r3⟩ := ih (e.1 :: seen) (cnt - 1) ((e.1, cnt) :: queue) (dictPut st e.1 (cnt, nv.2))
        (fun x hx hxs => by
          rcases List.mem_cons.1 hxs with h | h
          · exact h2.1 x hx h.symm
          · exact h1 x (List.mem_cons_of_mem _ hx) h)
        h2.2
        (fun k hk => by
          rw [List.mem_cons, not_or] at hk
          rw [dictGet_put, if_neg hk.1, h3 k hk.2])
        (fun x hx => by
          rcases List.mem_cons.1 hx with h | h
          · rw [h]
            refine ⟨List.mem_cons_self, ?_, ?_, h5'⟩
            · rw [live_put]; simp
            · show cnt - 1 < cnt; omega
          · have := h4 x h
            refine ⟨List.mem_cons_of_mem _ this.1, ?_, by omega, this.2.2.2⟩
            rw [live_put, if_neg (by intro hc; rw [hc] at this; exact hs this.1)]
            exact this.2.1)
        (List.pairwise_cons.2 ⟨fun x hx => (h4 x hx).2.2.1, h5⟩) (by omega)
        (fun x hx => h6 x (List.mem_cons_of_mem _ hx))
        (fun k n v hk hg => by
          rw [List.mem_cons, not_or] at hk
          rcases List.mem_cons.1 (h7 k n v hk.2 hg) with h | h
          · exact absurd (by rw [← h]) hk.1
          · exact h)
        (fun k n v hk hg => by
          rw [dictGet_put] at hg
          by_cases hke : k = e.1
          · rw [if_pos hke] at hg
            have : cnt = n := congrArg Prod.fst (Option.some.inj hg)
            rw [hke, this]; exact List.mem_cons_self
          · rw [if_neg hke] at hg
            rcases List.mem_cons.1 hk with h | h
            · exact absurd h hke
            · exact List.mem_cons_of_mem _ (h8 k n v h hg))
        (nodup_put h9 _ _)
      refine ⟨q', d', r1, ?_, r3⟩
      have hle : live d0 e = some (e.1, nv.2) := by
        have h0 : live d0 e = live d0 (e.1, nv.1) := congrArg _ heq
        rw [h0]; exact hlive
      rw [r2, List.filterMap_cons_some hle, List.reverse_cons, List.append_assoc]
      congr 1
      have hh : live (dictPut st e.1 (cnt, nv.2)) (e.1, cnt) = some (e.1, nv.2) := by rw [live_put]; simp
      rw [List.filterMap_cons_some hh, List.singleton_append]
      congr 1
      apply List.filterMap_congr
      intro x hx
      rw [live_put, if_neg]
      intro hc
      exact hs (hc ▸ (h4 x hx).1)

theorem renumber_spec {d : List (κ × Int × ν)} {q : List (κ × Int)} {cnt : Int} (h : Inv d q cnt) (hc : Clean d q) :
    ∃ q' d', renumberEntries q d = some (q', d') ∧ Inv d' q' d'.length ∧ q'.filterMap (live d') = q.filterMap (live d) ∧
      Clean d' q' := by
  have hrev : q.reverse.Pairwise fun a b => b.2 < a.2 := List.pairwise_reverse.2 h.asc
  obtain ⟨q', d', r1, r2, r3, r4, r5, r6⟩ := renumberLoop_spec d ((d.length : Int) - 1) q.reverse [] ((d.length : Int) - 1) [] d
    (fun e _ he => absurd he List.not_mem_nil)
    (by
      refine (List.pairwise_iff_forall_sublist.2 ?_)
      intro a b hab hk
      have hb : b ∈ q := List.mem_reverse.1 (hab.subset (by simp))
      have ha : a ∈ q := List.mem_reverse.1 (hab.subset (by simp))
      have hlt : b.2 < a.2 := List.pairwise_iff_forall_sublist.1 hrev hab
      cases hl : live d b with
      | none => rfl
      | some p =>
        have h1 := (live_eq_some.1 hl).2
        have h2 := h.max _ _ _ h1 a.2 (by rw [← hk]; exact ha)
        omega)
    (fun k _ => rfl) (fun e he => absurd he List.not_mem_nil) List.Pairwise.nil (le_refl _)
    (fun e he => hc e (List.mem_reverse.1 he))
    (fun k n v _ hk => List.mem_reverse.2 (h.mem k n v hk))
    (fun k n v hk => absurd hk List.not_mem_nil) h.nodup
  rw [List.filterMap_nil, List.append_nil, List.filterMap_reverse, List.reverse_reverse] at r2
  have hinv0 : Inv d' q' (d.length : Int) := by
    refine ⟨r6, r3, fun e he => by have := (r4 e he).2; omega, r5, ?_⟩
    intro k n v hk m hm
    obtain ⟨p, hp⟩ := Option.isSome_iff_exists.1 (r4 _ hm).1
    have h1 := (live_eq_some.1 hp).2
    dsimp only at h1
    rw [hk] at h1
    have h2 := congrArg Prod.fst (Option.some.inj h1)
    dsimp only at h2
    omega
  have hlen : d'.length = d.length := by rw [← length_abs hinv0, r2, length_abs h]
  refine ⟨q', d', ?_, by rw [hlen]; exact hinv0, r2, ?_⟩
  · unfold renumberEntries
    rw [sortBy_desc_eq h.asc]; exact r1
  · intro e he
    obtain ⟨p, hp⟩ := Option.isSome_iff_exists.1 (r4 e he).1
    rw [(live_eq_some.1 hp).2]; rfl

/-! ### Operations -/

/-- The state represents the entries `a`. -/
def Rep (c : Fifo κ ν) (a : List (κ × ν)) : Prop :=
  Inv c.storage c.queue c.counter ∧ c.queue.filterMap (live c.storage) = a

theorem touch_spec {fixmax : Int} {c : Fifo κ ν} (k : κ) (v : ν) (h : Inv c.storage c.queue c.counter)
    (hroom : Clean c.storage c.queue ∨ c.counter < fixmax) :
    ∃ c', touch fixmax { c with storage := dictPut c.storage k (c.counter, v) } k = some c' ∧
      Rep c' (without (c.queue.filterMap (live c.storage)) k ++ [(k, v)]) ∧ c'.capacity = c.capacity ∧
      (Clean c.storage c.queue → Clean c'.storage c'.queue) ∧ (c.counter < fixmax → c'.counter ≤ c.counter + 1) := by
  obtain ⟨p1, p2, p3⟩ := put_spec h k v
  unfold touch
  dsimp only
  by_cases hf : c.counter = fixmax
  · rw [if_pos hf]
    have hcl : Clean c.storage c.queue := by
      rcases hroom with h | h
      · exact h
      · omega
    obtain ⟨q', d', r1, r2, r3, r4⟩ := renumber_spec p1 (p3 hcl)
    rw [r1, Option.map_some]
    exact ⟨_, rfl, ⟨r2, by rw [r3, p2]⟩, rfl, fun _ => r4, fun hlt => by omega⟩
  · rw [if_neg hf]
    by_cases hq : (c.queue ++ [(k, c.counter)]).length > 3 * (dictPut c.storage k (c.counter, v)).length
    · rw [if_pos hq]
      obtain ⟨r1, r2, r3⟩ := compact_spec p1
      exact ⟨_, rfl, ⟨r1, by dsimp only; rw [r2, p2]⟩, rfl, fun hc => r3 (p3 hc), fun _ => le_refl _⟩
    · rw [if_neg hq]
      exact ⟨_, rfl, ⟨p1, p2⟩, rfl, p3, fun _ => le_refl _⟩

theorem add_spec {fixmax : Int} {c : Fifo κ ν} {a : List (κ × ν)} (k : κ) (v : ν) (h : Rep c a) (hcap : 1 ≤ c.capacity)
    (hroom : Clean c.storage c.queue ∨ c.counter < fixmax) :
    ∃ c', add fixmax c k v = some c' ∧ Rep c' (insertEager c.capacity a k v) ∧ c'.capacity = c.capacity ∧
      (Clean c.storage c.queue → Clean c'.storage c'.queue) ∧ (c.counter < fixmax → c'.counter ≤ c.counter + 1) := by
  have hlen : a.length = c.storage.length := by rw [← h.2]; exact length_abs h.1
  unfold add insertEager
  rw [hlen]
  by_cases hf : c.capacity ≤ c.storage.length
  · rw [if_pos hf, if_pos hf]
    have hne : c.storage ≠ [] := by
      intro h0; rw [h0] at hf; simp at hf; omega
    obtain ⟨d', q', e1, e2, e3, e4⟩ := evictLoop_spec h.1 hne
    rw [e1, Option.map_some, Option.bind_some]
    obtain ⟨c', t1, t2, t3, t4, t5⟩ := touch_spec (c := { c with storage := d', queue := q' }) k v e2 (hroom.imp e4 id)
    refine ⟨c', t1, ?_, t3, fun hc => t4 (e4 hc), t5⟩
    rw [← h.2, ← e3]; exact t2
  · rw [if_neg hf, if_neg hf, Option.bind_some]
    obtain ⟨c', t1, t2, t3, t4, t5⟩ := touch_spec (fixmax := fixmax) k v h.1 hroom
    exact ⟨c', t1, by rw [← h.2]; exact t2, t3, t4, t5⟩

theorem check_spec {fixmax : Int} {refresh : Bool} {c : Fifo κ ν} {a : List (κ × ν)} (k : κ) (h : Rep c a)
    (hroom : Clean c.storage c.queue ∨ c.counter < fixmax) :
    ∃ c', check fixmax refresh c k = some (c', find a k) ∧ Rep c' (readEntry refresh a k) ∧ c'.capacity = c.capacity ∧
      (Clean c.storage c.queue → Clean c'.storage c'.queue) ∧ (c.counter < fixmax → c'.counter ≤ c.counter + 1) ∧
      (find a k = none → c' = c) := by
  have hfind : find a k = (dictGet c.storage k).map (·.2) := by rw [← h.2]; exact dictGet_abs h.1 k
  unfold check readEntry
  cases hg : dictGet c.storage k with
  | none =>
    rw [hg] at hfind
    rw [hfind]
    exact ⟨c, rfl, h, rfl, id, fun _ => by omega, fun _ => rfl⟩
  | some nv =>
    rw [hg] at hfind
    rw [hfind]
    dsimp only [Option.map_some]
    cases refresh with
    | false =>
      rw [if_neg (by simp)]
      exact ⟨c, rfl, h, rfl, id, fun _ => by omega, fun h => absurd h (by simp)⟩
    | true =>
      rw [if_pos rfl, if_pos rfl]
      obtain ⟨c', t1, t2, t3, t4, t5⟩ := touch_spec (fixmax := fixmax) k nv.2 h.1 hroom
      rw [t1]
      exact ⟨c', rfl, by rw [← h.2]; exact t2, t3, t4, t5, fun h => absurd h (by simp)⟩

theorem step_spec {fixmax : Int} {refresh : Bool} {c : Fifo κ ν} {a : List (κ × ν)} (o : Op κ ν) (h : Rep c a)
    (hcap : 1 ≤ c.capacity) (hroom : (Clean c.storage c.queue ∧ ∀ k, o ≠ .evict k) ∨ c.counter < fixmax) :
    ∃ c', step fixmax refresh c o = some (c', (Spec.Cache.step (insertEager c.capacity) refresh a o).2) ∧
      Rep c' (Spec.Cache.step (insertEager c.capacity) refresh a o).1 ∧ c'.capacity = c.capacity ∧
      (Clean c.storage c.queue ∧ (∀ k, o ≠ .evict k) → Clean c'.storage c'.queue) ∧
      (c.counter < fixmax → c'.counter ≤ c.counter + 1) := by
  have hroom' : Clean c.storage c.queue ∨ c.counter < fixmax := hroom.imp (·.1) id
  cases o with
  | lookup k =>
    obtain ⟨c', r1, r2, r3, r4, r5, _⟩ := check_spec (refresh := refresh) k h hroom'
    exact ⟨c', r1, r2, r3, fun hc => r4 hc.1, r5⟩
  | through k v =>
    obtain ⟨c', r1, r2, r3, r4, r5, r6⟩ := check_spec (refresh := refresh) k h hroom'
    unfold step Spec.Cache.step
    dsimp only
    rw [r1, Option.bind_some]
    cases hf : find a k with
    | some w => exact ⟨c', rfl, r2, r3, fun hc => r4 hc.1, r5⟩
    | none =>
      dsimp only
      rw [r6 hf]
      obtain ⟨c2, t1, t2, t3, t4, t5⟩ := add_spec k v h hcap hroom'
      rw [t1]
      exact ⟨c2, rfl, t2, t3, fun hc => t4 hc.1, t5⟩
  | write k v =>
    obtain ⟨c2, t1, t2, t3, t4, t5⟩ := add_spec k v h hcap hroom'
    unfold step
    dsimp only
    rw [t1]
    exact ⟨c2, rfl, t2, t3, fun hc => t4 hc.1, t5⟩
  | evict k =>
    refine ⟨_, rfl, ⟨h.1.delete k, ?_⟩, rfl, fun hc => absurd rfl (hc.2 k), fun _ => by dsimp only; omega⟩
    dsimp only [Spec.Cache.step]
    rw [abs_delete, h.2]
  | clear =>
    refine ⟨_, rfl, ⟨⟨List.nodup_nil, List.Pairwise.nil, fun e he => absurd he List.not_mem_nil,
      fun k n v hk => ?_, fun k n v hk => ?_⟩, rfl⟩, rfl, fun _ e he => absurd he List.not_mem_nil, fun _ => by dsimp only; omega⟩
    · rw [dictGet_nil] at hk; exact absurd hk (by simp)
    · rw [dictGet_nil] at hk; exact absurd hk (by simp)

theorem run_spec {fixmax : Int} {refresh : Bool} (cap : Nat) (hcap : 1 ≤ cap) (ops : List (Op κ ν)) :
    ∀ (c : Fifo κ ν) (a : List (κ × ν)), Rep c a → c.capacity = cap →
    ((Clean c.storage c.queue ∧ ∀ k, Op.evict k ∉ ops) ∨ c.counter + ops.length ≤ fixmax) →
    ∃ c', run fixmax refresh c ops = some (c', (Spec.Cache.run (insertEager cap) refresh a ops).2) ∧
      Rep c' (Spec.Cache.run (insertEager cap) refresh a ops).1 ∧ c'.capacity = cap := by
  induction ops with
  | nil => intro c a h hc _; exact ⟨c, rfl, h, hc⟩
  | cons o ops ih =>
    intro c a h hc hroom
    have hroom1 : (Clean c.storage c.queue ∧ ∀ k, o ≠ .evict k) ∨ c.counter < fixmax := by
      refine hroom.imp (fun hr => ⟨hr.1, fun k e => hr.2 k (by rw [← e]; exact List.mem_cons_self)⟩) ?_
      intro hr; rw [List.length_cons] at hr; omega
    obtain ⟨c1, s1, s2, s3, s4, s5⟩ := step_spec (refresh := refresh) o h (by omega) hroom1
    rw [hc] at s1 s2 s3
    have hroom2 : (Clean c1.storage c1.queue ∧ ∀ k, Op.evict k ∉ ops) ∨ c1.counter + ops.length ≤ fixmax := by
      rcases hroom with hr | hr
      · exact Or.inl ⟨s4 ⟨hr.1, fun k e => hr.2 k (by rw [← e]; exact List.mem_cons_self)⟩,
          fun k hk => hr.2 k (List.mem_cons_of_mem _ hk)⟩
      · rw [List.length_cons] at hr
        have := s5 (by omega)
        exact Or.inr (by omega)
    obtain ⟨c2, r1, r2, r3⟩ := ih c1 _ s2 s3 hroom2
    refine ⟨c2, ?_, r2, r3⟩
    unfold run Spec.Cache.run
    rw [s1, Option.bind_some]
    dsimp only
    rw [r1]; rfl

/-! ### Making a cache -/

theorem foldl_max_ge (l : List (κ × Int)) (m : Int) :
    m ≤ l.foldl (fun maxn e => if maxn < e.2 then e.2 else maxn) m ∧
    ∀ e ∈ l, e.2 ≤ l.foldl (fun maxn e => if maxn < e.2 then e.2 else maxn) m := by
  induction l generalizing m with
  | nil => exact ⟨le_refl _, fun e he => absurd he List.not_mem_nil⟩
  | cons x l ih =>
    rw [List.foldl_cons]
    obtain ⟨h1, h2⟩ := ih (if m < x.2 then x.2 else m)
    have h3 : m ≤ (if m < x.2 then x.2 else m) ∧ x.2 ≤ (if m < x.2 then x.2 else m) := by
      by_cases h : m < x.2
      · rw [if_pos h]; omega
      · rw [if_neg h]; omega
    refine ⟨by omega, fun e he => ?_⟩
    rcases List.mem_cons.1 he with h | h
    · rw [h]; omega
    · exact h2 e h

theorem foldl_max_le (l : List (κ × Int)) (m b : Int) (hm : m ≤ b) (hl : ∀ e ∈ l, e.2 ≤ b) :
    l.foldl (fun maxn e => if maxn < e.2 then e.2 else maxn) m ≤ b := by
  induction l generalizing m with
  | nil => exact hm
  | cons x l ih =>
    rw [List.foldl_cons]
    refine ih _ ?_ fun e he => hl e (List.mem_cons_of_mem _ he)
    by_cases h : m < x.2
    · rw [if_pos h]; exact hl x List.mem_cons_self
    · rw [if_neg h]; exact hm

theorem make_spec (cap : Nat) (storage a : List (κ × Int × ν)) (hk : (a.map (·.1)).Nodup)
    (hn : a.Pairwise fun x y => x.2.1 < y.2.1) (hp : storage.Perm a) :
    Rep (make cap storage) (a.map fun e => (e.1, e.2.2)) ∧ (make cap storage).capacity = cap ∧
    Clean (make cap storage).storage (make cap storage).queue ∧
    (∀ b, 0 ≤ b → (∀ e ∈ a, e.2.1 ≤ b) → (make cap storage).counter ≤ b + 1) := by
  have hq : sortBy (fun a b => decide (a < b)) (storage.map fun e => (e.1, e.2.1)) = a.map fun e => (e.1, e.2.1) := by
    apply sortBy_asc_eq (hp.map _)
    rw [List.pairwise_map]; exact hn
  have hks : (storage.map (·.1)).Nodup := (hp.map _).nodup_iff.2 hk
  have hmem : ∀ k n v, dictGet storage k = some (n, v) ↔ (k, n, v) ∈ a := by
    intro k n v
    rw [dictGet_eq_some hks, hp.mem_iff]
  unfold make populateQueue
  dsimp only
  rw [hq]
  refine ⟨⟨⟨hks, ?_, ?_, ?_, ?_⟩, ?_⟩, rfl, ?_, ?_⟩
  · rw [List.pairwise_map]; exact hn
  · intro e he
    have := (foldl_max_ge (a.map fun e => (e.1, e.2.1)) 0).2 e he
    dsimp only
    omega
  · intro k n v hkn
    exact List.mem_map.2 ⟨(k, n, v), (hmem k n v).1 hkn, rfl⟩
  · intro k n v hkn m hm
    obtain ⟨e, he, heq⟩ := List.mem_map.1 hm
    have h1 : e.1 = k := congrArg Prod.fst heq
    have h2 : e.2.1 = m := congrArg Prod.snd heq
    have h3 : dictGet storage k = some (m, e.2.2) := (hmem _ _ _).2 (by rw [← h1, ← h2]; exact he)
    rw [hkn] at h3
    have := congrArg Prod.fst (Option.some.inj h3)
    dsimp only at this
    omega
  · dsimp only
    rw [List.filterMap_map]
    have : ∀ e ∈ a, (live storage ∘ fun e : κ × Int × ν => (e.1, e.2.1)) e = some (e.1, e.2.2) := by
      intro e he
      exact live_eq_some.2 ⟨rfl, (hmem _ _ _).2 he⟩
    rw [List.filterMap_congr this]
    exact congrFun List.filterMap_eq_map' a
  · intro e he
    obtain ⟨x, hx, hxe⟩ := List.mem_map.1 he
    rw [← hxe, (hmem x.1 x.2.1 x.2.2).2 hx]; rfl
  · intro b hb hle
    have := foldl_max_le (a.map fun e => (e.1, e.2.1)) 0 b hb (fun e he => by
      obtain ⟨x, hx, hxe⟩ := List.mem_map.1 he
      rw [← hxe]; exact hle x hx)
    omega

/-! ### Time-out -/

structure TInv (st : List (κ × Int × ν)) (ts : List (κ × Int)) (now : Int) : Prop where
  nodup : (st.map (·.1)).Nodup
  asc : ts.Pairwise fun a b => a.2 ≤ b.2
  le : ∀ e ∈ ts, e.2 ≤ now
  mem : ∀ k t v, dictGet st k = some (t, v) → (k, t) ∈ ts
  max : ∀ k t v, dictGet st k = some (t, v) → ∀ m, (k, m) ∈ ts → m ≤ t

theorem sweepLoop_spec (cutoff now : Int) (ts : List (κ × Int)) : ∀ (tab : List (κ × Int × ν)), TInv tab ts now →
    TInv (sweepLoop cutoff tab ts).1 (sweepLoop cutoff tab ts).2 now ∧
    ∀ k, dictGet (sweepLoop cutoff tab ts).1 k = (dictGet tab k).filter fun tv => decide (cutoff ≤ tv.1) := by
  induction ts with
  | nil =>
    intro tab h
    unfold sweepLoop
    refine ⟨h, fun k => ?_⟩
    cases hg : dictGet tab k with
    | none => rfl
    | some tv => exact absurd (h.mem k tv.1 tv.2 hg) List.not_mem_nil
  | cons kt ts ih =>
    intro tab h
    have hasc := List.pairwise_cons.1 h.asc
    unfold sweepLoop
    by_cases hc : kt.2 < cutoff
    · rw [if_pos hc]
      have key : ∀ tab', (∀ k, dictGet tab' k = if k = kt.1 ∧ (∃ tv, dictGet tab k = some tv ∧ tv.1 ≤ kt.2) then none else dictGet tab k) →
          (tab'.map (·.1)).Nodup →
          TInv (sweepLoop cutoff tab' ts).1 (sweepLoop cutoff tab' ts).2 now ∧
          ∀ k, dictGet (sweepLoop cutoff tab' ts).1 k = (dictGet tab k).filter fun tv => decide (cutoff ≤ tv.1) := by
        intro tab' hd hnd
        have hinv : TInv tab' ts now := by
          refine ⟨hnd, hasc.2, fun e he => h.le e (List.mem_cons_of_mem _ he), ?_, ?_⟩
          · intro k t v hk
            rw [hd] at hk
            by_cases hc : k = kt.1 ∧ (∃ tv, dictGet tab k = some tv ∧ tv.1 ≤ kt.2)
            · rw [if_pos hc] at hk; exact absurd hk (by simp)
            · rw [if_neg hc] at hk
              rcases List.mem_cons.1 (h.mem _ _ _ hk) with h1 | h1
              · exact absurd ⟨by rw [← h1], (t, v), hk, by rw [← h1]⟩ hc
              · exact h1
          · intro k t v hk m hm
            rw [hd] at hk
            by_cases hc : k = kt.1 ∧ (∃ tv, dictGet tab k = some tv ∧ tv.1 ≤ kt.2)
            · rw [if_pos hc] at hk; exact absurd hk (by simp)
            · rw [if_neg hc] at hk
              exact h.max _ _ _ hk m (List.mem_cons_of_mem _ hm)
        obtain ⟨r1, r2⟩ := ih tab' hinv
        refine ⟨r1, fun k => ?_⟩
        rw [r2, hd]
        by_cases hc' : k = kt.1 ∧ (∃ tv, dictGet tab k = some tv ∧ tv.1 ≤ kt.2)
        · rw [if_pos hc']
          obtain ⟨_, tv, h1, h2⟩ := hc'
          rw [h1, Option.filter_some, if_neg (by simp; omega)]; rfl
        · rw [if_neg hc']
      cases hg : dictGet tab kt.1 with
      | none =>
        refine key tab ?_ h.nodup
        intro k
        rw [if_neg]
        rintro ⟨h1, tv, h2, _⟩
        rw [h1, hg] at h2; exact absurd h2 (by simp)
      | some tv =>
        dsimp only
        by_cases ht : tv.1 ≤ kt.2
        · rw [if_pos ht]
          refine key _ ?_ (nodup_delete h.nodup _)
          intro k
          rw [dictGet_delete]
          by_cases hk : k = kt.1
          · rw [if_pos hk, if_pos ⟨hk, tv, by rw [hk]; exact hg, ht⟩]
          · rw [if_neg hk, if_neg (fun h => hk h.1)]
        · rw [if_neg ht]
          refine key _ ?_ h.nodup
          intro k
          rw [if_neg]
          rintro ⟨h1, tv', h2, h3⟩
          rw [h1, hg] at h2
          rw [← Option.some.inj h2] at h3
          exact ht h3
    · rw [if_neg hc]
      refine ⟨h, fun k => ?_⟩
      cases hg : dictGet tab k with
      | none => rfl
      | some tv =>
        have h1 : cutoff ≤ tv.1 := by
          rcases List.mem_cons.1 (h.mem k tv.1 tv.2 hg) with h1 | h1
          · have := congrArg Prod.snd h1; dsimp only at this; omega
          · have := hasc.1 _ h1; dsimp only at this; omega
        rw [Option.filter_some, if_pos (by simp; exact h1)]

/-- The storage holds the map, but for entries that had expired by `now`. -/
def TRep (ttl : Int) (c : Ttl κ ν) (m : κ → Option (Int × ν)) (now : Int) : Prop :=
  c.ttl = ttl ∧ TInv c.storage c.timestamps now ∧
  ∀ k, dictGet c.storage k = m k ∨ (dictGet c.storage k = none ∧ ∃ t v, m k = some (t, v) ∧ t < now - ttl)

theorem TInv.mono {st : List (κ × Int × ν)} {ts : List (κ × Int)} {n n' : Int} (h : TInv st ts n) (hn : n ≤ n') : TInv st ts n' :=
  ⟨h.nodup, h.asc, fun e he => le_trans (h.le e he) hn, h.mem, h.max⟩

theorem TRep.mono {ttl : Int} {c : Ttl κ ν} {m : κ → Option (Int × ν)} {n n' : Int} (h : TRep ttl c m n) (hn : n ≤ n') :
    TRep ttl c m n' :=
  ⟨h.1, h.2.1.mono hn, fun k => (h.2.2 k).imp id (fun ⟨h1, t, v, h2, h3⟩ => ⟨h1, t, v, h2, by omega⟩)⟩

theorem TInv.put {st : List (κ × Int × ν)} {ts : List (κ × Int)} {now : Int} (h : TInv st ts now) (k : κ) (v : ν) :
    TInv (dictPut st k (now, v)) (ts ++ [(k, now)]) now := by
  refine ⟨nodup_put h.nodup _ _, ?_, ?_, ?_, ?_⟩
  · rw [List.pairwise_append]
    refine ⟨h.asc, List.pairwise_singleton _ _, ?_⟩
    intro a ha b hb
    rw [List.mem_singleton] at hb
    rw [hb]; exact h.le a ha
  · intro e he
    rcases List.mem_append.1 he with he | he
    · exact h.le e he
    · rw [List.mem_singleton] at he; rw [he]
  · intro j n w hj
    rw [dictGet_put] at hj
    by_cases hjk : j = k
    · rw [if_pos hjk] at hj
      have : now = n := congrArg Prod.fst (Option.some.inj hj)
      rw [hjk, this]; exact List.mem_append_right _ (List.mem_singleton.2 rfl)
    · rw [if_neg hjk] at hj
      exact List.mem_append_left _ (h.mem _ _ _ hj)
  · intro j n w hj m hm
    rw [dictGet_put] at hj
    by_cases hjk : j = k
    · rw [if_pos hjk] at hj
      have hn : now = n := congrArg Prod.fst (Option.some.inj hj)
      rcases List.mem_append.1 hm with hm | hm
      · have := h.le _ hm; dsimp only at this; omega
      · have := congrArg Prod.snd (List.mem_singleton.1 hm); dsimp only at this; omega
    · rw [if_neg hjk] at hj
      rcases List.mem_append.1 hm with hm | hm
      · exact h.max _ _ _ hj _ hm
      · exact absurd (congrArg Prod.fst (List.mem_singleton.1 hm)) hjk

theorem TInv.compact {st : List (κ × Int × ν)} {ts : List (κ × Int)} {now : Int} (h : TInv st ts now) :
    TInv st (compactQueue ts) now :=
  ⟨h.nodup, compactQueue_asc ts, fun e he => h.le e (compactQueue_mem he),
    fun k t v hk => compactQueue_newest (h.mem k t v hk) (h.max k t v hk),
    fun k t v hk m hm => h.max k t v hk m (compactQueue_mem hm)⟩

theorem put_rep {ttl : Int} {st : List (κ × Int × ν)} {m : κ → Option (Int × ν)} {now : Int} {k : κ} {v : ν}
    (h : ∀ j, dictGet st j = m j ∨ (dictGet st j = none ∧ ∃ t v, m j = some (t, v) ∧ t < now - ttl)) :
    ∀ j, dictGet (dictPut st k (now, v)) j = (if j = k then some (now, v) else m j) ∨
      (dictGet (dictPut st k (now, v)) j = none ∧ ∃ t w, (if j = k then some (now, v) else m j) = some (t, w) ∧ t < now - ttl) := by
  intro j
  rw [dictGet_put]
  by_cases hj : j = k
  · rw [if_pos hj, if_pos hj]; exact Or.inl rfl
  · rw [if_neg hj, if_neg hj]; exact h j

theorem register_rep {ttl : Int} {c : Ttl κ ν} {m : κ → Option (Int × ν)} {now : Int} (h : TRep ttl c m now) (k : κ) (v : ν) :
    TRep ttl (registerTtl now c k v) (fun j => if j = k then some (now, v) else m j) now :=
  ⟨h.1, h.2.1.put k v, put_rep h.2.2⟩

theorem checkTtl_spec {ttl : Int} {refresh : Bool} {c : Ttl κ ν} {m : κ → Option (Int × ν)} {now t₁ t₂ : Int}
    (h : TRep ttl c m now) (h1 : now ≤ t₁) (h2 : t₁ ≤ t₂) (k : κ) :
    (checkTtl refresh t₁ t₂ c k).2 = (Spec.Cache.stepTtl ttl refresh m t₁ t₂ (.lookup k)).2 ∧
    TRep ttl (checkTtl refresh t₁ t₂ c k).1 (Spec.Cache.stepTtl ttl refresh m t₁ t₂ (.lookup k)).1 t₂ := by
  have hm := h.mono h1
  obtain ⟨s1, s2⟩ := sweepLoop_spec (t₁ - c.ttl) t₁ c.timestamps c.storage hm.2.1
  have hrep : TRep ttl (sweep t₁ c) m t₁ := by
    refine ⟨hm.1, s1, fun j => ?_⟩
    show dictGet (sweepLoop (t₁ - c.ttl) c.storage c.timestamps).1 j = m j ∨
      (dictGet (sweepLoop (t₁ - c.ttl) c.storage c.timestamps).1 j = none ∧ _)
    rw [s2, hm.1]
    rcases hm.2.2 j with hj | ⟨hj, t, v, hj2, hj3⟩
    · rw [hj]
      cases hmj : m j with
      | none => exact Or.inl rfl
      | some tv =>
        by_cases ht : t₁ - ttl ≤ tv.1
        · rw [Option.filter_some, if_pos (by simp; omega)]; exact Or.inl rfl
        · rw [Option.filter_some, if_neg (by simp; omega)]
          exact Or.inr ⟨rfl, tv.1, tv.2, rfl, by omega⟩
    · rw [hj]; exact Or.inr ⟨rfl, t, v, hj2, hj3⟩
  have hget : dictGet (sweep t₁ c).storage k = (m k).filter fun tv => decide (t₁ - ttl ≤ tv.1) := by
    show dictGet (sweepLoop (t₁ - c.ttl) c.storage c.timestamps).1 k = _
    rw [s2, hm.1]
    rcases hm.2.2 k with hj | ⟨hj, t, v, hj2, hj3⟩
    · rw [hj]
    · rw [hj, hj2, Option.filter_some, if_neg (by simp; omega)]; rfl
  unfold checkTtl Spec.Cache.stepTtl
  dsimp only
  rw [hget]
  cases hmk : m k with
  | none => exact ⟨rfl, hrep.mono h2⟩
  | some tv =>
    dsimp only
    by_cases ht : tv.1 < t₁ - ttl
    · rw [if_pos ht, Option.filter_some, if_neg (by simp; omega)]
      exact ⟨rfl, hrep.mono h2⟩
    · rw [if_neg ht, Option.filter_some, if_pos (by simp; omega)]
      dsimp only
      cases refresh with
      | false => rw [if_neg (by simp), if_neg (by simp)]; exact ⟨rfl, hrep.mono h2⟩
      | true =>
        rw [if_pos rfl, if_pos rfl]
        refine ⟨rfl, ?_⟩
        have h3 := hrep.mono h2
        refine ⟨h3.1, ?_, put_rep h3.2.2⟩
        dsimp only
        by_cases hl : ((sweep t₁ c).timestamps ++ [(k, t₂)]).length > 3 * (dictPut (sweep t₁ c).storage k (t₂, tv.2)).length
        · rw [if_pos hl]; exact (h3.2.1.put k tv.2).compact
        · rw [if_neg hl]; exact h3.2.1.put k tv.2

theorem stepTtl_spec {ttl : Int} {refresh : Bool} {c : Ttl κ ν} {m : κ → Option (Int × ν)} {now t₁ t₂ : Int}
    (h : TRep ttl c m now) (h1 : now ≤ t₁) (h2 : t₁ ≤ t₂) (o : Op κ ν) :
    (stepTtl refresh t₁ t₂ c o).2 = (Spec.Cache.stepTtl ttl refresh m t₁ t₂ o).2 ∧
    TRep ttl (stepTtl refresh t₁ t₂ c o).1 (Spec.Cache.stepTtl ttl refresh m t₁ t₂ o).1 t₂ := by
  have h3 : now ≤ t₂ := by omega
  cases o with
  | lookup k => exact checkTtl_spec h h1 h2 k
  | through k v =>
    obtain ⟨r1, r2⟩ := checkTtl_spec (refresh := refresh) h h1 h2 k
    unfold stepTtl Spec.Cache.stepTtl
    unfold Spec.Cache.stepTtl at r1 r2
    dsimp only at r1 r2 ⊢
    cases hm : m k with
    | none =>
      rw [hm] at r1 r2
      dsimp only at r1 r2 ⊢
      rw [r1]
      exact ⟨rfl, register_rep r2 k v⟩
    | some tv =>
      rw [hm] at r1 r2
      dsimp only at r1 r2 ⊢
      by_cases ht : tv.1 < t₁ - ttl
      · rw [if_pos ht] at r1 r2 ⊢
        rw [r1]
        exact ⟨rfl, register_rep r2 k v⟩
      · rw [if_neg ht] at r1 r2 ⊢
        rw [r1]
        exact ⟨rfl, r2⟩
  | write k v => exact ⟨rfl, register_rep (h.mono h3) k v⟩
  | evict k =>
    have h4 := h.mono h3
    refine ⟨rfl, h4.1, ?_, ?_⟩
    · refine ⟨nodup_delete h4.2.1.nodup _, h4.2.1.asc, h4.2.1.le, ?_, ?_⟩
      · intro j n v hj
        dsimp only [stepTtl] at hj
        rw [dictGet_delete] at hj
        by_cases hjk : j = k
        · rw [if_pos hjk] at hj; exact absurd hj (by simp)
        · rw [if_neg hjk] at hj; exact h4.2.1.mem _ _ _ hj
      · intro j n v hj
        dsimp only [stepTtl] at hj
        rw [dictGet_delete] at hj
        by_cases hjk : j = k
        · rw [if_pos hjk] at hj; exact absurd hj (by simp)
        · rw [if_neg hjk] at hj; exact h4.2.1.max _ _ _ hj
    · intro j
      dsimp only [stepTtl, Spec.Cache.stepTtl]
      rw [dictGet_delete]
      by_cases hj : j = k
      · rw [if_pos hj, if_pos hj]; exact Or.inl rfl
      · rw [if_neg hj, if_neg hj]; exact h4.2.2 j
  | clear =>
    have h4 := h.mono h3
    refine ⟨rfl, h4.1, ⟨List.nodup_nil, List.Pairwise.nil, fun e he => absurd he List.not_mem_nil, ?_, ?_⟩, fun j => Or.inl rfl⟩
    · intro j n v hj; exact absurd hj (by simp [stepTtl, dictGet_nil])
    · intro j n v hj; exact absurd hj (by simp [stepTtl, dictGet_nil])

theorem runTtl_spec {ttl : Int} {refresh : Bool} (ops : List (Int × Int × Op κ ν)) : ∀ (c : Ttl κ ν) (m : κ → Option (Int × ν)) (now : Int),
    TRep ttl c m now → Monotone now ops → runTtl refresh c ops = Spec.Cache.runTtl ttl refresh m ops := by
  induction ops with
  | nil => intro c m now _ _; rfl
  | cons o ops ih =>
    intro c m now h hm
    obtain ⟨t₁, t₂, o⟩ := o
    obtain ⟨h1, h2, h3⟩ := hm
    obtain ⟨r1, r2⟩ := stepTtl_spec (refresh := refresh) h h1 h2 o
    unfold runTtl Spec.Cache.runTtl
    rw [r1, ih _ _ _ r2 h3]

theorem makeTtl_spec (ttl : Int) (storage : List (κ × Int × ν)) (hk : (storage.map (·.1)).Nodup) (now : Int)
    (hle : ∀ e ∈ storage, e.2.1 ≤ now) : TRep ttl (makeTtl ttl storage) (find storage) now := by
  have hp := sortBy_perm (fun a b => decide (a < b)) (storage.map fun e => (e.1, e.2.1))
  refine ⟨rfl, ⟨hk, sortBy_asc _, ?_, ?_, ?_⟩, fun k => Or.inl rfl⟩
  · intro e he
    obtain ⟨x, hx, hxe⟩ := List.mem_map.1 (hp.mem_iff.1 he)
    rw [← hxe]; exact hle x hx
  · intro k t v hkt
    exact hp.mem_iff.2 (List.mem_map.2 ⟨(k, t, v), (dictGet_eq_some hk _ _).1 hkt, rfl⟩)
  · intro k t v hkt m hm
    obtain ⟨x, hx, hxe⟩ := List.mem_map.1 (hp.mem_iff.1 hm)
    have h1 : x.1 = k := congrArg Prod.fst hxe
    have h2 : x.2.1 = m := congrArg Prod.snd hxe
    have h3 := (dictGet_eq_some hk x.1 x.2).2 hx
    rw [h1] at h3
    have h4 := hkt
    dsimp only [makeTtl] at h4
    rw [h3] at h4
    have := congrArg Prod.fst (Option.some.inj h4)
    dsimp only at this
    omega

end Gauche.Cache

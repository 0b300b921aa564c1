import Verif.Model.C3
import Verif.Spec.Linear
import Mathlib.Tactic
/-
Internal lemmas for C30: monotonic merge.
-/
namespace Gauche.C3
open Gauche.Linear

section
variable {α : Type} [DecidableEq α]

theorem blocked_iff {seqs : List (List α)} {h : α} :
    blocked seqs h = true ↔ ∃ s ∈ seqs, ∃ g t, s = g :: t ∧ h ∈ t := by
  unfold blocked
  rw [List.any_eq_true]
  constructor
  · rintro ⟨s, hs, hb⟩
    cases s with
    | nil => simp at hb
    | cons g t => exact ⟨_, hs, g, t, rfl, by simpa using hb⟩
  · rintro ⟨s, hs, g, t, rfl, hb⟩
    exact ⟨_, hs, by simpa using hb⟩

theorem select_some {l seqs : List (List α)} {x : α} (h : select l seqs = some x) :
    blocked seqs x = false ∧ ∃ a t b, l = a ++ (x :: t) :: b ∧ ∀ s ∈ a, ∀ g u, s = g :: u → blocked seqs g = true := by
  induction l with
  | nil => cases h
  | cons s r ih =>
    cases s with
    | nil =>
      rw [select] at h
      obtain ⟨h1, a, t, b, h2, h3⟩ := ih h
      refine ⟨h1, [] :: a, t, b, by rw [h2]; rfl, ?_⟩
      intro s hs g u hg
      rcases List.mem_cons.1 hs with rfl | hs
      · cases hg
      · exact h3 s hs g u hg
    | cons g u =>
      rw [select] at h
      by_cases hb : blocked seqs g = true
      · rw [if_pos hb] at h
        obtain ⟨h1, a, t, b, h2, h3⟩ := ih h
        refine ⟨h1, (g :: u) :: a, t, b, by rw [h2]; rfl, ?_⟩
        intro s hs g' u' hg
        rcases List.mem_cons.1 hs with rfl | hs
        · cases hg; exact hb
        · exact h3 s hs g' u' hg
      · rw [if_neg hb] at h
        cases h
        exact ⟨by simpa using hb, [], u, r, rfl, by simp⟩

theorem select_none {l seqs : List (List α)} (h : select l seqs = none) :
    ∀ s ∈ l, ∀ g u, s = g :: u → blocked seqs g = true := by
  induction l with
  | nil => intro s hs; cases hs
  | cons s r ih =>
    intro s' hs' g u hg
    subst hg
    cases s with
    | nil =>
      rw [select] at h
      rcases List.mem_cons.1 hs' with h' | h'
      · cases h'
      · exact ih h _ h' g u rfl
    | cons g' u' =>
      rw [select] at h
      by_cases hb : blocked seqs g' = true
      · rw [if_pos hb] at h
        rcases List.mem_cons.1 hs' with h' | h'
        · cases h'; exact hb
        · exact ih h _ h' g u rfl
      · rw [if_neg hb] at h; cases h

theorem not_blocked {seqs : List (List α)} {x : α} (h : blocked seqs x = false) {s} (hs : s ∈ seqs) :
    x ∉ dropHead x s ∧ (s = x :: dropHead x s ∨ (x ∉ s ∧ dropHead x s = s)) := by
  have hn : ∀ g t, s = g :: t → x ∉ t := by
    intro g t hg hx
    have := blocked_iff.2 ⟨s, hs, g, t, hg, hx⟩
    rw [h] at this; cases this
  cases s with
  | nil => simp [dropHead]
  | cons g t =>
    have := hn g t rfl
    unfold dropHead
    by_cases hg : x = g
    · subst hg; simp [this]
    · simp [hg, this]

theorem dropHead_sublist (x : α) (s : List α) : (dropHead x s).Sublist s := by
  cases s with
  | nil => exact .slnil
  | cons g t =>
    rw [dropHead]
    split
    · exact List.sublist_cons_self g t
    · exact List.Sublist.refl _

theorem mem_dropHead {x y : α} {s : List α} (h : y ∈ s) (hne : y ≠ x) : y ∈ dropHead x s := by
  cases s with
  | nil => cases h
  | cons g t =>
    rw [dropHead]
    split
    · rename_i hg
      rcases List.mem_cons.1 h with rfl | h
      · exact absurd hg.symm hne
      · exact h
    · exact h

theorem total_drop {x : α} : ∀ {l : List (List α)}, (∃ t, (x :: t) ∈ l) →
    (l.map (dropHead x)).flatten.length < l.flatten.length
  | [], ⟨t, h⟩ => by cases h
  | s :: r, ⟨t, h⟩ => by
    have h1 : (dropHead x s).length ≤ s.length := (dropHead_sublist x s).length_le
    have h2 : (r.map (dropHead x)).flatten.length ≤ r.flatten.length := by
      clear h
      induction r with
      | nil => simp
      | cons a r ih =>
        have := (dropHead_sublist x a).length_le
        simp only [List.map_cons, List.flatten_cons, List.length_append]
        omega
    simp only [List.map_cons, List.flatten_cons, List.length_append]
    rcases List.mem_cons.1 h with rfl | h
    · simp only [dropHead, if_true, List.length_cons] at h1 ⊢; omega
    · have := total_drop ⟨t, h⟩; omega

theorem mergeLoop_total (isF : α → Bool) : ∀ (fuel : Nat) (seqs : List (List α)) (res : List α),
    seqs.flatten.length < fuel → ∃ o, mergeLoop isF fuel seqs res = some o
  | 0, _, _, h => by omega
  | fuel + 1, seqs, res, h => by
    rw [mergeLoop]
    by_cases he : seqs.all List.isEmpty = true
    · rw [if_pos he]; exact ⟨_, rfl⟩
    · rw [if_neg he]
      cases hs : select seqs seqs with
      | none => exact ⟨_, rfl⟩
      | some x =>
        dsimp only
        by_cases hf : isF x = true
        · rw [if_pos hf]; exact ⟨_, rfl⟩
        · rw [if_neg hf]
          obtain ⟨_, a, t, b, h2, _⟩ := select_some hs
          have := total_drop (x := x) (l := seqs) ⟨t, by rw [h2]; simp⟩
          exact mergeLoop_total isF fuel _ _ (by omega)

theorem mergeLoop_sound (isF : α → Bool) : ∀ (fuel : Nat) (seqs : List (List α)) (res r : List α),
    mergeLoop isF fuel seqs res = some (some r) → ∃ q, r = res.reverse ++ q ∧ Linear seqs q
  | 0, _, _, _, h => by cases h
  | fuel + 1, seqs, res, r, h => by
    rw [mergeLoop] at h
    by_cases he : seqs.all List.isEmpty = true
    · rw [if_pos he] at h
      cases h
      refine ⟨[], by simp, List.nodup_nil, fun s hs => ?_, by simp⟩
      have := List.all_eq_true.1 he s hs
      rw [List.isEmpty_iff] at this
      rw [this]
    · rw [if_neg he] at h
      cases hs : select seqs seqs with
      | none => rw [hs] at h; cases h
      | some x =>
        rw [hs] at h
        dsimp only at h
        by_cases hf : isF x = true
        · rw [if_pos hf] at h; cases h
        · rw [if_neg hf] at h
          obtain ⟨q, hq, hn, hsub, hmem⟩ := mergeLoop_sound isF fuel _ _ r h
          obtain ⟨hb, a, t, b, h2, _⟩ := select_some hs
          refine ⟨x :: q, by rw [hq]; simp, ?_, ?_, ?_⟩
          · rw [List.nodup_cons]
            refine ⟨fun hx => ?_, hn⟩
            obtain ⟨s', hs', hx'⟩ := hmem x hx
            obtain ⟨s, hs1, rfl⟩ := List.mem_map.1 hs'
            exact (not_blocked hb hs1).1 hx'
          · intro s hs1
            have h3 := hsub _ (List.mem_map_of_mem hs1)
            rcases (not_blocked hb hs1).2 with h4 | h4
            · rw [h4]; exact h3.cons_cons x
            · rw [h4.2] at h3; exact h3.cons x
          · intro y hy
            rcases List.mem_cons.1 hy with rfl | hy
            · exact ⟨y :: t, by rw [h2]; simp, by simp⟩
            · obtain ⟨s', hs', hy'⟩ := hmem y hy
              obtain ⟨s, hs1, rfl⟩ := List.mem_map.1 hs'
              exact ⟨s, hs1, (dropHead_sublist x s).subset hy'⟩

theorem mergeLoop_complete (isF : α → Bool) : ∀ (fuel : Nat) (seqs : List (List α)) (res q : List α),
    seqs.flatten.length < fuel → (∀ s ∈ seqs, ∀ x ∈ s, isF x = false) → Linear seqs q →
    ∃ r, mergeLoop isF fuel seqs res = some (some r)
  | 0, _, _, _, h, _, _ => by omega
  | fuel + 1, seqs, res, q, h, hF, ⟨hn, hsub, hmem⟩ => by
    rw [mergeLoop]
    by_cases he : seqs.all List.isEmpty = true
    · rw [if_pos he]; exact ⟨_, rfl⟩
    · rw [if_neg he]
      have hne : select seqs seqs ≠ none := by
        intro hs
        cases q with
        | nil =>
          apply he
          rw [List.all_eq_true]
          intro s hs1
          have := hsub s hs1
          rw [List.sublist_nil] at this
          simp [this]
        | cons x q =>
          obtain ⟨s, hs1, hx⟩ := hmem x (by simp)
          rw [List.nodup_cons] at hn
          have hsx : ∃ t, s = x :: t := by
            rcases List.sublist_cons_iff.1 (hsub s hs1) with h1 | ⟨t, h1, _⟩
            · exact absurd (h1.subset hx) hn.1
            · exact ⟨t, h1⟩
          obtain ⟨t, rfl⟩ := hsx
          have hb := select_none hs _ hs1 x t rfl
          obtain ⟨s', hs', g, u, rfl, hxu⟩ := blocked_iff.1 hb
          rcases List.sublist_cons_iff.1 (hsub _ hs') with h1 | ⟨u', h1, h2⟩
          · exact hn.1 (h1.subset (by simp [hxu]))
          · cases h1
            exact hn.1 (h2.subset hxu)
      cases hs : select seqs seqs with
      | none => exact absurd hs hne
      | some x =>
        dsimp only
        obtain ⟨hb, a, t, b, h2, _⟩ := select_some hs
        have hfx : isF x = false := hF (x :: t) (by rw [h2]; simp) x (by simp)
        rw [hfx]
        simp only [Bool.false_eq_true, if_false]
        have := total_drop (x := x) (l := seqs) ⟨t, by rw [h2]; simp⟩
        refine mergeLoop_complete isF fuel _ _ (q.filter (· ≠ x)) (by omega) ?_ ⟨hn.filter _, ?_, ?_⟩
        · intro s' hs' y hy
          obtain ⟨s, hs1, rfl⟩ := List.mem_map.1 hs'
          exact hF s hs1 y ((dropHead_sublist x s).subset hy)
        · intro s' hs'
          obtain ⟨s, hs1, rfl⟩ := List.mem_map.1 hs'
          have h5 : (dropHead x s).filter (· ≠ x) = dropHead x s := by
            rw [List.filter_eq_self]
            intro y hy
            simp only [ne_eq, decide_not, Bool.not_eq_true', decide_eq_false_iff_not]
            rintro rfl
            exact (not_blocked hb hs1).1 hy
          rw [← h5]
          exact ((dropHead_sublist x s).trans (hsub s hs1)).filter _
        · intro y hy
          rw [List.mem_filter] at hy
          obtain ⟨s, hs1, hys⟩ := hmem y hy.1
          exact ⟨_, List.mem_map_of_mem hs1, mem_dropHead hys (by simpa using hy.2)⟩

/-! ### The choice of the candidate -/

/-- The part of `s` still to be merged when `res` is done. -/
def rem (res s : List α) : List α := s.dropWhile fun x => decide (x ∈ res)

theorem rem_split (res s : List α) : ∃ a, s = a ++ rem res s ∧ ∀ x ∈ a, x ∈ res := by
  refine ⟨s.takeWhile fun x => decide (x ∈ res), (List.takeWhile_append_dropWhile).symm, fun x hx => ?_⟩
  have : ∀ l : List α, x ∈ l.takeWhile (fun x => decide (x ∈ res)) → x ∈ res := by
    intro l
    induction l with
    | nil => simp
    | cons g t ih =>
      rw [List.takeWhile_cons]
      split
      · rename_i hg
        intro h
        rcases List.mem_cons.1 h with rfl | h
        · simpa using hg
        · exact ih h
      · simp
  exact this s hx

theorem rem_eq_of {res s l : List α} (h : ∀ g t, l = g :: t → g ∉ res) {a : List α} (ha : ∀ x ∈ a, x ∈ res)
    (hs : s = a ++ l) : rem res s = l := by
  subst hs
  unfold rem
  rw [List.dropWhile_append_of_pos (by simpa using ha)]
  cases l with
  | nil => rfl
  | cons g t => simp [h g t rfl]

theorem firstNotIn_eq {pre res s : List α} (hpr : ∀ x, x ∈ pre ↔ x ∈ res) (hd : ∀ x ∈ rem res s, x ∉ res) :
    firstNotIn pre s = (rem res s).head? := by
  obtain ⟨a, ha, hm⟩ := rem_split res s
  unfold firstNotIn
  conv_lhs => rw [ha]
  rw [List.find?_append, List.find?_eq_none.2 (by intro x hx; simpa [hpr] using hm x hx), Option.none_or]
  cases hr : rem res s with
  | nil => rfl
  | cons g t =>
    have := hd g (by rw [hr]; simp)
    simp [hpr, this]

theorem free_iff {seqs : List (List α)} {pre res : List α} (hpr : ∀ x, x ∈ pre ↔ x ∈ res)
    (hd : ∀ s ∈ seqs, ∀ x ∈ rem res s, x ∉ res) (h : α) :
    Free seqs pre h ↔ blocked (seqs.map (rem res)) h = false := by
  constructor
  · intro hf
    by_contra hb
    rw [Bool.not_eq_false] at hb
    obtain ⟨s', hs', g, t, hg, ht⟩ := blocked_iff.1 hb
    obtain ⟨s, hs, rfl⟩ := List.mem_map.1 hs'
    obtain ⟨a, ha, _⟩ := rem_split res s
    obtain ⟨u, v, huv⟩ := List.append_of_mem ht
    rw [hg, huv] at ha
    have := hf s hs (a ++ g :: u) v (by rw [ha]; simp) g (by simp)
    exact hd s hs g (by rw [hg]; simp) ((hpr g).1 this)
  · intro hb s hs a b hab x hx
    by_contra hn
    obtain ⟨c, hc, hm⟩ := rem_split res s
    obtain ⟨a1, a2, rfl⟩ := List.append_of_mem hx
    have : blocked (seqs.map (rem res)) h = true := by
      rw [blocked_iff]
      refine ⟨rem res s, List.mem_map_of_mem hs, ?_⟩
      have e : c ++ rem res s = a1 ++ (x :: (a2 ++ h :: b)) := by rw [← hc, hab]; simp
      rcases List.append_eq_append_iff.1 e with ⟨d, h1, h2⟩ | ⟨d, h1, h2⟩
      · cases d with
        | nil => exact ⟨x, a2 ++ h :: b, by simpa using h2, by simp⟩
        | cons y d => exact ⟨y, d ++ x :: (a2 ++ h :: b), by simpa using h2, by simp⟩
      · cases d with
        | nil => exact ⟨x, a2 ++ h :: b, by simpa using h2.symm, by simp⟩
        | cons y d =>
          exfalso
          simp only [List.cons_append, List.cons.injEq] at h2
          have := hm x (by rw [h1, h2.1]; simp)
          exact hn ((hpr x).2 this)
    rw [hb] at this; cases this

theorem rem_step {res s : List α} {x : α} (hd : ∀ y ∈ rem res s, y ∉ res) (hb : x ∉ dropHead x (rem res s)) :
    rem (x :: res) s = dropHead x (rem res s) := by
  obtain ⟨a, ha, hm⟩ := rem_split res s
  have hgood : ∀ g t, dropHead x (rem res s) = g :: t → g ∉ x :: res := by
    intro g t hg hx
    rcases List.mem_cons.1 hx with rfl | hx
    · exact hb (by rw [hg]; simp)
    · exact hd g ((dropHead_sublist x _).subset (by rw [hg]; simp)) hx
  cases hr : rem res s with
  | nil =>
    rw [hr] at ha hgood
    exact rem_eq_of (by simpa using hgood) (a := s) (by
      intro y hy; rw [ha] at hy; simp only [List.append_nil] at hy; simp [hm y hy]) (by simp [dropHead])
  | cons g t =>
    rw [hr] at ha hgood
    by_cases hg : x = g
    · subst hg
      exact rem_eq_of hgood (a := a ++ [x]) (by
        intro y hy
        rcases List.mem_append.1 hy with hy | hy
        · simp [hm y hy]
        · simp at hy; simp [hy]) (by simp [dropHead, ha])
    · have : dropHead x (g :: t) = g :: t := by simp [dropHead, hg]
      rw [this] at hgood ⊢
      exact rem_eq_of hgood (a := a) (fun y hy => by simp [hm y hy]) ha

/-- What the choice of `x` after `pre` means. -/
def Chosen (seqs : List (List α)) (pre : List α) (x : α) : Prop :=
  ∃ a s b, seqs = a ++ s :: b ∧ firstNotIn pre s = some x ∧ Free seqs pre x ∧
    ∀ s' ∈ a, ∀ h, firstNotIn pre s' = some h → ¬ Free seqs pre h

theorem mergeLoop_greedy (isF : α → Bool) (seqs : List (List α)) : ∀ (fuel : Nat) (res r : List α),
    mergeLoop isF fuel (seqs.map (rem res)) res = some (some r) → (∀ s ∈ seqs, ∀ x ∈ rem res s, x ∉ res) →
    ∀ pre x post, r = pre ++ x :: post → res.length ≤ pre.length → Chosen seqs pre x
  | 0, _, _, h, _, _, _, _, _, _ => by cases h
  | fuel + 1, res, r, h, hd, pre, x, post, hr, hlen => by
    have hsound := mergeLoop_sound isF _ _ _ _ h
    obtain ⟨q, hq, hlin⟩ := hsound
    rw [mergeLoop] at h
    by_cases he : (seqs.map (rem res)).all List.isEmpty = true
    · rw [if_pos he] at h
      cases h
      exfalso
      have := congrArg List.length hr
      simp at this; omega
    · rw [if_neg he] at h
      cases hs : select (seqs.map (rem res)) (seqs.map (rem res)) with
      | none => rw [hs] at h; cases h
      | some y =>
        rw [hs] at h
        dsimp only at h
        by_cases hf : isF y = true
        · rw [if_pos hf] at h; cases h
        · rw [if_neg hf] at h
          obtain ⟨hb, a, t, b, h2, h3⟩ := select_some hs
          have hstep : (seqs.map (rem res)).map (dropHead y) = seqs.map (rem (y :: res)) := by
            rw [List.map_map]
            refine List.map_congr_left fun s hs1 => ?_
            exact (rem_step (hd s hs1) (not_blocked hb (List.mem_map_of_mem hs1)).1).symm
          rw [hstep] at h
          have hd' : ∀ s ∈ seqs, ∀ z ∈ rem (y :: res) s, z ∉ y :: res := by
            intro s hs1 z hz hz2
            rw [rem_step (hd s hs1) (not_blocked hb (List.mem_map_of_mem hs1)).1] at hz
            rcases List.mem_cons.1 hz2 with rfl | hz2
            · exact (not_blocked hb (List.mem_map_of_mem hs1)).1 hz
            · exact hd s hs1 z ((dropHead_sublist y _).subset hz) hz2
          rcases Nat.lt_or_ge res.length pre.length with hlt | hge
          · exact mergeLoop_greedy isF seqs fuel _ _ h hd' pre x post hr (by simpa using hlt)
          · obtain ⟨q', hq', _⟩ := mergeLoop_sound isF _ _ _ _ h
            have hl : pre.length = res.reverse.length := by simp; omega
            have hpp : pre = res.reverse ∧ x :: post = y :: q' := by
              refine List.append_inj ?_ hl
              rw [← hr, hq']; simp
            obtain ⟨rfl, hxy⟩ := hpp
            have hx : x = y := (List.cons.inj hxy).1
            subst hx
            have hpr : ∀ z, z ∈ res.reverse ↔ z ∈ res := fun z => List.mem_reverse
            -- split the original sequences like the selection did
            obtain ⟨a0, c0, h4, h5, h6⟩ := List.map_eq_append_iff.1 h2
            obtain ⟨s0, b0, h7, h8, h9⟩ := List.map_eq_cons_iff.1 h6
            subst h7
            refine ⟨a0, s0, b0, h4, ?_, (free_iff hpr hd x).2 hb, ?_⟩
            · rw [firstNotIn_eq hpr (hd s0 (by rw [h4]; simp)), h8]; rfl
            · intro s' hs' g hg hfree
              have hs'' : s' ∈ seqs := by rw [h4]; simp [hs']
              rw [firstNotIn_eq hpr (hd s' hs'')] at hg
              obtain ⟨u, hu⟩ : ∃ u, rem res s' = g :: u := by
                cases hrm : rem res s' with
                | nil => rw [hrm] at hg; cases hg
                | cons g' u => rw [hrm] at hg; cases hg; exact ⟨u, rfl⟩
              have := h3 (rem res s') (by rw [← h5]; exact List.mem_map_of_mem hs') g u hu
              rw [(free_iff hpr hd g).1 hfree] at this
              cases this
end
end Gauche.C3

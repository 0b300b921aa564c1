import Verif.Proof.RegexGen

/-!
# The code of a pattern implements its ways
-/

namespace Gauche.Regex

open Gauche.Utf8 Gauche.Spec.Utf8 Spec

section
variable {cfg : Cfg}

/-! ## about the specification -/

theorem waysSeq_eq (l : List Ast) (fold last : Bool) (st : St) :
    waysSeq cfg l fold last st = seqW (l.map fun a => ways cfg a fold) last st := by
  induction l generalizing st with
  | nil => simp [waysSeq, seqW]
  | cons a l ih =>
    simp only [waysSeq, List.map_cons, seqW, List.isEmpty_map]
    exact flatMap_ext fun t _ => ih t

theorem pres_backref (g : Nat) (fold last : Bool) : Pres cfg (ways cfg (.backref g) fold last) := by
  intro st hv t ht
  simp only [ways] at ht
  cases hc : st.caps g with
  | none => rw [hc] at ht; simp at ht
  | some x =>
    obtain ⟨i, j⟩ := x
    rw [hc] at ht
    dsimp only at ht
    obtain ⟨h1, h2⟩ := hv.2 g i j hc
    by_cases h : ((cfg.text.drop st.pos).take (j - i) == (cfg.text.drop i).take (j - i)) = true
    · rw [if_pos h, List.mem_singleton] at ht
      subst ht
      have := congrArg List.length (beq_iff_eq.1 h)
      simp only [List.length_take, List.length_drop] at this
      have := hv.1
      exact ⟨⟨by show st.pos + (j - i) ≤ _; omega, hv.2⟩, Nat.le_add_right _ _⟩
    · rw [if_neg h] at ht; simp at ht

theorem pres_take {W : St → List St} (h : Pres cfg W) (n : Nat) :
    Pres cfg (fun st => (W st).take n) :=
  fun st hv t ht => h st hv t (List.mem_of_mem_take ht)

theorem pres_rep {f : St → List St} (h : Pres cfg f) (k : RepKind) (m : Nat) (n : Option Nat)
    (b : Bool) :
    Pres cfg (fun st => (iter f m st).flatMap fun t =>
      match n with
      | some n => if k = .min then upToLazy f (n - m) t else upTo f (n - m) t
      | none =>
        let r := cfg.text.length - t.pos
        if k = .min then starLazy f r t
        else if k = .while_ && b then (star f r t).take 1
        else star f r t) := by
  refine pres_comp (pres_iter h m) ?_
  intro t ht u hu
  cases n with
  | some n =>
    dsimp only at hu
    by_cases hk : k = .min
    · rw [if_pos hk] at hu; exact pres_upToLazy h _ t ht u hu
    · rw [if_neg hk] at hu; exact pres_upTo h _ t ht u hu
  | none =>
    dsimp only at hu
    by_cases hk : k = .min
    · rw [if_pos hk] at hu; exact pres_starLazy h _ t ht u hu
    · rw [if_neg hk] at hu
      by_cases hk2 : (decide (k = .while_) && b) = true
      · rw [if_pos hk2] at hu; exact pres_star h _ t ht u (List.mem_of_mem_take hu)
      · rw [if_neg hk2] at hu; exact pres_star h _ t ht u hu

theorem pres_group {W : St → List St} (h : Pres cfg W) (g : Nat) :
    Pres cfg (fun st => (W st).map fun t =>
      { t with caps := fun x => if x = g then some (st.pos, t.pos) else t.caps x }) := by
  intro st hv t ht
  obtain ⟨u, hu, rfl⟩ := List.mem_map.1 ht
  obtain ⟨h1, h2⟩ := h st hv u hu
  refine ⟨⟨h1.1, ?_⟩, h2⟩
  intro x i j hx
  dsimp only at hx
  by_cases e : x = g
  · rw [if_pos e] at hx
    injection hx with hx
    injection hx with hi hj
    exact ⟨by omega, by have := h1.1; omega⟩
  · rw [if_neg e] at hx; exact h1.2 x i j hx

theorem pres_assert {W : St → List St} (h : Pres cfg W) :
    Pres cfg (fun st => ((W st).take 1).map fun t => { st with caps := t.caps }) := by
  intro st hv t ht
  obtain ⟨u, hu, rfl⟩ := List.mem_map.1 ht
  obtain ⟨h1, h2⟩ := h st hv u (List.mem_of_mem_take hu)
  exact ⟨⟨hv.1, h1.2⟩, Nat.le_refl _⟩

mutual
theorem pres_ways : ∀ (a : Ast) (fold last : Bool), Pres cfg (ways cfg a fold last)
  | .char c, fold, last => by simp only [ways]; exact pres_one _
  | .cset s, fold, last => by simp only [ways]; exact pres_one _
  | .comp s, fold, last => by simp only [ways]; exact pres_one _
  | .any, fold, last => by simp only [ways]; exact pres_one _
  | .bos, fold, last => by simp only [ways]; exact pres_test _
  | .eos, fold, last => by simp only [ways]; exact pres_test _
  | .bol, fold, last => by simp only [ways]; exact pres_test _
  | .eol, fold, last => by
    intro st hv t ht
    simp only [ways] at ht
    by_cases h : (last || cfg.multi) = true
    · rw [if_pos h] at ht; exact pres_test (fun st => atEol cfg st.pos) st hv t ht
    · rw [if_neg h] at ht; exact pres_one _ st hv t ht
  | .wb, fold, last => by simp only [ways]; exact pres_test _
  | .nwb, fold, last => by simp only [ways]; exact pres_test _
  | .bow, fold, last => by simp only [ways]; exact pres_test _
  | .eow, fold, last => by simp only [ways]; exact pres_test _
  | .seq l, fold, last => by simp only [ways]; exact pres_waysSeq l fold last
  | .uncase l, fold, last => by simp only [ways]; exact pres_waysSeq l true last
  | .case_ l, fold, last => by simp only [ways]; exact pres_waysSeq l false last
  | .alt l, fold, last => by simp only [ways]; exact pres_waysAlt l fold last
  | .group g l, fold, last => by simp only [ways]; exact pres_group (pres_waysSeq l fold last) g
  | .backref g, fold, last => pres_backref g fold last
  | .once l, fold, last => by simp only [ways]; exact pres_take (pres_waysSeq l fold true) 1
  | .assert l, fold, last => by simp only [ways]; exact pres_assert (pres_waysSeq l fold true)
  | .nassert l, fold, last => by
    simp only [ways]; exact pres_test (fun st => (waysSeq cfg l fold true st).isEmpty)
  | .rep k m n l, fold, last => by
    simp only [ways]; exact pres_rep (pres_waysSeq l fold false) k m n (singleChar l)
theorem pres_waysSeq : ∀ (l : List Ast) (fold last : Bool), Pres cfg (waysSeq cfg l fold last)
  | [], fold, last => by simp only [waysSeq]; exact pres_nil
  | a :: l, fold, last => by
    simp only [waysSeq]; exact pres_comp (pres_ways a fold _) (pres_waysSeq l fold last)
theorem pres_waysAlt : ∀ (l : List Ast) (fold last : Bool), Pres cfg (waysAlt cfg l fold last)
  | [], fold, last => by
    intro st _ t ht
    simp only [waysAlt] at ht
    simp at ht
  | a :: l, fold, last => by
    intro st hv t ht
    simp only [waysAlt] at ht
    rcases List.mem_append.1 ht with ht | ht
    · exact pres_ways a fold last st hv t ht
    · exact pres_waysAlt l fold last st hv t ht
end

theorem prog_one (P : Nat → Bool) : Prog cfg (one cfg P) := by
  intro st hv t ht
  unfold one at ht
  cases h : cfg.text[st.pos]? with
  | none => rw [h] at ht; simp at ht
  | some x =>
    rw [h] at ht
    dsimp only at ht
    by_cases hp : P x = true
    · rw [if_pos hp, List.mem_singleton] at ht
      subst ht; exact Nat.lt_succ_self _
    · rw [if_neg hp] at ht; simp at ht

theorem prog_comp_left {W V : St → List St} (h : Prog cfg W) (hp : Pres cfg W) (hv : Pres cfg V) :
    Prog cfg (fun st => (W st).flatMap V) := by
  intro st hs t ht
  obtain ⟨u, hu, ht⟩ := List.mem_flatMap.1 ht
  have h1 := h st hs u hu
  have h2 := (hv u (hp st hs u hu).1 t ht).2
  omega

theorem prog_comp_right {W V : St → List St} (h : Prog cfg V) (hp : Pres cfg W) :
    Prog cfg (fun st => (W st).flatMap V) := by
  intro st hs t ht
  obtain ⟨u, hu, ht⟩ := List.mem_flatMap.1 ht
  obtain ⟨h0, h1⟩ := hp st hs u hu
  have h2 := h u h0 t ht
  omega

mutual
theorem prog_ways : ∀ (a : Ast) (fold last : Bool), consumes a = true →
    Prog cfg (ways cfg a fold last)
  | .char c, fold, last, _ => by simp only [ways]; exact prog_one _
  | .cset s, fold, last, _ => by simp only [ways]; exact prog_one _
  | .comp s, fold, last, _ => by simp only [ways]; exact prog_one _
  | .any, fold, last, _ => by simp only [ways]; exact prog_one _
  | .bos, _, _, h => by simp [consumes] at h
  | .eos, _, _, h => by simp [consumes] at h
  | .bol, _, _, h => by simp [consumes] at h
  | .eol, _, _, h => by simp [consumes] at h
  | .wb, _, _, h => by simp [consumes] at h
  | .nwb, _, _, h => by simp [consumes] at h
  | .bow, _, _, h => by simp [consumes] at h
  | .eow, _, _, h => by simp [consumes] at h
  | .backref _, _, _, h => by simp [consumes] at h
  | .assert _, _, _, h => by simp [consumes] at h
  | .nassert _, _, _, h => by simp [consumes] at h
  | .seq l, fold, last, h => by
    simp only [consumes] at h; simp only [ways]; exact prog_waysSeq l fold last h
  | .uncase l, fold, last, h => by
    simp only [consumes] at h; simp only [ways]; exact prog_waysSeq l true last h
  | .case_ l, fold, last, h => by
    simp only [consumes] at h; simp only [ways]; exact prog_waysSeq l false last h
  | .alt l, fold, last, h => by
    simp only [consumes] at h; simp only [ways]; exact prog_waysAlt l fold last h
  | .group g l, fold, last, h => by
    simp only [consumes] at h
    intro st hv t ht
    simp only [ways] at ht
    obtain ⟨u, hu, rfl⟩ := List.mem_map.1 ht
    exact prog_waysSeq l fold last h st hv u hu
  | .once l, fold, last, h => by
    simp only [consumes] at h
    intro st hv t ht
    simp only [ways] at ht
    exact prog_waysSeq l fold true h st hv t (List.mem_of_mem_take ht)
  | .rep k m n l, fold, last, h => by
    simp only [consumes, Bool.and_eq_true, decide_eq_true_eq] at h
    have hp := prog_waysSeq l fold false h.2
    have hq := pres_waysSeq (cfg := cfg) l fold false
    obtain ⟨m, rfl⟩ : ∃ m', m = m' + 1 := ⟨m - 1, by omega⟩
    have hi : Prog cfg (iter (waysSeq cfg l fold false) (m + 1)) :=
      prog_comp_left hp hq (pres_iter hq m)
    simp only [ways]
    intro st hv t ht
    obtain ⟨u, hu, ht'⟩ := List.mem_flatMap.1 ht
    have h1 := hi st hv u hu
    have h0 := (pres_iter hq (m + 1) st hv u hu).1
    have := pres_rep hq k 0 (n.map fun n => n - (m + 1)) (singleChar l) u h0 t (by
      simp only [iter, List.flatMap_cons, List.flatMap_nil, List.append_nil]
      cases n with
      | some n => simpa using ht'
      | none => simpa using ht')
    omega
theorem prog_waysSeq : ∀ (l : List Ast) (fold last : Bool), consumesSeq l = true →
    Prog cfg (waysSeq cfg l fold last)
  | [], _, _, h => by simp [consumesSeq] at h
  | a :: l, fold, last, h => by
    simp only [consumesSeq, Bool.or_eq_true] at h
    simp only [waysSeq]
    rcases h with h | h
    · exact prog_comp_left (prog_ways a fold _ h) (pres_ways a fold _) (pres_waysSeq l fold last)
    · exact prog_comp_right (prog_waysSeq l fold last h) (pres_ways a fold _)
theorem prog_waysAlt : ∀ (l : List Ast) (fold last : Bool), consumesAll l = true →
    Prog cfg (waysAlt cfg l fold last)
  | [], _, _, _ => by
    intro st _ t ht
    simp only [waysAlt] at ht
    simp at ht
  | a :: l, fold, last, h => by
    simp only [consumesAll, Bool.and_eq_true] at h
    intro st hv t ht
    simp only [waysAlt] at ht
    rcases List.mem_append.1 ht with ht | ht
    · exact prog_ways a fold last h.1 st hv t ht
    · exact prog_waysAlt l fold last h.2 st hv t ht
end

theorem keeps_one (P : Nat → Bool) (st t : St) (ht : t ∈ one cfg P st) : t.caps = st.caps := by
  unfold one at ht
  cases h : cfg.text[st.pos]? with
  | none => rw [h] at ht; simp at ht
  | some x =>
    rw [h] at ht
    dsimp only at ht
    by_cases hp : P x = true
    · rw [if_pos hp, List.mem_singleton] at ht
      subst ht; rfl
    · rw [if_neg hp] at ht; simp at ht

theorem keeps_test (b : Bool) (st t : St) (ht : t ∈ test b st) : t.caps = st.caps := by
  unfold test at ht
  cases b with
  | false => simp at ht
  | true => simp at ht; rw [ht]

/-- Captures stay. -/
def Keep (W : St → List St) : Prop := ∀ st, ∀ t ∈ W st, t.caps = st.caps

theorem keep_comp {W V : St → List St} (h : Keep W) (h' : Keep V) :
    Keep fun st => (W st).flatMap V := by
  intro st t ht
  obtain ⟨u, hu, ht⟩ := List.mem_flatMap.1 ht
  rw [h' u t ht, h st u hu]

theorem keep_iter {f : St → List St} (h : Keep f) (k : Nat) : Keep (iter f k) := by
  induction k with
  | zero => intro st t ht; simp [iter] at ht; rw [ht]
  | succ k ih => exact keep_comp h ih

theorem keep_star {f : St → List St} (h : Keep f) (n : Nat) : Keep (star f n) := by
  induction n with
  | zero => intro st t ht; simp [star] at ht; rw [ht]
  | succ n ih =>
    intro st t ht
    simp only [star, List.mem_append, List.mem_flatMap, List.mem_filter, List.mem_singleton] at ht
    rcases ht with ⟨u, ⟨hu, _⟩, ht⟩ | rfl
    · rw [ih u t ht, h st u hu]
    · rfl

theorem keep_starLazy {f : St → List St} (h : Keep f) (n : Nat) : Keep (starLazy f n) := by
  induction n with
  | zero => intro st t ht; simp [starLazy] at ht; rw [ht]
  | succ n ih =>
    intro st t ht
    simp only [starLazy, List.mem_cons, List.mem_flatMap, List.mem_filter] at ht
    rcases ht with rfl | ⟨u, ⟨hu, _⟩, ht⟩
    · rfl
    · rw [ih u t ht, h st u hu]

mutual
theorem keep_ways : ∀ (a : Ast) (fold last : Bool), noGroup a = true →
    Keep (ways cfg a fold last)
  | .char c, fold, last, _ => by simp only [ways]; exact keeps_one _
  | .cset s, fold, last, _ => by simp only [ways]; exact keeps_one _
  | .comp s, fold, last, _ => by simp only [ways]; exact keeps_one _
  | .any, fold, last, _ => by simp only [ways]; exact keeps_one _
  | .bos, _, _, _ => by simp only [ways]; exact fun st t => keeps_test _ st t
  | .eos, _, _, _ => by simp only [ways]; exact fun st t => keeps_test _ st t
  | .bol, _, _, _ => by simp only [ways]; exact fun st t => keeps_test _ st t
  | .eol, fold, last, _ => by
    intro st t ht
    simp only [ways] at ht
    by_cases h : (last || cfg.multi) = true
    · rw [if_pos h] at ht; exact keeps_test _ st t ht
    · rw [if_neg h] at ht; exact keeps_one _ st t ht
  | .wb, _, _, _ => by simp only [ways]; exact fun st t => keeps_test _ st t
  | .nwb, _, _, _ => by simp only [ways]; exact fun st t => keeps_test _ st t
  | .bow, _, _, _ => by simp only [ways]; exact fun st t => keeps_test _ st t
  | .eow, _, _, _ => by simp only [ways]; exact fun st t => keeps_test _ st t
  | .backref g, fold, last, _ => by
    intro st t ht
    simp only [ways] at ht
    cases hc : st.caps g with
    | none => rw [hc] at ht; simp at ht
    | some x =>
      obtain ⟨i, j⟩ := x
      rw [hc] at ht
      dsimp only at ht
      by_cases h : ((cfg.text.drop st.pos).take (j - i) == (cfg.text.drop i).take (j - i)) = true
      · rw [if_pos h, List.mem_singleton] at ht; subst ht; rfl
      · rw [if_neg h] at ht; simp at ht
  | .group _ _, _, _, h => by simp [noGroup] at h
  | .seq l, fold, last, h => by
    simp only [noGroup] at h; simp only [ways]; exact keep_waysSeq l fold last h
  | .uncase l, fold, last, h => by
    simp only [noGroup] at h; simp only [ways]; exact keep_waysSeq l true last h
  | .case_ l, fold, last, h => by
    simp only [noGroup] at h; simp only [ways]; exact keep_waysSeq l false last h
  | .alt l, fold, last, h => by
    simp only [noGroup] at h; simp only [ways]; exact keep_waysAlt l fold last h
  | .once l, fold, last, h => by
    simp only [noGroup] at h
    intro st t ht
    simp only [ways] at ht
    exact keep_waysSeq l fold true h st t (List.mem_of_mem_take ht)
  | .assert l, fold, last, h => by
    simp only [noGroup] at h
    intro st t ht
    simp only [ways] at ht
    obtain ⟨u, hu, rfl⟩ := List.mem_map.1 ht
    exact keep_waysSeq l fold true h st u (List.mem_of_mem_take hu)
  | .nassert l, fold, last, h => by
    simp only [ways]; exact fun st t => keeps_test _ st t
  | .rep k m n l, fold, last, h => by
    simp only [noGroup] at h
    have hp := keep_waysSeq l fold false h
    simp only [ways]
    refine keep_comp (keep_iter hp m) ?_
    intro t u hu
    cases n with
    | some n =>
      dsimp only at hu
      by_cases hk : k = .min
      · rw [if_pos hk] at hu
        obtain ⟨i, _, hu⟩ := List.mem_flatMap.1 hu
        exact keep_iter hp i t u hu
      · rw [if_neg hk] at hu
        obtain ⟨i, _, hu⟩ := List.mem_flatMap.1 hu
        exact keep_iter hp i t u hu
    | none =>
      dsimp only at hu
      by_cases hk : k = .min
      · rw [if_pos hk] at hu; exact keep_starLazy hp _ t u hu
      · rw [if_neg hk] at hu
        by_cases hk2 : (decide (k = .while_) && singleChar l) = true
        · rw [if_pos hk2] at hu; exact keep_star hp _ t u (List.mem_of_mem_take hu)
        · rw [if_neg hk2] at hu; exact keep_star hp _ t u hu
theorem keep_waysSeq : ∀ (l : List Ast) (fold last : Bool), noGroups l = true →
    Keep (waysSeq cfg l fold last)
  | [], _, _, _ => by
    intro st t ht
    simp only [waysSeq] at ht
    simp at ht; rw [ht]
  | a :: l, fold, last, h => by
    simp only [noGroups, Bool.and_eq_true] at h
    simp only [waysSeq]
    exact keep_comp (keep_ways a fold _ h.1) (keep_waysSeq l fold last h.2)
theorem keep_waysAlt : ∀ (l : List Ast) (fold last : Bool), noGroups l = true →
    Keep (waysAlt cfg l fold last)
  | [], _, _, _ => by
    intro st t ht
    simp only [waysAlt] at ht
    simp at ht
  | a :: l, fold, last, h => by
    simp only [noGroups, Bool.and_eq_true] at h
    intro st t ht
    simp only [waysAlt] at ht
    rcases List.mem_append.1 ht with ht | ht
    · exact keep_ways a fold last h.1 st t ht
    · exact keep_waysAlt l fold last h.2 st t ht
end

mutual
/-- What follows matters for `$` only. -/
theorem ways_last : ∀ (a : Ast) (fold b : Bool), (cfg.multi || noEol a) = true →
    ways cfg a fold b = ways cfg a fold false
  | .char c, fold, last, _ => by simp only [ways]
  | .cset s, fold, last, _ => by simp only [ways]
  | .comp s, fold, last, _ => by simp only [ways]
  | .any, fold, last, _ => by simp only [ways]
  | .bos, _, _, _ => by simp only [ways]
  | .eos, _, _, _ => by simp only [ways]
  | .bol, _, _, _ => by simp only [ways]
  | .eol, fold, b, h => by
    simp only [noEol, Bool.or_false] at h
    simp only [ways, h, Bool.or_true]
  | .wb, _, _, _ => by simp only [ways]
  | .nwb, _, _, _ => by simp only [ways]
  | .bow, _, _, _ => by simp only [ways]
  | .eow, _, _, _ => by simp only [ways]
  | .backref g, fold, last, _ => by simp only [ways]
  | .group g l, fold, b, h => by
    simp only [noEol] at h; simp only [ways, waysSeq_last l fold b h]
  | .seq l, fold, b, h => by
    simp only [noEol] at h; simp only [ways, waysSeq_last l fold b h]
  | .uncase l, fold, b, h => by
    simp only [noEol] at h; simp only [ways, waysSeq_last l true b h]
  | .case_ l, fold, b, h => by
    simp only [noEol] at h; simp only [ways, waysSeq_last l false b h]
  | .alt l, fold, b, h => by
    simp only [noEol] at h; simp only [ways, waysAlt_last l fold b h]
  | .once l, fold, last, h => by simp only [ways]
  | .assert l, fold, last, h => by simp only [ways]
  | .nassert l, fold, last, h => by simp only [ways]
  | .rep k m n l, fold, last, h => by simp only [ways]
theorem waysSeq_last : ∀ (l : List Ast) (fold b : Bool), (cfg.multi || noEols l) = true →
    waysSeq cfg l fold b = waysSeq cfg l fold false
  | [], _, _, _ => by simp only [waysSeq]
  | a :: l, fold, b, h => by
    have h1 : (cfg.multi || noEol a) = true := by
      simp only [noEols] at h; revert h; cases cfg.multi <;> simp; exact fun h _ => h
    have h2 : (cfg.multi || noEols l) = true := by
      simp only [noEols] at h; revert h; cases cfg.multi <;> simp
    simp only [waysSeq]
    rw [ways_last a fold (b && l.isEmpty) h1, ways_last a fold (false && l.isEmpty) h1,
      waysSeq_last l fold b h2]
theorem waysAlt_last : ∀ (l : List Ast) (fold b : Bool), (cfg.multi || noEols l) = true →
    waysAlt cfg l fold b = waysAlt cfg l fold false
  | [], _, _, _ => by simp only [waysAlt]
  | a :: l, fold, b, h => by
    have h1 : (cfg.multi || noEol a) = true := by
      simp only [noEols] at h; revert h; cases cfg.multi <;> simp; exact fun h _ => h
    have h2 : (cfg.multi || noEols l) = true := by
      simp only [noEols] at h; revert h; cases cfg.multi <;> simp
    simp only [waysAlt]
    rw [ways_last a fold b h1, waysAlt_last l fold b h2]
end

end
end Gauche.Regex

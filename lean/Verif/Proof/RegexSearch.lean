import Verif.Proof.RegexTop

/-!
# What the search knows about a pattern
-/

namespace Gauche.Regex

open Gauche.Utf8 Gauche.Spec.Utf8 Spec

section
variable {cfg : Cfg}

/-! ## the first character -/

/-- The next character satisfies `P`. -/
def First (cfg : Cfg) (P : Nat → Bool) (st : St) : Prop :=
  ∃ c, cfg.text[st.pos]? = some c ∧ P c = true

theorem has_eq (s : CSet) (c : Nat) : s.has c = inSet s c := rfl

theorem first_one {P : Nat → Bool} {st t : St} (h : t ∈ one cfg P st) : First cfg P st := by
  unfold one at h
  cases hc : cfg.text[st.pos]? with
  | none => rw [hc] at h; simp at h
  | some c =>
    rw [hc] at h
    dsimp only at h
    by_cases hp : P c = true
    · exact ⟨c, rfl.trans hc, hp⟩
    · rw [if_neg hp] at h; simp at h

theorem iter_first {f : St → List St} : ∀ (k : Nat) {st t : St}, t ∈ iter f k st →
    (k = 0 ∧ t = st) ∨ f st ≠ []
  | 0, st, t, h => by simp [iter] at h; exact Or.inl ⟨rfl, h⟩
  | k + 1, st, t, h => by
    simp only [iter] at h
    obtain ⟨u, hu, _⟩ := List.mem_flatMap.1 h
    exact Or.inr (List.ne_nil_of_mem hu)

theorem star_first {f : St → List St} : ∀ (k : Nat) {st t : St}, t ∈ star f k st →
    t = st ∨ f st ≠ []
  | 0, st, t, h => by simp [star] at h; exact Or.inl h
  | k + 1, st, t, h => by
    simp only [star, List.mem_append, List.mem_flatMap, List.mem_filter, List.mem_singleton] at h
    rcases h with ⟨u, ⟨hu, _⟩, _⟩ | h
    · exact Or.inr (List.ne_nil_of_mem hu)
    · exact Or.inl h

theorem starLazy_first {f : St → List St} : ∀ (k : Nat) {st t : St}, t ∈ starLazy f k st →
    t = st ∨ f st ≠ []
  | 0, st, t, h => by simp [starLazy] at h; exact Or.inl h
  | k + 1, st, t, h => by
    simp only [starLazy, List.mem_cons, List.mem_flatMap, List.mem_filter] at h
    rcases h with h | ⟨u, ⟨hu, _⟩, _⟩
    · exact Or.inl h
    · exact Or.inr (List.ne_nil_of_mem hu)

theorem rep_first {k : RepKind} {m : Nat} {n : Option Nat} {l : List Ast} {fold last : Bool}
    {st t : St} (h : t ∈ ways cfg (.rep k m n l) fold last st) :
    (m = 0 ∧ t = st) ∨ waysSeq cfg l fold false st ≠ [] := by
  simp only [ways] at h
  obtain ⟨u, hu, ht⟩ := List.mem_flatMap.1 h
  rcases iter_first m hu with ⟨hm, rfl⟩ | hne
  · have : t = u ∨ waysSeq cfg l fold false u ≠ [] := by
      cases n with
      | some n =>
        dsimp only at ht
        by_cases hk : k = .min
        · rw [if_pos hk] at ht
          obtain ⟨j, _, hj⟩ := List.mem_flatMap.1 ht
          exact (iter_first j hj).imp_left And.right
        · rw [if_neg hk] at ht
          obtain ⟨j, _, hj⟩ := List.mem_flatMap.1 ht
          exact (iter_first j hj).imp_left And.right
      | none =>
        dsimp only at ht
        by_cases hk : k = .min
        · rw [if_pos hk] at ht
          exact starLazy_first _ ht
        · rw [if_neg hk] at ht
          by_cases hs : (k = .while_ && singleChar l) = true
          · rw [if_pos hs] at ht
            exact star_first _ (List.mem_of_mem_take ht)
          · rw [if_neg hs] at ht
            exact star_first _ ht
    exact this.imp_left fun h => ⟨hm, h⟩
  · exact Or.inr hne

theorem First.mono {P Q : Nat → Bool} {st st' : St} (h : First cfg P st) (hp : st'.pos = st.pos)
    (hq : ∀ c, P c = true → Q c = true) : First cfg Q st' := by
  obtain ⟨c, h1, h2⟩ := h
  exact ⟨c, by rw [hp]; exact h1, hq c h2⟩

theorem mergeLaset_some {x y : Option (Nat → Bool)} {P : Nat → Bool}
    (h : mergeLaset x y = some P) :
    ∃ f g, x = some f ∧ y = some g ∧ P = fun c => f c || g c := by
  cases x with
  | none => simp [mergeLaset] at h
  | some f =>
    cases y with
    | none => simp [mergeLaset] at h
    | some g =>
      simp only [mergeLaset, Option.some.injEq] at h
      exact ⟨f, g, rfl, rfl, h.symm⟩

mutual
theorem laset_first : ∀ (a : Ast) (rest : Option (Nat → Bool)) (P : Nat → Bool) (last : Bool)
    (st t : St), laset rest a = some P → t ∈ ways cfg a false last st →
    First cfg P st ∨ (t.pos = st.pos ∧ ∃ Q, rest = some Q ∧ ∀ c, Q c = true → P c = true)
  | .char c, rest, P, last, st, t, h, ht => by
    simp only [laset, Option.some.injEq] at h
    simp only [ways] at ht
    refine Or.inl ((first_one ht).mono rfl ?_)
    intro x hx
    rw [← h]; simpa using hx
  | .cset s, rest, P, last, st, t, h, ht => by
    simp only [laset, Option.some.injEq] at h
    simp only [ways] at ht
    refine Or.inl ((first_one ht).mono rfl ?_)
    intro x hx
    rw [← h]; exact hx
  | .comp s, rest, P, last, st, t, h, ht => by
    simp only [laset, Option.some.injEq] at h
    simp only [ways] at ht
    refine Or.inl ((first_one ht).mono rfl ?_)
    intro x hx
    rw [← h]; exact hx
  | .seq l, rest, P, last, st, t, h, ht => by
    simp only [laset] at h
    simp only [ways] at ht
    exact Or.inl (lasetn_first l P last st t h ht)
  | .once l, rest, P, last, st, t, h, ht => by
    simp only [laset] at h
    simp only [ways] at ht
    exact Or.inl (lasetn_first l P true st t h (List.mem_of_mem_take ht))
  | .group g l, rest, P, last, st, t, h, ht => by
    simp only [laset] at h
    simp only [ways, List.mem_map] at ht
    obtain ⟨u, hu, _⟩ := ht
    exact Or.inl (lasetn_first l P last st u h hu)
  | .alt l, rest, P, last, st, t, h, ht => by
    simp only [laset] at h
    simp only [ways] at ht
    exact Or.inl (lasetAlts_first l P last st t h ht)
  | .rep k m n l, rest, P, last, st, t, h, ht => by
    simp only [laset] at h
    have hin : ∀ Q, lasetn l = some Q → waysSeq cfg l false false st ≠ [] → First cfg Q st := by
      intro Q hQ hne
      obtain ⟨u, hu⟩ := List.exists_mem_of_ne_nil _ hne
      exact lasetn_first l Q false st u hQ hu
    rcases rep_first ht with ⟨rfl, rfl⟩ | hne
    · rw [if_pos rfl] at h
      obtain ⟨f, g, _, h2, rfl⟩ := mergeLaset_some h
      exact Or.inr ⟨rfl, g, h2, fun c hc => by simp [hc]⟩
    · by_cases hm : m = 0
      · rw [if_pos hm] at h
        obtain ⟨f, g, h1, _, rfl⟩ := mergeLaset_some h
        exact Or.inl ((hin f h1 hne).mono rfl fun c hc => by simp [hc])
      · rw [if_neg hm] at h
        exact Or.inl (hin P h hne)
  | .any, _, _, _, _, _, h, _ => by simp [laset] at h
  | .bos, _, _, _, _, _, h, _ => by simp [laset] at h
  | .eos, _, _, _, _, _, h, _ => by simp [laset] at h
  | .bol, _, _, _, _, _, h, _ => by simp [laset] at h
  | .eol, _, _, _, _, _, h, _ => by simp [laset] at h
  | .wb, _, _, _, _, _, h, _ => by simp [laset] at h
  | .nwb, _, _, _, _, _, h, _ => by simp [laset] at h
  | .bow, _, _, _, _, _, h, _ => by simp [laset] at h
  | .eow, _, _, _, _, _, h, _ => by simp [laset] at h
  | .backref _, _, _, _, _, _, h, _ => by simp [laset] at h
  | .uncase _, _, _, _, _, _, h, _ => by simp [laset] at h
  | .case_ _, _, _, _, _, _, h, _ => by simp [laset] at h
  | .assert _, _, _, _, _, _, h, _ => by simp [laset] at h
  | .nassert _, _, _, _, _, _, h, _ => by simp [laset] at h
theorem lasetn_first : ∀ (l : List Ast) (P : Nat → Bool) (last : Bool) (st t : St),
    lasetn l = some P → t ∈ waysSeq cfg l false last st → First cfg P st
  | [], _, _, _, _, h, _ => by simp [lasetn] at h
  | a :: l, P, last, st, t, h, ht => by
    simp only [lasetn] at h
    simp only [waysSeq] at ht
    obtain ⟨u, hu, ht⟩ := List.mem_flatMap.1 ht
    rcases laset_first a (lasetn l) P _ st u h hu with h1 | ⟨hp, Q, hQ, hPQ⟩
    · exact h1
    · exact (lasetn_first l Q last u t hQ ht).mono hp.symm hPQ
theorem lasetAlts_first : ∀ (l : List Ast) (P : Nat → Bool) (last : Bool) (st t : St),
    lasetAlts l = some P → t ∈ waysAlt cfg l false last st → First cfg P st
  | [], _, _, _, _, h, _ => by simp [lasetAlts] at h
  | a :: l, P, last, st, t, h, ht => by
    simp only [lasetAlts] at h
    simp only [waysAlt, List.mem_append] at ht
    have hno : ∀ Q, laset none a = some Q → t ∈ ways cfg a false last st → First cfg Q st := by
      intro Q hQ hu
      rcases laset_first a none Q last st t hQ hu with h1 | ⟨_, _, h2, _⟩
      · exact h1
      · cases h2
    cases l with
    | nil =>
      simp only [List.isEmpty_nil, if_pos] at h
      rcases ht with ht | ht
      · exact hno P h ht
      · simp [waysAlt] at ht
    | cons b l =>
      rw [if_neg (by simp)] at h
      obtain ⟨f, g, h1, h2, rfl⟩ := mergeLaset_some h
      rcases ht with ht | ht
      · exact (hno f h1 ht).mono rfl fun c hc => by simp [hc]
      · exact (lasetAlts_first (b :: l) g last st t h2 ht).mono rfl fun c hc => by simp [hc]
end

/-! ## anchored patterns -/

mutual
theorem anchored_zero {atom : Ast → Bool}
    (hat : ∀ a, atom a = true → ∀ fold last (st t : St), t ∈ ways cfg a fold last st → st.pos = 0) :
    ∀ (a : Ast) (fold last : Bool) (st t : St), anchored atom a = true →
      t ∈ ways cfg a fold last st → st.pos = 0
  | .seq l, fold, last, st, t, h, ht => by
    simp only [anchored] at h
    simp only [ways] at ht
    exact anchoredHead_zero hat l _ _ st t h ht
  | .uncase l, fold, last, st, t, h, ht => by
    simp only [anchored] at h
    simp only [ways] at ht
    exact anchoredHead_zero hat l _ _ st t h ht
  | .case_ l, fold, last, st, t, h, ht => by
    simp only [anchored] at h
    simp only [ways] at ht
    exact anchoredHead_zero hat l _ _ st t h ht
  | .group g l, fold, last, st, t, h, ht => by
    simp only [anchored] at h
    simp only [ways, List.mem_map] at ht
    obtain ⟨u, hu, _⟩ := ht
    exact anchoredHead_zero hat l _ _ st u h hu
  | .alt l, fold, last, st, t, h, ht => by
    simp only [anchored] at h
    simp only [ways] at ht
    exact anchoredAll_zero hat l _ _ st t h ht
  | .char _, fold, last, st, t, h, ht => hat _ (by simpa only [anchored] using h) fold last st t ht
  | .cset _, fold, last, st, t, h, ht => hat _ (by simpa only [anchored] using h) fold last st t ht
  | .comp _, fold, last, st, t, h, ht => hat _ (by simpa only [anchored] using h) fold last st t ht
  | .any, fold, last, st, t, h, ht => hat _ (by simpa only [anchored] using h) fold last st t ht
  | .bos, fold, last, st, t, h, ht => hat _ (by simpa only [anchored] using h) fold last st t ht
  | .eos, fold, last, st, t, h, ht => hat _ (by simpa only [anchored] using h) fold last st t ht
  | .bol, fold, last, st, t, h, ht => hat _ (by simpa only [anchored] using h) fold last st t ht
  | .eol, fold, last, st, t, h, ht => hat _ (by simpa only [anchored] using h) fold last st t ht
  | .wb, fold, last, st, t, h, ht => hat _ (by simpa only [anchored] using h) fold last st t ht
  | .nwb, fold, last, st, t, h, ht => hat _ (by simpa only [anchored] using h) fold last st t ht
  | .bow, fold, last, st, t, h, ht => hat _ (by simpa only [anchored] using h) fold last st t ht
  | .eow, fold, last, st, t, h, ht => hat _ (by simpa only [anchored] using h) fold last st t ht
  | .backref _, fold, last, st, t, h, ht => hat _ (by simpa only [anchored] using h) fold last st t ht
  | .once _, fold, last, st, t, h, ht => hat _ (by simpa only [anchored] using h) fold last st t ht
  | .assert _, fold, last, st, t, h, ht => hat _ (by simpa only [anchored] using h) fold last st t ht
  | .nassert _, fold, last, st, t, h, ht => hat _ (by simpa only [anchored] using h) fold last st t ht
  | .rep _ _ _ _, fold, last, st, t, h, ht =>
    hat _ (by simpa only [anchored] using h) fold last st t ht
theorem anchoredHead_zero {atom : Ast → Bool}
    (hat : ∀ a, atom a = true → ∀ fold last (st t : St), t ∈ ways cfg a fold last st → st.pos = 0) :
    ∀ (l : List Ast) (fold last : Bool) (st t : St), anchoredHead atom l = true →
      t ∈ waysSeq cfg l fold last st → st.pos = 0
  | [], _, _, _, _, h, _ => by simp [anchoredHead] at h
  | a :: l, fold, last, st, t, h, ht => by
    simp only [anchoredHead] at h
    simp only [waysSeq] at ht
    obtain ⟨u, hu, _⟩ := List.mem_flatMap.1 ht
    exact anchored_zero hat a _ _ st u h hu
theorem anchoredAll_zero {atom : Ast → Bool}
    (hat : ∀ a, atom a = true → ∀ fold last (st t : St), t ∈ ways cfg a fold last st → st.pos = 0) :
    ∀ (l : List Ast) (fold last : Bool) (st t : St), anchoredAll atom l = true →
      t ∈ waysAlt cfg l fold last st → st.pos = 0
  | [], _, _, _, _, _, ht => by simp [waysAlt] at ht
  | a :: l, fold, last, st, t, h, ht => by
    simp only [anchoredAll, Bool.and_eq_true] at h
    simp only [waysAlt, List.mem_append] at ht
    rcases ht with ht | ht
    · exact anchored_zero hat a _ _ st t h.1 ht
    · exact anchoredAll_zero hat l _ _ st t h.2 ht
end

theorem bos_zero (a : Ast) (h : isBos a = true) (fold last : Bool) (st t : St)
    (ht : t ∈ ways cfg a fold last st) : st.pos = 0 := by
  cases a <;> simp only [isBos] at h <;> try (cases h; done)
  simp only [ways, test] at ht
  by_cases h0 : st.pos = 0
  · exact h0
  · simp [h0] at ht

theorem bol_zero (hm : cfg.multi = false) (a : Ast) (h : isBol a = true) (fold last : Bool)
    (st t : St) (ht : t ∈ ways cfg a fold last st) : st.pos = 0 := by
  cases a <;> simp only [isBol] at h <;> try (cases h; done)
  simp only [ways, test, atBol, hm] at ht
  by_cases h0 : st.pos = 0
  · exact h0
  · simp [h0] at ht

end
end Gauche.Regex

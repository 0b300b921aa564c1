import Verif.Proof.RegexSearch3

/-!
# The ways are the matches
-/

namespace Gauche.Regex

open Gauche.Utf8 Gauche.Spec.Utf8 Spec

section
variable {cfg : Cfg}

theorem mem_one {P : Nat → Bool} {st t : St} :
    t ∈ one cfg P st ↔ ∃ x, cfg.text[st.pos]? = some x ∧ P x = true ∧
      t = { st with pos := st.pos + 1 } := by
  unfold one
  cases h : cfg.text[st.pos]? with
  | none => simp
  | some c =>
    dsimp only
    by_cases hp : P c = true
    · rw [if_pos hp]; simp [hp]
    · rw [if_neg hp]; simp [hp]

theorem mem_test {b : Bool} {st t : St} : t ∈ test b st ↔ b = true ∧ t = st := by
  unfold test; cases b <;> simp

theorem iter_reps {fold : Bool} {l : List Ast} {f : St → List St} (hp : Pres cfg f)
    (hf : ∀ st t, Valid cfg st → (t ∈ f st ↔ MatSeq cfg fold false l st t)) :
    ∀ (k : Nat) (st t : St), Valid cfg st → (t ∈ iter f k st ↔ Reps cfg fold l k st t)
  | 0, st, t, _ => by
    simp only [iter, List.mem_singleton]
    constructor
    · rintro rfl; exact .zero
    · intro h; cases h; rfl
  | k + 1, st, t, hv => by
    simp only [iter, List.mem_flatMap]
    constructor
    · rintro ⟨u, hu, ht⟩
      exact .succ ((hf st u hv).1 hu) ((iter_reps hp hf k u t (hp st hv u hu).1).1 ht)
    · intro h
      cases h with
      | succ h1 h2 =>
        have hu := (hf st _ hv).2 h1
        exact ⟨_, hu, (iter_reps hp hf k _ t (hp st hv _ hu).1).2 h2⟩

theorem star_sound {fold : Bool} {l : List Ast} {f : St → List St} (hp : Pres cfg f)
    (hf : ∀ st t, Valid cfg st → (t ∈ f st ↔ MatSeq cfg fold false l st t)) :
    ∀ (r : Nat) (st t : St), Valid cfg st → t ∈ star f r st → ∃ c, Reps cfg fold l c st t
  | 0, st, t, _, h => by simp [star] at h; subst h; exact ⟨0, .zero⟩
  | r + 1, st, t, hv, h => by
    simp only [star, List.mem_append, List.mem_flatMap, List.mem_filter, List.mem_singleton] at h
    rcases h with ⟨u, ⟨hu, _⟩, ht⟩ | rfl
    · obtain ⟨c, hc⟩ := star_sound hp hf r u t (hp st hv u hu).1 ht
      exact ⟨c + 1, .succ ((hf st u hv).1 hu) hc⟩
    · exact ⟨0, .zero⟩

theorem starLazy_sound {fold : Bool} {l : List Ast} {f : St → List St} (hp : Pres cfg f)
    (hf : ∀ st t, Valid cfg st → (t ∈ f st ↔ MatSeq cfg fold false l st t)) :
    ∀ (r : Nat) (st t : St), Valid cfg st → t ∈ starLazy f r st → ∃ c, Reps cfg fold l c st t
  | 0, st, t, _, h => by simp [starLazy] at h; subst h; exact ⟨0, .zero⟩
  | r + 1, st, t, hv, h => by
    simp only [starLazy, List.mem_cons, List.mem_flatMap, List.mem_filter] at h
    rcases h with rfl | ⟨u, ⟨hu, _⟩, ht⟩
    · exact ⟨0, .zero⟩
    · obtain ⟨c, hc⟩ := starLazy_sound hp hf r u t (hp st hv u hu).1 ht
      exact ⟨c + 1, .succ ((hf st u hv).1 hu) hc⟩

theorem star_complete {fold : Bool} {l : List Ast} {f : St → List St} (hp : Pres cfg f)
    (hg : Prog cfg f)
    (hf : ∀ st t, Valid cfg st → (t ∈ f st ↔ MatSeq cfg fold false l st t)) :
    ∀ (c r : Nat) (st t : St), Valid cfg st → cfg.text.length - st.pos ≤ r →
      Reps cfg fold l c st t → t ∈ star f r st
  | 0, r, st, t, hv, hr, h => by
    cases h
    cases r <;> simp [star]
  | c + 1, r, st, t, hv, hr, h => by
    cases h with
    | @succ _ _ _ _ u _ h1 h2 =>
      have hu := (hf st _ hv).2 h1
      have hlt := hg st hv _ hu
      have hvu := (hp st hv _ hu).1
      cases r with
      | zero => have := hvu.1; omega
      | succ r =>
        simp only [star, List.mem_append, List.mem_flatMap, List.mem_filter]
        exact Or.inl ⟨u, ⟨hu, by simpa using hlt⟩,
          star_complete hp hg hf c r u t hvu (by have := hvu.1; omega) h2⟩

theorem starLazy_complete {fold : Bool} {l : List Ast} {f : St → List St} (hp : Pres cfg f)
    (hg : Prog cfg f)
    (hf : ∀ st t, Valid cfg st → (t ∈ f st ↔ MatSeq cfg fold false l st t)) :
    ∀ (c r : Nat) (st t : St), Valid cfg st → cfg.text.length - st.pos ≤ r →
      Reps cfg fold l c st t → t ∈ starLazy f r st
  | 0, r, st, t, hv, hr, h => by
    cases h
    cases r <;> simp [starLazy]
  | c + 1, r, st, t, hv, hr, h => by
    cases h with
    | @succ _ _ _ _ u _ h1 h2 =>
      have hu := (hf st _ hv).2 h1
      have hlt := hg st hv _ hu
      have hvu := (hp st hv _ hu).1
      cases r with
      | zero => have := hvu.1; omega
      | succ r =>
        simp only [starLazy, List.mem_cons, List.mem_flatMap, List.mem_filter]
        exact Or.inr ⟨u, ⟨hu, by simpa using hlt⟩,
          starLazy_complete hp hg hf c r u t hvu (by have := hvu.1; omega) h2⟩

theorem reps_add {fold : Bool} {l : List Ast} : ∀ {c : Nat} {d : Nat} {st t u : St},
    Reps cfg fold l c st t → Reps cfg fold l d t u → Reps cfg fold l (c + d) st u
  | 0, d, st, t, u, h, g => by cases h; simpa using g
  | c + 1, d, st, t, u, h, g => by
    cases h with
    | succ h1 h2 =>
      rw [show c + 1 + d = (c + d) + 1 by omega]
      exact .succ h1 (reps_add h2 g)

theorem reps_split {fold : Bool} {l : List Ast} : ∀ {c : Nat} {d : Nat} {st u : St},
    Reps cfg fold l (c + d) st u → ∃ t, Reps cfg fold l c st t ∧ Reps cfg fold l d t u
  | 0, d, st, u, h => ⟨st, .zero, by simpa using h⟩
  | c + 1, d, st, u, h => by
    rw [show c + 1 + d = (c + d) + 1 by omega] at h
    cases h with
    | succ h1 h2 =>
      obtain ⟨t, h3, h4⟩ := reps_split h2
      exact ⟨t, .succ h1 h3, h4⟩

theorem repW_iff {fold last : Bool} {l : List Ast} {k : RepKind} {m : Nat} {n : Option Nat}
    {f : St → List St} (hp : Pres cfg f) (hg : n = none → Prog cfg f)
    (hmn : ∀ x, n = some x → m ≤ x)
    (hf : ∀ st t, Valid cfg st → (t ∈ f st ↔ MatSeq cfg fold false l st t)) (b : Bool)
    (st t : St) (hv : Valid cfg st) :
    t ∈ repW cfg b f m n st ↔ Mat cfg fold last (.rep k m n l) st t := by
  have hiter := iter_reps hp hf
  unfold repW
  rw [List.mem_flatMap]
  constructor
  · rintro ⟨u, hu, ht⟩
    have hvu := (pres_iter hp m st hv u hu).1
    have h1 := (hiter m st u hv).1 hu
    cases n with
    | some n =>
      have hmn := hmn n rfl
      have : ∃ c, c ≤ n - m ∧ t ∈ iter f c u := by
        dsimp only at ht
        by_cases hb : b = true
        · rw [if_pos hb] at ht
          obtain ⟨c, hc, h⟩ := List.mem_flatMap.1 ht
          exact ⟨c, by simp at hc; omega, h⟩
        · rw [if_neg hb] at ht
          obtain ⟨c, hc, h⟩ := List.mem_flatMap.1 ht
          exact ⟨c, by simp at hc; omega, h⟩
      obtain ⟨c, hc, h⟩ := this
      exact .rep (c := m + c) (by omega) (fun x hx => by injection hx with hx; omega)
        (reps_add h1 ((hiter c u t hvu).1 h))
    | none =>
      have : ∃ c, Reps cfg fold l c u t := by
        dsimp only at ht
        by_cases hb : b = true
        · rw [if_pos hb] at ht
          exact starLazy_sound hp hf _ u t hvu ht
        · rw [if_neg hb] at ht
          exact star_sound hp hf _ u t hvu ht
      obtain ⟨c, h⟩ := this
      exact .rep (c := m + c) (by omega) (fun x hx => by cases hx) (reps_add h1 h)
  · intro h
    cases h with
    | @rep _ _ _ _ _ _ c _ _ hmc hcn hr =>
      rw [show c = m + (c - m) by omega] at hr
      obtain ⟨u, h1, h2⟩ := reps_split hr
      have hu := (hiter m st u hv).2 h1
      have hvu := (pres_iter hp m st hv u hu).1
      refine ⟨u, hu, ?_⟩
      cases n with
      | some n =>
        have := hcn n rfl
        dsimp only
        by_cases hb : b = true
        · rw [if_pos hb]
          exact List.mem_flatMap.2 ⟨c - m, by simp; omega, (hiter _ u t hvu).2 h2⟩
        · rw [if_neg hb]
          exact List.mem_flatMap.2 ⟨c - m, by simp; omega, (hiter _ u t hvu).2 h2⟩
      | none =>
        dsimp only
        by_cases hb : b = true
        · rw [if_pos hb]
          exact starLazy_complete hp (hg rfl) hf _ _ u t hvu (Nat.le_refl _) h2
        · rw [if_neg hb]
          exact star_complete hp (hg rfl) hf _ _ u t hvu (Nat.le_refl _) h2

mutual
theorem ways_mat {L : Lim} : ∀ (a : Ast) (fold last : Bool) (op : List Nat) (st t : St),
    ok L a fold op = true → free a = true → Valid cfg st →
    (t ∈ ways cfg a fold last st ↔ Mat cfg fold last a st t)
  | .char c, fold, last, op, st, t, _, _, _ => by
    simp only [ways]
    rw [mem_one]
    constructor
    · rintro ⟨x, h1, h2, rfl⟩; exact .char h1 (by simpa using h2)
    · intro h
      cases h with
      | char h1 h2 => exact ⟨_, h1, by simpa using h2, rfl⟩
  | .cset s, fold, last, op, st, t, _, _, _ => by
    simp only [ways]
    rw [mem_one]
    constructor
    · rintro ⟨x, h1, h2, rfl⟩; exact .cset h1 h2
    · intro h
      cases h with
      | cset h1 h2 => exact ⟨_, h1, h2, rfl⟩
  | .comp s, fold, last, op, st, t, _, _, _ => by
    simp only [ways]
    rw [mem_one]
    constructor
    · rintro ⟨x, h1, h2, rfl⟩; exact .comp h1 (by simpa using h2)
    · intro h
      cases h with
      | comp h1 h2 => exact ⟨_, h1, by simpa using h2, rfl⟩
  | .any, fold, last, op, st, t, _, _, _ => by
    simp only [ways]
    rw [mem_one]
    constructor
    · rintro ⟨x, h1, _, rfl⟩; exact .any h1
    · intro h
      cases h with
      | any h1 => exact ⟨_, h1, rfl, rfl⟩
  | .bos, fold, last, op, st, t, _, _, _ => by
    simp only [ways]
    rw [mem_test]
    constructor
    · rintro ⟨h, rfl⟩; exact .bos (by simpa using h)
    · intro h
      cases h with
      | bos h => exact ⟨by simpa using h, rfl⟩
  | .eos, fold, last, op, st, t, _, _, _ => by
    simp only [ways]
    rw [mem_test]
    constructor
    · rintro ⟨h, rfl⟩; exact .eos (by simpa using h)
    · intro h
      cases h with
      | eos h => exact ⟨by simpa using h, rfl⟩
  | .bol, fold, last, op, st, t, _, _, _ => by
    simp only [ways]
    rw [mem_test]
    constructor
    · rintro ⟨h, rfl⟩; exact .bol h
    · intro h
      cases h with
      | bol h => exact ⟨h, rfl⟩
  | .eol, fold, last, op, st, t, _, _, _ => by
    simp only [ways]
    by_cases hl : (last || cfg.multi) = true
    · rw [if_pos hl, mem_test]
      have hl' : last = true ∨ cfg.multi = true := by simpa using hl
      constructor
      · rintro ⟨h, rfl⟩; exact .eol hl' h
      · intro h
        cases h with
        | eol _ h => exact ⟨h, rfl⟩
        | dollar h1 h2 _ => rw [h1, h2] at hl; cases hl
    · rw [if_neg hl, mem_one]
      have hl' : last = false ∧ cfg.multi = false := by simpa using hl
      constructor
      · rintro ⟨x, h1, h2, rfl⟩
        have : x = 36 := by simpa using h2
        subst this
        exact .dollar hl'.1 hl'.2 h1
      · intro h
        cases h with
        | eol h1 _ => rw [hl'.1, hl'.2] at h1; simp at h1
        | dollar _ _ h => exact ⟨36, h, rfl, rfl⟩
  | .wb, fold, last, op, st, t, _, _, _ => by
    simp only [ways]
    rw [mem_test]
    constructor
    · rintro ⟨h, rfl⟩; exact .wb (by simpa using h)
    · intro h
      cases h with
      | wb h => exact ⟨by simpa using h, rfl⟩
  | .nwb, fold, last, op, st, t, _, _, _ => by
    simp only [ways]
    rw [mem_test]
    constructor
    · rintro ⟨h, rfl⟩
      have : atBow cfg t.pos = false ∧ atEow cfg t.pos = false := by simpa using h
      exact .nwb this.1 this.2
    · intro h
      cases h with
      | nwb h h' => exact ⟨by simp [h, h'], rfl⟩
  | .bow, fold, last, op, st, t, _, _, _ => by
    simp only [ways]
    rw [mem_test]
    constructor
    · rintro ⟨h, rfl⟩; exact .bow h
    · intro h
      cases h with
      | bow h => exact ⟨h, rfl⟩
  | .eow, fold, last, op, st, t, _, _, _ => by
    simp only [ways]
    rw [mem_test]
    constructor
    · rintro ⟨h, rfl⟩; exact .eow h
    · intro h
      cases h with
      | eow h => exact ⟨h, rfl⟩
  | .backref g, fold, last, op, st, t, _, _, _ => by
    simp only [ways]
    constructor
    · intro h
      cases hc : st.caps g with
      | none => rw [hc] at h; simp at h
      | some x =>
        obtain ⟨i, j⟩ := x
        rw [hc] at h
        dsimp only at h
        by_cases he : ((cfg.text.drop st.pos).take (j - i) ==
            (cfg.text.drop i).take (j - i)) = true
        · rw [if_pos he] at h
          simp only [List.mem_singleton] at h
          subst h
          exact .backref hc (by simpa using he)
        · rw [if_neg he] at h; simp at h
    · intro h
      cases h with
      | backref hc he =>
        rw [hc]
        dsimp only
        rw [if_pos (by simpa using he)]
        simp
  | .seq l, fold, last, op, st, t, h, hf, hv => by
    simp only [ok] at h
    simp only [free] at hf
    simp only [ways]
    rw [waysSeq_mat l fold last op st t h hf hv]
    exact ⟨.seq, fun h => by cases h with | seq h => exact h⟩
  | .uncase l, fold, last, op, st, t, h, hf, hv => by
    simp only [ok, Bool.and_eq_true] at h
    simp only [free] at hf
    simp only [ways]
    rw [waysSeq_mat l true last op st t h.2 hf hv]
    exact ⟨.uncase, fun h => by cases h with | uncase h => exact h⟩
  | .case_ l, fold, last, op, st, t, h, hf, hv => by
    simp only [ok] at h
    simp only [free] at hf
    simp only [ways]
    rw [waysSeq_mat l false last op st t h hf hv]
    exact ⟨.case_, fun h => by cases h with | case_ h => exact h⟩
  | .alt l, fold, last, op, st, t, h, hf, hv => by
    simp only [ok] at h
    simp only [free] at hf
    simp only [ways]
    rw [waysAlt_mat l fold last op st t h hf hv]
    constructor
    · rintro ⟨a, h1, h2⟩; exact .alt h1 h2
    · intro h
      cases h with
      | alt h1 h2 => exact ⟨_, h1, h2⟩
  | .group g l, fold, last, op, st, t, h, hf, hv => by
    simp only [ok, Bool.and_eq_true] at h
    simp only [free] at hf
    simp only [ways, List.mem_map]
    constructor
    · rintro ⟨u, hu, rfl⟩
      exact .group ((waysSeq_mat l fold last (g :: op) st u h.2 hf hv).1 hu)
    · intro h'
      cases h' with
      | group h' => exact ⟨_, (waysSeq_mat l fold last (g :: op) st _ h.2 hf hv).2 h', rfl⟩
  | .rep k m n l, fold, last, op, st, t, h, hf, hv => by
    simp only [ok, Bool.and_eq_true] at h
    simp only [free, Bool.and_eq_true, decide_eq_true_eq] at hf
    rw [ways_rep_eq k m n l fold last (fun hx => hf.1 hx.1)]
    refine repW_iff (pres_waysSeq l fold false) ?_ ?_
      (fun st t hv => waysSeq_mat l fold false op st t h.1.1 hf.2 hv) _ st t hv
    · rintro rfl
      have := h.2
      simp only [Bool.and_eq_true] at this
      exact prog_waysSeq l fold false this.1
    · rintro x rfl
      simpa using h.2
  | .once _, _, _, _, _, _, _, hf, _ => by simp [free] at hf
  | .assert _, _, _, _, _, _, _, hf, _ => by simp [free] at hf
  | .nassert _, _, _, _, _, _, _, hf, _ => by simp [free] at hf
theorem waysSeq_mat {L : Lim} : ∀ (l : List Ast) (fold last : Bool) (op : List Nat) (st t : St),
    okSeq L l fold op = true → frees l = true → Valid cfg st →
    (t ∈ waysSeq cfg l fold last st ↔ MatSeq cfg fold last l st t)
  | [], fold, last, op, st, t, _, _, _ => by
    simp only [waysSeq, List.mem_singleton]
    constructor
    · rintro rfl; exact .nil
    · intro h; cases h; rfl
  | a :: l, fold, last, op, st, t, h, hf, hv => by
    simp only [okSeq, Bool.and_eq_true] at h
    simp only [frees, Bool.and_eq_true] at hf
    simp only [waysSeq, List.mem_flatMap]
    constructor
    · rintro ⟨u, hu, ht⟩
      have hvu := (pres_ways a fold _ st hv u hu).1
      exact .cons ((ways_mat a fold _ op st u h.1 hf.1 hv).1 hu)
        ((waysSeq_mat l fold last op u t h.2 hf.2 hvu).1 ht)
    · intro h'
      cases h' with
      | cons h1 h2 =>
        have hu := (ways_mat a fold _ op st _ h.1 hf.1 hv).2 h1
        have hvu := (pres_ways a fold _ st hv _ hu).1
        exact ⟨_, hu, (waysSeq_mat l fold last op _ t h.2 hf.2 hvu).2 h2⟩
theorem waysAlt_mat {L : Lim} : ∀ (l : List Ast) (fold last : Bool) (op : List Nat) (st t : St),
    okSeq L l fold op = true → frees l = true → Valid cfg st →
    (t ∈ waysAlt cfg l fold last st ↔ ∃ a, a ∈ l ∧ Mat cfg fold last a st t)
  | [], fold, last, op, st, t, _, _, _ => by simp [waysAlt]
  | a :: l, fold, last, op, st, t, h, hf, hv => by
    simp only [okSeq, Bool.and_eq_true] at h
    simp only [frees, Bool.and_eq_true] at hf
    simp only [waysAlt, List.mem_append, List.mem_cons]
    rw [ways_mat a fold last op st t h.1 hf.1 hv, waysAlt_mat l fold last op st t h.2 hf.2 hv]
    constructor
    · rintro (h | ⟨b, h1, h2⟩)
      · exact ⟨a, Or.inl rfl, h⟩
      · exact ⟨b, Or.inr h1, h2⟩
    · rintro ⟨b, rfl | h1, h2⟩
      · exact Or.inl h2
      · exact Or.inr ⟨b, h1, h2⟩
end

end
end Gauche.Regex

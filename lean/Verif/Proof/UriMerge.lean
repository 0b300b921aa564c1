import Verif.Model.UriMerge
import Verif.Spec.UriMerge
namespace Gauche.UriMerge

/-! ## Taking texts apart -/

/-- The text is at its end or goes on with a character that is not in the set. -/
def Stop (p : Nat → Bool) (r : List Nat) : Prop := ∀ c r', r = c :: r' → p c = false

theorem tw {p : Nat → Bool} {r : List Nat} (hr : Stop p r) : ∀ (s : List Nat), (∀ c ∈ s, p c = true) →
    (s ++ r).takeWhile p = s ∧ (s ++ r).dropWhile p = r := by
  intro s
  induction s with
  | nil =>
    intro _
    cases r with
    | nil => exact ⟨rfl, rfl⟩
    | cons c r' =>
      have h := hr c r' rfl
      rw [List.nil_append, List.takeWhile_cons, List.dropWhile_cons, h]
      exact ⟨rfl, rfl⟩
  | cons a s ih =>
    intro h
    have ha := h a List.mem_cons_self
    have := ih (fun c hc => h c (List.mem_cons_of_mem _ hc))
    rw [List.cons_append, List.takeWhile_cons, List.dropWhile_cons, if_pos ha, if_pos ha, this.1, this.2]
    exact ⟨rfl, rfl⟩

theorem abs_append (l l' : List (List Nat)) : abs (l ++ l') = abs l ++ abs l' := by
  induction l with
  | nil => rfl
  | cons s l ih => rw [List.cons_append, abs, abs, ih, List.append_assoc]

theorem abs_head (l : List (List Nat)) : abs l = [] ∨ ∃ r, abs l = 47 :: r := by
  cases l with
  | nil => exact Or.inl rfl
  | cons s l => exact Or.inr ⟨_, rfl⟩

theorem abs_stop (l : List (List Nat)) : Stop (fun c => c != 47) (abs l) := by
  intro c r h
  rcases abs_head l with h' | ⟨r', h'⟩
  · rw [h'] at h; cases h
  · rw [h'] at h; cases h; rfl

theorem flatten_abs (st : List (List Nat)) : ((st.map (fun s => 47 :: s)).reverse).flatten = abs st.reverse := by
  induction st with
  | nil => rfl
  | cons s st ih => rw [List.map_cons, List.reverse_cons, List.flatten_append, ih, List.reverse_cons, abs_append]; simp [abs]

/-! ## `canonicalize` -/

def NoSlash (s : List Nat) : Prop := ∀ c ∈ s, c ≠ 47

theorem segment_abs {s : List Nat} (hs : NoSlash s) (hn : s ≠ []) (l : List (List Nat)) :
    segment (47 :: s ++ abs l) = some (47 :: s, match abs l with | [] => none | q => some q) := by
  obtain ⟨h1, h2⟩ := tw (abs_stop l) s (fun c hc => by simpa using hs c hc)
  rw [List.cons_append, segment]
  rw [h1, h2]
  cases s with
  | nil => exact absurd rfl hn
  | cons a s => rfl

theorem loop_default (n : Nat) (s : List Nat) (hs : NoSlash s) (h1 : s ≠ dot) (h2 : s ≠ dotdot) (l : List (List Nat)) (out : List Text) :
    loop (n + 1) (some (47 :: s ++ abs l)) out = match segment (47 :: s ++ abs l) with
      | some (x, rest) => loop n rest (x :: out)
      | none => loop n none ((47 :: s ++ abs l) :: out) := by
  have e : ∀ t r, s ++ abs l = t ++ r → NoSlash t → (r = [] ∨ ∃ r', r = 47 :: r') → s = t := by
    intro t r h ht hr
    have hst : Stop (fun c => c != 47) r := by
      rintro c r' rfl
      rcases hr with h | ⟨_, h⟩
      · cases h
      · cases h; rfl
    have a1 := (tw (abs_stop l) s (fun c hc => by simpa using hs c hc)).1
    have a2 := (tw hst t (fun c hc => by simpa using ht c hc)).1
    rw [h] at a1
    exact a1.symm.trans a2
  have nd : NoSlash dot := by intro c hc; simp [dot] at hc; omega
  have ndd : NoSlash dotdot := by intro c hc; simp [dotdot] at hc; omega
  rw [loop.eq_def, List.cons_append]
  dsimp only
  split
  · rename_i h; cases h
  · rename_i h; cases h
  · rename_i r h; exact absurd (e dot (47 :: r) (by rw [List.cons.inj h |>.2]; rfl) nd (Or.inr ⟨_, rfl⟩)) h1
  · rename_i h; exact absurd (e dot [] (by rw [List.cons.inj h |>.2]; rfl) nd (Or.inl rfl)) h1
  · rename_i r h; exact absurd (e dotdot (47 :: r) (by rw [List.cons.inj h |>.2]; rfl) ndd (Or.inr ⟨_, rfl⟩)) h2
  · rename_i h; exact absurd (e dotdot [] (by rw [List.cons.inj h |>.2]; rfl) ndd (Or.inl rfl)) h2
  · rename_i h; cases h
  · rename_i h; cases h
  · rfl

theorem loop_last (n : Nat) (hn : 2 ≤ n) (st : List (List Nat)) :
    loop n (some [47]) (st.map (fun s => 47 :: s)) = abs ([] :: st).reverse := by
  obtain ⟨m, rfl⟩ : ∃ m, n = m + 1 + 1 := ⟨n - 2, by omega⟩
  rw [loop, segment, List.takeWhile_nil]
  · dsimp only
    rw [loop, ← flatten_abs]
    rfl
  all_goals intros; simp_all

theorem ext_cons (s t : List Nat) (l : List (List Nat)) : ext (s :: t :: l) = s :: ext (t :: l) := by
  rw [ext, ext, List.getLast?_cons_cons]
  by_cases h : (t :: l).getLast? = some dot ∨ (t :: l).getLast? = some dotdot
  · rw [if_pos h, if_pos h]; rfl
  · rw [if_neg h, if_neg h]

theorem loop_abs : ∀ (l : List (List Nat)) (n : Nat) (st : List (List Nat)), l ≠ [] → (abs l).length + 2 ≤ n → (∀ s ∈ l, NoSlash s) →
    (∀ s ∈ l.dropLast, s ≠ []) → loop n (some (abs l)) (st.map (fun s => 47 :: s)) = abs ((ext l).foldl step st).reverse := by
  intro l
  induction l with
  | nil => intro n st h; exact absurd rfl h
  | cons s l ih =>
    intro n st _ hn hs hp
    have hs0 := hs s List.mem_cons_self
    cases l with
    | nil =>
      obtain ⟨m, rfl⟩ : ∃ m, n = m + 1 + 1 := ⟨n - 2, by omega⟩
      rw [abs] at hn ⊢
      by_cases h1 : s = dot
      · subst h1
        simp only [List.length_append, List.length_cons, dot] at hn
        have : loop (m + 1 + 1) (some (47 :: dot ++ abs [])) (st.map (fun s => 47 :: s)) = loop (m + 1) (some [47]) (st.map (fun s => 47 :: s)) := rfl
        rw [this, loop_last _ (by omega)]
        rfl
      · by_cases h2 : s = dotdot
        · subst h2
          simp only [List.length_append, List.length_cons, dotdot] at hn
          have : loop (m + 1 + 1) (some (47 :: dotdot ++ abs [])) (st.map (fun s => 47 :: s)) =
              loop (m + 1) (some [47]) (st.map (fun s => 47 :: s)).tail := rfl
          rw [this, ← List.map_tail, loop_last _ (by omega)]
          rfl
        · have he : ext [s] = [s] := by
            rw [ext, if_neg]
            simp [h1, h2]
          rw [he, List.foldl_cons, List.foldl_nil, step, if_neg h1, if_neg h2, ← flatten_abs, List.map_cons]
          by_cases h3 : s = []
          · rw [h3]
            have := loop_last (m + 1 + 1) (by omega) st
            rw [← flatten_abs] at this
            exact this
          · rw [loop_default _ s hs0 h1 h2 [], segment_abs hs0 h3]
            dsimp only [abs]
            rw [loop]
    | cons t l =>
      have hs' : ∀ x ∈ t :: l, NoSlash x := fun x hx => hs x (List.mem_cons_of_mem _ hx)
      have hp' : ∀ x ∈ (t :: l).dropLast, x ≠ [] := fun x hx => hp x (by rw [List.dropLast_cons₂]; exact List.mem_cons_of_mem _ hx)
      have hne : s ≠ [] := hp s (by rw [List.dropLast_cons₂]; exact List.mem_cons_self)
      have hlen : (abs (s :: t :: l)).length = 1 + s.length + (abs (t :: l)).length := by rw [abs]; simp; omega
      have hpos : 0 < s.length := List.length_pos_iff.2 hne
      obtain ⟨m, rfl⟩ : ∃ m, n = m + 1 := ⟨n - 1, by omega⟩
      have ih' := fun st => ih m st (by simp) (by omega) hs' hp'
      rw [ext_cons, List.foldl_cons, step]
      by_cases h1 : s = dot
      · rw [if_pos h1, ← ih']
        subst h1
        rfl
      · rw [if_neg h1]
        by_cases h2 : s = dotdot
        · rw [if_pos h2, ← ih', List.map_tail]
          subst h2
          rfl
        · rw [if_neg h2, ← ih', abs, loop_default _ s hs0 h1 h2 (t :: l), segment_abs hs0 hne]
          rfl

theorem canonicalize_abs {l : List (List Nat)} (hs : ∀ s ∈ l, NoSlash s) (hp : ∀ s ∈ l.dropLast, s ≠ []) (h0 : l ≠ []) :
    canonicalize (some (abs l)) = abs (norm l) := by
  rw [canonicalize, norm]
  exact loop_abs l _ [] h0 (by rw [Option.getD_some]; omega) hs hp

/-- Nothing after an empty segment that is not the last one is changed. -/
theorem loop_empty (post : List (List Nat)) (t : List Nat) : ∀ (l : List (List Nat)) (n : Nat) (st : List (List Nat)),
    (abs (l ++ [] :: t :: post)).length + 2 ≤ n → (∀ s ∈ l, NoSlash s) → (∀ s ∈ l, s ≠ []) →
    loop n (some (abs (l ++ [] :: t :: post))) (st.map (fun s => 47 :: s)) = abs ((l.foldl step st).reverse ++ [] :: t :: post) := by
  intro l
  induction l with
  | nil =>
    intro n st hn _ _
    obtain ⟨m, rfl⟩ : ∃ m, n = m + 1 + 1 := ⟨n - 2, by omega⟩
    have hd := loop_default (m + 1) [] (by intro c hc; cases hc) (by simp [dot]) (by simp [dotdot]) (t :: post) (st.map (fun s => 47 :: s))
    have hseg : segment (47 :: [] ++ abs (t :: post)) = none := rfl
    rw [hseg] at hd
    dsimp only at hd
    rw [loop] at hd
    rw [List.nil_append, abs, hd, abs_append, List.foldl_nil, List.reverse_cons, List.flatten_append, flatten_abs]
    simp [abs]
  | cons s l ih =>
    intro n st hn hs hp
    have hs0 := hs s List.mem_cons_self
    have hne := hp s List.mem_cons_self
    have hpos : 0 < s.length := List.length_pos_iff.2 hne
    have hlen : (abs (s :: l ++ [] :: t :: post)).length = 1 + s.length + (abs (l ++ [] :: t :: post)).length := by
      rw [List.cons_append, abs]; simp; omega
    obtain ⟨m, rfl⟩ : ∃ m, n = m + 1 := ⟨n - 1, by omega⟩
    have ih' := fun st => ih m st (by omega) (fun x hx => hs x (List.mem_cons_of_mem _ hx)) (fun x hx => hp x (List.mem_cons_of_mem _ hx))
    obtain ⟨r, hr⟩ : ∃ r, abs (l ++ [] :: t :: post) = 47 :: r := by
      rcases abs_head (l ++ [] :: t :: post) with h | h
      · cases l <;> simp [abs] at h
      · exact h
    rw [List.foldl_cons, step, List.cons_append]
    by_cases h1 : s = dot
    · rw [if_pos h1, ← ih', abs, hr]
      subst h1
      rfl
    · rw [if_neg h1]
      by_cases h2 : s = dotdot
      · rw [if_pos h2, ← ih', List.map_tail, abs, hr]
        subst h2
        rfl
      · rw [if_neg h2, ← ih', abs, loop_default _ s hs0 h1 h2 (l ++ [] :: t :: post), segment_abs hs0 hne, hr]
        rfl

/-! ## Normalized paths -/

theorem ext_decomp {l : List (List Nat)} (h : l ≠ []) : ∃ i x, ext l = i ++ [x] ∧ x ≠ dot ∧ x ≠ dotdot ∧ (x = [] ∨ x ∈ l) ∧ (∀ s ∈ i, s ∈ l) ∧
    ((∀ s ∈ l.dropLast, s ≠ []) → ∀ s ∈ i, s ≠ []) := by
  rw [ext]
  have hl := List.dropLast_concat_getLast h
  have hg := List.getLast?_eq_some_getLast h
  by_cases hd : l.getLast? = some dot ∨ l.getLast? = some dotdot
  · rw [if_pos hd]
    refine ⟨l, [], rfl, by simp [dot], by simp [dotdot], Or.inl rfl, fun s hs => hs, fun hp s hs => ?_⟩
    rw [← hl] at hs
    rcases List.mem_append.1 hs with hs | hs
    · exact hp s hs
    · rw [List.mem_singleton] at hs
      rw [hs]
      rw [hg] at hd
      rcases hd with e | e <;> (rw [Option.some.inj e]; simp [dot, dotdot])
  · rw [if_neg hd]
    rw [hg] at hd
    refine ⟨l.dropLast, l.getLast h, hl.symm, fun e => hd (Or.inl (by rw [e])), fun e => hd (Or.inr (by rw [e])), Or.inr (List.getLast_mem h),
      fun s hs => List.dropLast_subset _ hs, fun hp => hp⟩

theorem foldl_step_mem : ∀ (l st : List (List Nat)) (s : List Nat), s ∈ l.foldl step st → s ∈ st ∨ (s ∈ l ∧ s ≠ dot ∧ s ≠ dotdot) := by
  intro l
  induction l with
  | nil => intro st s h; exact Or.inl h
  | cons a l ih =>
    intro st s h
    rw [List.foldl_cons] at h
    rcases ih _ s h with h | h
    · rw [step] at h
      by_cases h1 : a = dot
      · rw [if_pos h1] at h; exact Or.inl h
      · rw [if_neg h1] at h
        by_cases h2 : a = dotdot
        · rw [if_pos h2] at h; exact Or.inl (List.mem_of_mem_tail h)
        · rw [if_neg h2] at h
          rcases List.mem_cons.1 h with rfl | h
          · exact Or.inr ⟨List.mem_cons_self, h1, h2⟩
          · exact Or.inl h
    · exact Or.inr ⟨List.mem_cons_of_mem _ h.1, h.2⟩

theorem norm_decomp {l : List (List Nat)} (h : l ≠ []) : ∃ i x, norm l = i ++ [x] ∧ (x = [] ∨ x ∈ l) ∧ (∀ s ∈ i, s ∈ l) ∧
    (∀ s ∈ norm l, s ≠ dot ∧ s ≠ dotdot) ∧ ((∀ s ∈ l.dropLast, s ≠ []) → ∀ s ∈ i, s ≠ []) := by
  obtain ⟨i, x, he, h1, h2, hx, hi, hp⟩ := ext_decomp h
  have hn : norm l = (i.foldl step []).reverse ++ [x] := by
    rw [norm, he, List.foldl_append, List.foldl_cons, List.foldl_nil, step, if_neg h1, if_neg h2, List.reverse_cons]
  have hm : ∀ s ∈ (i.foldl step []).reverse, s ∈ i ∧ s ≠ dot ∧ s ≠ dotdot := by
    intro s hs
    rcases foldl_step_mem i [] s (List.mem_reverse.1 hs) with h | h
    · cases h
    · exact h
  refine ⟨_, x, hn, hx, fun s hs => hi s (hm s hs).1, ?_, fun hl s hs => hp hl s (hm s hs).1⟩
  intro s hs
  rw [hn] at hs
  rcases List.mem_append.1 hs with hs | hs
  · exact (hm s hs).2
  · rw [List.mem_singleton] at hs; rw [hs]; exact ⟨h1, h2⟩

theorem norm_nil : norm [] = [] := rfl

theorem norm_ne {l : List (List Nat)} (h : l ≠ []) : norm l ≠ [] := by
  obtain ⟨i, x, hn, _⟩ := norm_decomp h
  rw [hn]; simp

theorem norm_nodot (l : List (List Nat)) : ∀ s ∈ norm l, s ≠ dot ∧ s ≠ dotdot := by
  by_cases h : l = []
  · rw [h]; intro s hs; cases hs
  · obtain ⟨i, x, _, _, _, hd, _⟩ := norm_decomp h; exact hd

theorem foldl_nodot : ∀ (l st : List (List Nat)), (∀ s ∈ l, s ≠ dot ∧ s ≠ dotdot) → l.foldl step st = l.reverse ++ st := by
  intro l
  induction l with
  | nil => intro st _; rfl
  | cons a l ih =>
    intro st h
    have ha := h a List.mem_cons_self
    rw [List.foldl_cons, step, if_neg ha.1, if_neg ha.2, ih _ (fun s hs => h s (List.mem_cons_of_mem _ hs))]
    simp

theorem norm_of_nodot {l : List (List Nat)} (h : ∀ s ∈ l, s ≠ dot ∧ s ≠ dotdot) : norm l = l := by
  have : ext l = l := by
    rw [ext, if_neg]
    rintro (e | e)
    · exact (h _ (List.mem_of_getLast? e)).1 rfl
    · exact (h _ (List.mem_of_getLast? e)).2 rfl
  rw [norm, this, foldl_nodot l [] h]
  simp

theorem norm_norm (l : List (List Nat)) : norm (norm l) = norm l := norm_of_nodot (norm_nodot l)

theorem norm_good {l : List (List Nat)} (h : GoodSegs l) : GoodSegs (norm l) := by
  by_cases h0 : l = []
  · rw [h0]; exact ⟨fun s hs => (by cases hs), fun s hs => (by cases hs)⟩
  · obtain ⟨i, x, hn, hx, hi, _, hp⟩ := norm_decomp h0
    rw [hn]
    constructor
    · intro s hs
      rcases List.mem_append.1 hs with hs | hs
      · exact h.1 s (hi s hs)
      · rw [List.mem_singleton] at hs
        rw [hs]
        rcases hx with e | e
        · rw [e]; intro c hc; cases hc
        · exact h.1 x e
    · rw [List.dropLast_concat]
      exact hp h.2

theorem good_append {l : List (List Nat)} {s : List Nat} {l' : List (List Nat)} (h : GoodSegs l) (h' : GoodSegs (s :: l')) :
    GoodSegs (l.dropLast ++ s :: l') := by
  constructor
  · intro x hx
    rcases List.mem_append.1 hx with hx | hx
    · exact h.1 x (List.dropLast_subset _ hx)
    · exact h'.1 x hx
  · intro x hx
    rw [List.dropLast_append_of_ne_nil (by simp)] at hx
    rcases List.mem_append.1 hx with hx | hx
    · exact h.2 x hx
    · exact h'.2 x hx

theorem good_noSlash {l : List (List Nat)} (h : GoodSegs l) : ∀ s ∈ l, NoSlash s := fun s hs c hc => (h.1 s hs c hc).1

theorem canon_good {l : List (List Nat)} (h : GoodSegs l) (h0 : l ≠ []) : canonicalize (some (abs l)) = abs (norm l) :=
  canonicalize_abs (good_noSlash h) h.2 h0

/-! ## `merge` -/

theorem merge_abs {l : List (List Nat)} (hl : ∀ s ∈ l, NoSlash s) (h0 : l ≠ []) (t : Text) (auth : Option Text) :
    merge (abs l) t auth = abs l.dropLast ++ 47 :: t := by
  have e : abs l = abs l.dropLast ++ (47 :: l.getLast h0) := by
    conv => lhs; rw [← List.dropLast_concat_getLast h0, abs_append]
    simp [abs]
  have hne : (abs l).isEmpty = false := by rw [e]; simp
  have hlast : NoSlash (l.getLast h0) := hl _ (List.getLast_mem h0)
  rw [merge, hne, Bool.and_false, if_neg (by simp), e, List.reverse_append, List.reverse_cons, List.append_assoc]
  have := tw (p := fun c => c != 47) (r := [47] ++ (abs l.dropLast).reverse) (by intro c r h; cases h; rfl) (l.getLast h0).reverse
    (fun c hc => by simpa using hlast c (List.mem_reverse.1 hc))
  rw [this.2]
  simp

/-! ## Splitting -/

/-- The text goes on with a question mark or a number sign, or is at its end. -/
def Tail (r : List Nat) : Prop := ∀ c r', r = c :: r' → c = 63 ∨ c = 35

theorem tail_opt (q f : Option (List Nat)) : Tail (opt [63] q [] ++ opt [35] f []) := by
  intro c r h
  cases q with
  | some q => simp [opt] at h; omega
  | none =>
    cases f with
    | some f => simp [opt] at h; omega
    | none => cases h

theorem query_split {q f : Option (List Nat)} (hq : ∀ t, q = some t → ∀ c ∈ t, c ≠ 35) :
    queryOf (opt [63] q [] ++ opt [35] f []) = (q, opt [35] f []) := by
  cases q with
  | none =>
    cases f with
    | none => rfl
    | some f => rfl
  | some t =>
    have hst : Stop queryChar (opt [35] f []) := by
      intro c r h
      cases f with
      | none => cases h
      | some f => simp [opt] at h; rw [← h.1]; rfl
    obtain ⟨h1, h2⟩ := tw hst t (fun c hc => by simpa [queryChar] using hq t rfl c hc)
    have e : opt [63] (some t) [] ++ opt [35] f [] = 63 :: (t ++ opt [35] f []) := by simp [opt]
    rw [e, queryOf, h1, h2]

theorem frag_split (f : Option (List Nat)) : fragOf (opt [35] f []) = f := by
  cases f with
  | none => rfl
  | some f => simp [opt, fragOf]

theorem path_split {p r : List Nat} (hp : ∀ c ∈ p, c ≠ 63 ∧ c ≠ 35) (hr : Tail r) :
    pathOf (p ++ r) = (if p = [] then none else some p, r) := by
  have hst : Stop pathChar r := by
    intro c r' h
    rcases hr c r' h with e | e <;> (rw [e]; rfl)
  obtain ⟨h1, h2⟩ := tw hst p (fun c hc => by have := hp c hc; simp [pathChar, this])
  rw [pathOf, h1]
  cases p with
  | nil => rfl
  | cons c p => rw [if_neg (by simp)]; dsimp only; rw [h2]

theorem auth_split {a : Option (List Nat)} {r : List Nat} (ha : ∀ t, a = some t → ∀ c ∈ t, c ≠ 47 ∧ c ≠ 63 ∧ c ≠ 35)
    (h1 : a.isSome → Stop authChar r) (h2 : a = none → ∀ r', r ≠ 47 :: 47 :: r') : authOf (opt [47, 47] a [] ++ r) = (a, r) := by
  cases a with
  | none =>
    rw [opt, List.nil_append, authOf.eq_def]
    split
    · rename_i r'; exact absurd rfl (h2 rfl r')
    · rfl
  | some t =>
    obtain ⟨e1, e2⟩ := tw (h1 rfl) t (fun c hc => by have := ha t rfl c hc; simp [authChar, this])
    have e : opt [47, 47] (some t) [] ++ r = 47 :: 47 :: (t ++ r) := by simp [opt]
    rw [e, authOf, e1, e2]

theorem path_chars {u : Uri} (h : u.Valid) : ∀ c ∈ u.path.text, c ≠ 63 ∧ c ≠ 35 := by
  have aux : ∀ l : List (List Nat), (∀ s ∈ l, ∀ c ∈ s, c ≠ 47 ∧ c ≠ 63 ∧ c ≠ 35) → ∀ c ∈ abs l, c ≠ 63 ∧ c ≠ 35 := by
    intro l
    induction l with
    | nil => intro _ c hc; cases hc
    | cons s l ih =>
      intro hs c hc
      rw [abs] at hc
      rcases List.mem_append.1 hc with hc | hc
      · rcases List.mem_cons.1 hc with rfl | hc
        · decide
        · exact (hs s List.mem_cons_self c hc).2
      · exact ih (fun x hx => hs x (List.mem_cons_of_mem _ hx)) c hc
  cases hp : u.path with
  | abs l => exact aux l (h.pathAbs l hp).1
  | rel s l =>
    obtain ⟨_, _, _, hg, _⟩ := h.pathRel s l hp
    intro c hc
    rw [Path.text] at hc
    rcases List.mem_append.1 hc with hc | hc
    · exact (hg.1 s List.mem_cons_self c hc).2
    · exact aux l (fun x hx => hg.1 x (List.mem_cons_of_mem _ hx)) c hc

/-- What comes after the scheme. -/
def Uri.specific (u : Uri) : List Nat := opt [47, 47] u.auth [] ++ (u.path.text ++ (opt [63] u.query [] ++ opt [35] u.frag []))

theorem decompose_specific {u : Uri} (h : u.Valid) : decompose u.specific =
    ⟨u.auth, if u.path.text = [] then none else some u.path.text, u.query, u.frag⟩ := by
  have ht := tail_opt u.query u.frag
  have h1 : authOf u.specific = (u.auth, u.path.text ++ (opt [63] u.query [] ++ opt [35] u.frag [])) := by
    refine auth_split h.auth ?_ ?_
    · intro ha c r e
      cases hp : u.path with
      | rel s l => rw [(h.pathRel s l hp).2.1] at ha; cases ha
      | abs l =>
        rw [hp, Path.text] at e
        rcases abs_head l with h' | ⟨r', h'⟩
        · rw [h', List.nil_append] at e
          rcases ht c r e with e | e <;> (rw [e]; rfl)
        · rw [h'] at e; cases e; rfl
    · intro ha r e
      cases hp : u.path with
      | rel s l =>
        obtain ⟨_, _, hs, hg, _⟩ := h.pathRel s l hp
        rw [hp, Path.text] at e
        cases s with
        | nil => exact hs rfl
        | cons a s =>
          have e : a = 47 := (List.cons.inj e).1
          exact (hg.1 _ List.mem_cons_self a List.mem_cons_self).1 e
      | abs l =>
        have hg := h.pathAbs l hp
        rw [hp, Path.text] at e
        cases l with
        | nil => rw [abs, List.nil_append] at e; have := ht 47 _ e; omega
        | cons s l =>
          rw [abs] at e
          cases s with
          | cons a s => cases e; exact (hg.1 _ List.mem_cons_self 47 List.mem_cons_self).1 rfl
          | nil =>
            cases l with
            | nil =>
              have e' := (List.cons.inj e).2
              have := ht 47 r e'
              omega
            | cons t l => exact hg.2 [] (by rw [List.dropLast_cons₂]; exact List.mem_cons_self) rfl
  rw [decompose, h1]
  dsimp only
  rw [path_split (path_chars h) ht]
  dsimp only
  rw [query_split h.query]
  dsimp only
  rw [frag_split]

theorem no58 {Y : List Nat} (hY : Stop isScheme Y) (h58 : ∀ r, Y ≠ 58 :: r) : ∀ (s : List Nat), (∀ c ∈ s, c ≠ 58) →
    ∀ r, (s ++ Y).dropWhile isScheme ≠ 58 :: r := by
  intro s
  induction s with
  | nil =>
    intro _ r h
    cases Y with
    | nil => cases h
    | cons c Y =>
      rw [List.nil_append, List.dropWhile_cons, hY c Y rfl, if_neg (by simp)] at h
      exact h58 r h
  | cons a s ih =>
    intro hs r h
    rw [List.cons_append, List.dropWhile_cons] at h
    by_cases ha : isScheme a = true
    · rw [if_pos ha] at h
      exact ih (fun c hc => hs c (List.mem_cons_of_mem _ hc)) r h
    · rw [if_neg ha] at h
      exact hs a List.mem_cons_self (List.cons.inj h).1

theorem downcase_id {s : List Nat} (h : ∀ c ∈ s, (97 ≤ c ∧ c ≤ 122) ∨ (48 ≤ c ∧ c ≤ 57) ∨ c = 43 ∨ c = 46 ∨ c = 45) : downcase s = s := by
  induction s with
  | nil => rfl
  | cons a s ih =>
    have ha := h a List.mem_cons_self
    have := ih (fun c hc => h c (List.mem_cons_of_mem _ hc))
    rw [downcase, List.map_cons, if_neg (by omega)]
    rw [downcase] at this
    rw [this]

theorem isScheme_of {c : Nat} (h : (97 ≤ c ∧ c ≤ 122) ∨ (48 ≤ c ∧ c ≤ 57) ∨ c = 43 ∨ c = 46 ∨ c = 45) : isScheme c = true := by
  simp [isScheme, isAlpha]
  omega

theorem scheme_split {u : Uri} (h : u.Valid) : schemeSpecific u.text = (u.scheme, u.specific) := by
  cases hs : u.scheme with
  | some s =>
    obtain ⟨⟨c, s', e, hc⟩, hall⟩ := h.scheme s hs
    have et : u.text = s ++ 58 :: u.specific := by rw [Uri.text, hs, Uri.specific]; simp [opt]
    obtain ⟨t1, t2⟩ := tw (p := isScheme) (r := 58 :: u.specific) (by intro c r h; cases h; rfl) s (fun c hc => isScheme_of (hall c hc))
    have hal : isAlpha c = true := by simp [isAlpha]; omega
    rw [et]
    have e2 : s ++ 58 :: u.specific = c :: (s' ++ 58 :: u.specific) := by rw [e]; rfl
    rw [schemeSpecific.eq_def]
    rw [t1, t2, downcase_id hall]
    rw [e2]
    dsimp only
    rw [if_pos hal]
    rfl
  | none =>
    have et : u.text = u.specific := by rw [Uri.text, hs, Uri.specific]; rfl
    rw [et]
    have key : ∀ X : List Nat, (∀ c r, X = c :: r → isAlpha c = true → ∀ r', X.dropWhile isScheme ≠ 58 :: r') → schemeSpecific X = (none, X) := by
      intro X hX
      cases X with
      | nil => rfl
      | cons c r =>
        rw [schemeSpecific]
        by_cases hc : isAlpha c = true
        · rw [if_pos hc]
          split
          · rename_i r' e; exact absurd e (hX c r rfl hc r')
          · rfl
        · rw [if_neg hc]
    refine key _ ?_
    intro c r e hc r'
    have ht := tail_opt u.query u.frag
    have hsep : c = 47 ∨ c = 63 ∨ c = 35 → False := by rintro (h | h | h) <;> (rw [h] at hc; cases hc)
    rw [Uri.specific] at e ⊢
    cases ha : u.auth with
    | some a => rw [ha] at e; simp [opt] at e; exact absurd (Or.inl e.1.symm) hsep
    | none =>
      rw [ha] at e
      rw [opt, List.nil_append] at e ⊢
      cases hp : u.path with
      | abs l =>
        rw [hp, Path.text] at e
        rcases abs_head l with h' | ⟨r2, h'⟩
        · rw [h', List.nil_append] at e
          exact absurd (Or.inr (ht c r e)) hsep
        · rw [h'] at e; cases e; exact absurd (Or.inl rfl) hsep
      | rel s l =>
        obtain ⟨_, _, _, _, h58⟩ := h.pathRel s l hp
        rw [Path.text, List.append_assoc]
        have hd : ∀ c r, abs l ++ (opt [63] u.query [] ++ opt [35] u.frag []) = c :: r → c = 47 ∨ c = 63 ∨ c = 35 := by
          intro c r e
          rcases abs_head l with h' | ⟨r2, h'⟩
          · rw [h', List.nil_append] at e; exact Or.inr (ht c r e)
          · rw [h'] at e; cases e; exact Or.inl rfl
        refine no58 ?_ ?_ s h58 r'
        · intro c r e
          rcases hd c r e with h | h | h <;> (rw [h]; rfl)
        · intro r e
          rcases hd 58 r e with h | h | h <;> cases h

/-! ## `uri-merge` -/

theorem recompose_eq (u : Uri) : recompose u.scheme u.auth u.path.text u.query u.frag = u.text := by
  rw [recompose, Uri.text]
  have : ∀ a x b, part a x b = opt a x b := fun a x b => by cases x <;> rfl
  simp only [this, List.append_assoc]

theorem canon_none : canonicalize none = [] := rfl

/-- The normalized path of the base: with `initial` it is computed, and otherwise the path is there and is normalized. -/
theorem merge1_target {base ref : Uri} (hb : base.Valid) (hr : ref.Valid) {bs : List (List Nat)} (hbs : base.path = .abs bs) (initial : Bool)
    (h1 : bs ≠ [] ∨ base.auth.isSome) (h2 : initial = false → bs ≠ [] ∧ norm bs = bs) :
    merge1 base.text ref.text initial = some (target base bs ref).text := by
  have hgb := hb.pathAbs bs hbs
  have absnil : ∀ l, abs l = [] ↔ l = [] := by
    intro l
    cases l with
    | nil => simp [abs]
    | cons s l => simp [abs]
  have hbp : (if initial = true then some (canonicalize (if base.path.text = [] then none else some base.path.text))
      else if base.path.text = [] then none else some base.path.text) = some (abs (norm bs)) := by
    rw [hbs, Path.text]
    cases initial with
    | true =>
      rw [if_pos rfl]
      by_cases h0 : bs = []
      · rw [h0]; rfl
      · rw [if_neg (fun h => h0 ((absnil _).1 h)), canon_good hgb h0]
    | false =>
      obtain ⟨h0, hn⟩ := h2 rfl
      rw [if_neg (by simp), if_neg (fun h => h0 ((absnil _).1 h)), hn]
  have hcr : ∀ l, ref.path = .abs l → canonicalize (if ref.path.text = [] then none else some ref.path.text) = abs (norm l) := by
    intro l hl
    rw [hl, Path.text]
    by_cases h0 : l = []
    · rw [h0]; rfl
    · rw [if_neg (fun h => h0 ((absnil _).1 h)), canon_good (hr.pathAbs l hl) h0]
  have hpath : (if ref.scheme.isSome || ref.auth.isSome then some (canonicalize (if ref.path.text = [] then none else some ref.path.text))
      else match (if ref.path.text = [] then none else some ref.path.text) with
        | none => some ((some (abs (norm bs))).getD [35, 102])
        | some p => if [47].isPrefixOf p then some (canonicalize (some p))
          else (some (abs (norm bs))).map (fun q => canonicalize (some (merge q p base.auth)))) = some (abs (targetPath bs ref)) := by
    cases hp : ref.path with
    | abs l =>
      have hc := hcr l hp
      rw [hp] at hc
      rw [hc, targetPath, hp]
      cases l with
      | nil =>
        dsimp only
        by_cases hsa : ref.scheme.isSome = true ∨ ref.auth.isSome = true
        · rw [if_pos hsa, if_pos (by simpa using hsa)]; rfl
        · rw [if_neg hsa, if_neg (by simpa using hsa)]
          rfl
      | cons s l =>
        dsimp only
        have hne : (Path.abs (s :: l)).text ≠ [] := by simp [Path.text, abs]
        by_cases hsa : (ref.scheme.isSome || ref.auth.isSome) = true
        · rw [if_pos hsa]
        · rw [if_neg hsa, if_neg hne]
          have : [47].isPrefixOf (Path.abs (s :: l)).text = true := by simp [Path.text, abs]
          dsimp only
          rw [if_pos this]
          rw [if_neg hne] at hc
          rw [hc]
    | rel s l =>
      obtain ⟨e1, e2, hs, hg, _⟩ := hr.pathRel s l hp
      have hne : (Path.rel s l).text ≠ [] := by simp [Path.text, hs]
      have hpre : [47].isPrefixOf (Path.rel s l).text = false := by
        cases s with
        | nil => exact absurd rfl hs
        | cons a s =>
          have := (hg.1 _ List.mem_cons_self a List.mem_cons_self).1
          simp [Path.text, List.isPrefixOf]
          omega
      rw [e1, e2, if_neg (by simp), if_neg hne, targetPath, hp]
      dsimp only
      rw [if_neg (by rw [hpre]; simp), Option.map_some]
      have hm : merge (abs (norm bs)) (Path.rel s l).text base.auth = abs ((norm bs).dropLast ++ s :: l) := by
        by_cases h0 : bs = []
        · have ha : base.auth.isSome = true := by
            rcases h1 with h | h
            · exact absurd h0 h
            · exact h
          rw [h0, norm_nil, abs, merge, ha, if_pos (by rfl)]
          rfl
        · rw [merge_abs (good_noSlash (norm_good hgb)) (norm_ne h0), abs_append]
          rfl
      rw [hm, canon_good (good_append (norm_good hgb) hg) (by simp)]
  rw [merge1, scheme_split hb, scheme_split hr]
  dsimp only
  rw [decompose_specific hb, decompose_specific hr]
  dsimp only
  rw [hbp]
  refine (congrArg (Option.map _) hpath).trans ?_
  rw [Option.map_some, ← recompose_eq]
  congr 1
  rw [target]
  dsimp only
  rw [Path.text]
  congr 1
  · cases ref.scheme <;> rfl
  · cases ref.scheme <;> cases ref.auth <;> rfl
  · cases ref.scheme <;> cases ref.auth <;> cases ref.query <;> by_cases h : ref.path.text = [] <;> simp [h]

/-- The target is well-formed. -/
theorem target_valid {base ref : Uri} (hb : base.Valid) (hr : ref.Valid) {bs : List (List Nat)} (hbs : base.path = .abs bs) :
    (target base bs ref).Valid where
  scheme := by
    intro s hs
    rw [target] at hs
    dsimp only at hs
    by_cases h : ref.scheme.isSome = true
    · rw [if_pos h] at hs; exact hr.scheme s hs
    · rw [if_neg h] at hs; exact hb.scheme s hs
  auth := by
    intro s hs
    rw [target] at hs
    dsimp only at hs
    by_cases h : ref.scheme.isSome = true ∨ ref.auth.isSome = true
    · rw [if_pos h] at hs; exact hr.auth s hs
    · rw [if_neg h] at hs; exact hb.auth s hs
  query := by
    intro q hq
    rw [target] at hq
    dsimp only at hq
    split at hq
    · exact hb.query q hq
    · exact hr.query q hq
  pathAbs := by
    intro l hl
    rw [target] at hl
    have hl : targetPath bs ref = l := by injection hl
    have hgb := hb.pathAbs bs hbs
    rw [← hl, targetPath]
    cases hp : ref.path with
    | rel s l =>
      obtain ⟨_, _, _, hg, _⟩ := hr.pathRel s l hp
      exact norm_good (good_append (norm_good hgb) hg)
    | abs l =>
      cases l with
      | nil =>
        dsimp only
        split
        · exact hr.pathAbs [] hp
        · exact norm_good hgb
      | cons s l => exact norm_good (hr.pathAbs _ hp)
  pathRel := by
    intro s l h
    rw [target] at h
    cases h

end Gauche.UriMerge

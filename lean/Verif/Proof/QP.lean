import Verif.Model.QP
import Verif.Spec.QP
namespace Gauche.QP

theorem digit_hexU {n : Nat} (h : n < 16) : digit (hexU n) = some n := by
  have : ∀ n < 16, digit (hexU n) = some n := by decide
  exact this n h

theorem hexU_props {n : Nat} (h : n < 16) : hexU n ≠ 10 ∧ hexU n ≠ 13 ∧ hexU n ≠ 9 ∧ hexU n ≠ 32 ∧ 33 ≤ hexU n ∧ hexU n ≤ 126 ∧ hexU n ≠ 61 := by
  have : ∀ n < 16, hexU n ≠ 10 ∧ hexU n ≠ 13 ∧ hexU n ≠ 9 ∧ hexU n ≠ 32 ∧ 33 ≤ hexU n ∧ hexU n ≤ 126 ∧ hexU n ≠ 61 := by decide
  exact this n h

variable {wc : Nat → List Nat}

theorem dec_soft (n : Nat) (t : List Nat) : dec wc (n + 1) (61 :: 13 :: 10 :: t) = dec wc n t := by
  rw [dec.eq_def]; simp

theorem dec_hex (n a b : Nat) (ha : a < 16) (hb : b < 16) (t : List Nat) :
    dec wc (n + 1) (61 :: hexU a :: hexU b :: t) = (dec wc n t).map (fun r => (a * 16 + b) :: r) := by
  obtain ⟨h1, h2, h3, h4, _⟩ := hexU_props ha
  rw [dec.eq_def]
  simp [h1, h2, h3, h4, digit_hexU ha, digit_hexU hb]

theorem dec_char (n c : Nat) (hc : c ≠ 61) (t : List Nat) : dec wc (n + 1) (c :: t) = (dec wc n t).map (fun r => wc c ++ r) := by
  rw [dec.eq_def]; simp [hc]

theorem dec_pre {limit : Option Nat} {lcnt n : Nat} {t : List Nat} (h : ((if atLimit limit lcnt then [61, 13, 10] else []) ++ t).length ≤ n) :
    ∃ n', t.length ≤ n' ∧ dec wc n ((if atLimit limit lcnt then [61, 13, 10] else []) ++ t) = dec wc n' t := by
  by_cases ha : atLimit limit lcnt = true
  · rw [if_pos ha] at h ⊢
    obtain ⟨n, rfl⟩ : ∃ k, n = k + 1 := ⟨n - 1, by simp at h; omega⟩
    refine ⟨n, by simp at h; omega, dec_soft n t⟩
  · rw [if_neg ha] at h ⊢
    exact ⟨n, by simpa using h, rfl⟩

theorem dec_crlf (hwc : ∀ c, c < 128 → wc c = [c]) {n : Nat} {t : List Nat} (h : t.length + 2 ≤ n) :
    ∃ n', t.length ≤ n' ∧ dec wc n (13 :: 10 :: t) = (dec wc n' t).map (fun r => 13 :: 10 :: r) := by
  obtain ⟨n, rfl⟩ : ∃ k, n = k + 2 := ⟨n - 2, by omega⟩
  refine ⟨n, by omega, ?_⟩
  rw [dec_char _ 13 (by omega), dec_char _ 10 (by omega), hwc 13 (by omega), hwc 10 (by omega)]
  cases dec wc n t <;> rfl

/-- What decoding gives for what was encoded. -/
def expected (binary : Bool) (l : List Nat) : List Nat := if binary then l else norm l

theorem dec_enc (hwc : ∀ c, c < 128 → wc c = [c]) (limit : Option Nat) (binary : Bool) : ∀ (k : Nat) (l : List Nat), l.length ≤ k →
    (∀ c ∈ l, c < 256) → ∀ (lcnt : Nat) (t : List Nat), enc limit binary l lcnt = some t →
    ∀ n, t.length ≤ n → dec wc n t = some (expected binary l) := by
  intro k
  induction k with
  | zero =>
    intro l hl _ lcnt t h n _
    have : l = [] := List.length_eq_zero_iff.1 (by omega)
    subst this
    rw [enc] at h; cases h
    cases binary <;> cases n <;> simp [dec, expected, norm]
  | succ k ih =>
    intro l hl hb lcnt t h n hn
    cases l with
    | nil =>
      rw [enc] at h; cases h
      cases binary <;> cases n <;> simp [dec, expected, norm]
    | cons c l =>
      have hc := hb c List.mem_cons_self
      have hb' : ∀ c ∈ l, c < 256 := fun x h => hb x (List.mem_cons_of_mem _ h)
      simp only [List.length_cons] at hl
      rw [enc.eq_def] at h
      dsimp only at h
      by_cases h1 : (binary && (decide (c = 10) || decide (c = 13))) = true
      · rw [if_pos h1] at h
        simp only [Bool.and_eq_true, Bool.or_eq_true, decide_eq_true_eq] at h1
        obtain ⟨u, hu, rfl⟩ := Option.map_eq_some_iff.1 h
        rw [List.append_assoc] at hn ⊢
        obtain ⟨n', hn', e⟩ := dec_pre (wc := wc) hn
        rw [e]
        simp only [List.cons_append, List.nil_append, List.length_cons] at hn' ⊢
        obtain ⟨m, rfl⟩ : ∃ m, n' = m + 1 := ⟨n' - 1, by omega⟩
        have e0 : (48 : Nat) = hexU 0 := rfl
        rw [e0, dec_hex m 0 c (by omega) (by omega), ih l (by omega) hb' _ _ hu m (by omega)]
        simp [expected, h1.1]
      · rw [if_neg h1] at h
        by_cases h2 : c = 13
        · subst h2
          have hbin : binary = false := by simpa using h1
          subst hbin
          rw [if_pos rfl] at h
          cases l with
          | nil => cases h
          | cons c1 l =>
            dsimp only at h
            by_cases h3 : c1 = 10
            · rw [if_pos h3] at h
              obtain ⟨u, hu, rfl⟩ := Option.map_eq_some_iff.1 h
              rw [List.append_assoc] at hn ⊢
              obtain ⟨n', hn', e⟩ := dec_pre (wc := wc) hn
              rw [e]
              simp only [List.cons_append, List.nil_append, List.length_cons] at hn' ⊢
              obtain ⟨m, hm, e⟩ := dec_crlf (t := u) (n := n') hwc (by omega)
              rw [e, ih l (by simp only [List.length_cons] at hl; omega) (fun x h => hb' x (List.mem_cons_of_mem _ h)) _ _ hu m hm]
              simp [expected, norm, h3]
            · rw [if_neg h3] at h
              obtain ⟨u, hu, rfl⟩ := Option.map_eq_some_iff.1 h
              rw [List.append_assoc] at hn ⊢
              obtain ⟨n', hn', e⟩ := dec_pre (wc := wc) hn
              rw [e]
              simp only [List.cons_append, List.nil_append, List.length_cons] at hn' ⊢
              obtain ⟨m, hm, e⟩ := dec_crlf (t := u) (n := n') hwc (by omega)
              rw [e, ih (c1 :: l) (by simp only [List.length_cons] at hl ⊢; omega) hb' _ _ hu m hm]
              have : norm (13 :: c1 :: l) = 13 :: 10 :: norm (c1 :: l) := by
                conv => lhs; rw [norm.eq_def]
                simp [h3]
              simp [expected, this]
        · rw [if_neg h2] at h
          by_cases h3 : c = 10
          · subst h3
            have hbin : binary = false := by simpa using h1
            subst hbin
            rw [if_pos rfl] at h
            obtain ⟨u, hu, rfl⟩ := Option.map_eq_some_iff.1 h
            rw [List.append_assoc] at hn ⊢
            obtain ⟨n', hn', e⟩ := dec_pre (wc := wc) hn
            rw [e]
            simp only [List.cons_append, List.nil_append, List.length_cons] at hn' ⊢
            obtain ⟨m, hm, e⟩ := dec_crlf (t := u) (n := n') hwc (by omega)
            rw [e, ih l (by omega) hb' _ _ hu m hm]
            have : norm (10 :: l) = 13 :: 10 :: norm l := by rw [norm.eq_def]; simp
            simp [expected, this]
          · rw [if_neg h3] at h
            have hexp : expected binary (c :: l) = c :: expected binary l := by
              have : norm (c :: l) = c :: norm l := by rw [norm.eq_def]; simp [h2, h3]
              cases binary
              · exact this
              · rfl
            rw [hexp]
            by_cases h4 : (decide (32 < c) && decide (c < 61) || decide (c = 62) || decide (63 < c) && decide (c < 127)) = true
            · rw [if_pos h4] at h
              have hc' : c < 128 ∧ c ≠ 61 := by simp at h4; omega
              obtain ⟨u, hu, rfl⟩ := Option.map_eq_some_iff.1 h
              rw [List.append_assoc] at hn ⊢
              obtain ⟨n', hn', e⟩ := dec_pre (wc := wc) hn
              rw [e]
              simp only [List.cons_append, List.nil_append, List.length_cons] at hn' ⊢
              obtain ⟨m, rfl⟩ : ∃ m, n' = m + 1 := ⟨n' - 1, by omega⟩
              rw [dec_char m c hc'.2, hwc c hc'.1, ih l (by omega) hb' _ _ hu m (by omega)]
              rfl
            · rw [if_neg h4] at h
              obtain ⟨u, hu, rfl⟩ := Option.map_eq_some_iff.1 h
              rw [List.append_assoc] at hn ⊢
              obtain ⟨n', hn', e⟩ := dec_pre (wc := wc) hn
              rw [e]
              simp only [List.cons_append, List.nil_append, List.length_cons] at hn' ⊢
              obtain ⟨m, rfl⟩ : ∃ m, n' = m + 1 := ⟨n' - 1, by omega⟩
              rw [dec_hex m (c / 16) (c % 16) (by omega) (by omega), ih l (by omega) hb' _ _ hu m (by omega)]
              simp only [Option.map_some, Option.some.injEq, List.cons.injEq, and_true]
              omega

theorem map_isSome {α β : Type} (o : Option α) (f : α → β) : (o.map f).isSome = o.isSome := by cases o <;> rfl

theorem enc_isSome (limit : Option Nat) (binary : Bool) : ∀ (k : Nat) (l : List Nat), l.length ≤ k → ∀ lcnt,
    (enc limit binary l lcnt).isSome = (binary || decide (l.getLast? ≠ some 13)) := by
  intro k
  induction k with
  | zero =>
    intro l hl lcnt
    have : l = [] := List.length_eq_zero_iff.1 (by omega)
    subst this; rw [enc]; simp
  | succ k ih =>
    intro l hl lcnt
    cases l with
    | nil => rw [enc]; simp
    | cons c l =>
      simp only [List.length_cons] at hl
      have hlast : c ≠ 13 → (decide ((c :: l).getLast? ≠ some 13)) = decide (l.getLast? ≠ some 13) := by
        intro hc
        cases l with
        | nil => simp [hc]
        | cons d l => simp [List.getLast?_cons_cons]
      rw [enc.eq_def]
      dsimp only
      by_cases h1 : (binary && (decide (c = 10) || decide (c = 13))) = true
      · rw [if_pos h1, map_isSome, ih l (by omega)]
        have : binary = true := by simp at h1; exact h1.1
        rw [this]; rfl
      · rw [if_neg h1]
        by_cases h2 : c = 13
        · subst h2
          have hbin : binary = false := by simpa using h1
          subst hbin
          rw [if_pos rfl]
          cases l with
          | nil => simp
          | cons c1 l =>
            dsimp only
            by_cases h3 : c1 = 10
            · rw [if_pos h3, map_isSome, ih l (by simp only [List.length_cons] at hl; omega)]
              subst h3
              cases l with
              | nil => simp
              | cons d l => simp [List.getLast?_cons_cons]
            · rw [if_neg h3, map_isSome, ih (c1 :: l) (by omega)]
              simp [List.getLast?_cons_cons]
        · rw [if_neg h2, hlast h2]
          by_cases h3 : c = 10
          · rw [if_pos h3, map_isSome, ih l (by omega)]
          · rw [if_neg h3]
            by_cases h4 : (decide (32 < c) && decide (c < 61) || decide (c = 62) || decide (63 < c) && decide (c < 127)) = true
            · rw [if_pos h4, map_isSome, ih l (by omega)]
            · rw [if_neg h4, map_isSome, ih l (by omega)]

/-- No line is longer than `w` when `k` characters are already on it. -/
def okW (w : Nat) : Nat → List Nat → Prop
  | k, [] => k ≤ w
  | k, c :: t => k ≤ w ∧ okW w (if c = 13 ∨ c = 10 then 0 else k + 1) t

theorem okW_le {w k : Nat} {t : List Nat} (h : okW w k t) : k ≤ w := by
  cases t with
  | nil => exact h
  | cons c t => exact h.1

theorem okW_prefix {w : Nat} : ∀ (s : List Nat) (k : Nat) (r : List Nat), okW w k (s ++ r) → (∀ c ∈ s, c ≠ 13 ∧ c ≠ 10) → k + s.length ≤ w := by
  intro s
  induction s with
  | nil => intro k r h _; exact okW_le h
  | cons c s ih =>
    intro k r h hs
    have hc := hs c List.mem_cons_self
    have h2 := h.2
    rw [if_neg (by omega)] at h2
    have := ih _ _ h2 (fun x hx => hs x (List.mem_cons_of_mem _ hx))
    simp only [List.length_cons]; omega

theorem okW_infix {w : Nat} : ∀ (p : List Nat) (k : Nat) (t : List Nat), okW w k (p ++ t) → ∃ k', okW w k' t := by
  intro p
  induction p with
  | nil => intro k t h; exact ⟨k, h⟩
  | cons c p ih => intro k t h; exact ih _ _ h.2

theorem okW_pre {w k lcnt : Nat} {limit : Option Nat} {t : List Nat} (hl : limit = some k) (hk : 1 ≤ k) (hw : k + 3 = w) (h0 : lcnt ≤ k + 2)
    (h : ∀ m, m < k → m = (if atLimit limit lcnt then 0 else lcnt) → okW w m t) :
    okW w lcnt ((if atLimit limit lcnt then [61, 13, 10] else []) ++ t) := by
  subst hl
  by_cases ha : atLimit (some k) lcnt = true
  · rw [if_pos ha] at h ⊢
    exact ⟨by omega, by rw [if_neg (by omega)]; omega, by rw [if_pos (by omega)]; omega, by rw [if_pos (by omega)]; exact h 0 (by omega) rfl⟩
  · rw [if_neg ha] at h ⊢
    simp only [atLimit, decide_eq_true_eq] at ha
    exact h lcnt (by omega) rfl

theorem okW_char {w m c : Nat} {t : List Nat} (hm : m ≤ w) (hc : c ≠ 13 ∧ c ≠ 10) (h : okW w (m + 1) t) : okW w m (c :: t) :=
  ⟨hm, by rw [if_neg (by omega)]; exact h⟩

theorem okW_crlf {w m : Nat} {t : List Nat} (hm : m ≤ w) (h : okW w 0 t) : okW w m (13 :: 10 :: t) :=
  ⟨hm, by rw [if_pos (by omega)]; omega, by rw [if_pos (by omega)]; exact h⟩

theorem enc_width {w k : Nat} (hk : 1 ≤ k) (hw : k + 3 = w) : ∀ (j : Nat) (l : List Nat), l.length ≤ j → (∀ c ∈ l, c < 256) →
    ∀ (lcnt : Nat) (t : List Nat), lcnt ≤ k + 2 → enc (some k) false l lcnt = some t → okW w lcnt t := by
  intro j
  induction j with
  | zero =>
    intro l hl _ lcnt t h0 h
    have : l = [] := List.length_eq_zero_iff.1 (by omega)
    subst this; rw [enc] at h; cases h
    show lcnt ≤ w; omega
  | succ j ih =>
    intro l hl hb lcnt t h0 h
    cases l with
    | nil => rw [enc] at h; cases h; show lcnt ≤ w; omega
    | cons c l =>
      have hc := hb c List.mem_cons_self
      have hb' : ∀ c ∈ l, c < 256 := fun x h => hb x (List.mem_cons_of_mem _ h)
      simp only [List.length_cons] at hl
      rw [enc.eq_def] at h
      dsimp only at h
      rw [Bool.false_and, if_neg (by simp)] at h
      by_cases h2 : c = 13
      · rw [if_pos h2] at h
        cases l with
        | nil => cases h
        | cons c1 l =>
          dsimp only at h
          by_cases h3 : c1 = 10
          · rw [if_pos h3] at h
            obtain ⟨u, hu, rfl⟩ := Option.map_eq_some_iff.1 h
            rw [List.append_assoc]
            refine okW_pre rfl hk hw h0 (fun m hm e => okW_crlf (by omega) ?_)
            exact ih l (by simp only [List.length_cons] at hl; omega) (fun x h => hb' x (List.mem_cons_of_mem _ h)) _ _ (by omega) hu
          · rw [if_neg h3] at h
            obtain ⟨u, hu, rfl⟩ := Option.map_eq_some_iff.1 h
            rw [List.append_assoc]
            refine okW_pre rfl hk hw h0 (fun m hm e => okW_crlf (by omega) ?_)
            exact ih (c1 :: l) (by omega) hb' _ _ (by omega) hu
      · rw [if_neg h2] at h
        by_cases h3 : c = 10
        · rw [if_pos h3] at h
          obtain ⟨u, hu, rfl⟩ := Option.map_eq_some_iff.1 h
          rw [List.append_assoc]
          refine okW_pre rfl hk hw h0 (fun m hm e => okW_crlf (by omega) ?_)
          exact ih l (by omega) hb' _ _ (by omega) hu
        · rw [if_neg h3] at h
          by_cases h4 : (decide (32 < c) && decide (c < 61) || decide (c = 62) || decide (63 < c) && decide (c < 127)) = true
          · rw [if_pos h4] at h
            obtain ⟨u, hu, rfl⟩ := Option.map_eq_some_iff.1 h
            rw [List.append_assoc]
            refine okW_pre rfl hk hw h0 (fun m hm e => okW_char (by omega) ⟨h2, h3⟩ ?_)
            rw [← e] at hu
            exact ih l (by omega) hb' _ _ (by omega) hu
          · rw [if_neg h4] at h
            obtain ⟨u, hu, rfl⟩ := Option.map_eq_some_iff.1 h
            rw [List.append_assoc]
            obtain ⟨p1, p2, _⟩ := hexU_props (n := c / 16) (by omega)
            obtain ⟨q1, q2, _⟩ := hexU_props (n := c % 16) (by omega)
            refine okW_pre rfl hk hw h0 (fun m hm e =>
              okW_char (by omega) (by omega) (okW_char (by omega) ⟨p2, p1⟩ (okW_char (by omega) ⟨q2, q1⟩ ?_)))
            rw [← e] at hu
            exact ih l (by omega) hb' _ _ (by omega) hu

theorem enc_chars (limit : Option Nat) (binary : Bool) : ∀ (j : Nat) (l : List Nat), l.length ≤ j → (∀ c ∈ l, c < 256) →
    ∀ (lcnt : Nat) (t : List Nat), enc limit binary l lcnt = some t → ∀ c ∈ t, (33 ≤ c ∧ c ≤ 126) ∨ c = 13 ∨ c = 10 := by
  intro j
  induction j with
  | zero =>
    intro l hl _ lcnt t h
    have : l = [] := List.length_eq_zero_iff.1 (by omega)
    subst this; rw [enc] at h; cases h; intro c hc; cases hc
  | succ j ih =>
    intro l hl hb lcnt t h
    have hpre : ∀ c ∈ (if atLimit limit lcnt = true then [61, 13, 10] else []), (33 ≤ c ∧ c ≤ 126) ∨ c = 13 ∨ c = 10 := by
      intro c hc
      by_cases ha : atLimit limit lcnt = true
      · rw [if_pos ha] at hc; simp at hc; omega
      · rw [if_neg ha] at hc; cases hc
    have key : ∀ (m u : List Nat), (∀ c ∈ m, (33 ≤ c ∧ c ≤ 126) ∨ c = 13 ∨ c = 10) → (∀ c ∈ u, (33 ≤ c ∧ c ≤ 126) ∨ c = 13 ∨ c = 10) →
        ∀ c ∈ (if atLimit limit lcnt = true then [61, 13, 10] else []) ++ m ++ u, (33 ≤ c ∧ c ≤ 126) ∨ c = 13 ∨ c = 10 := by
      intro m u hm hu c hc
      rcases List.mem_append.1 hc with hc | hc
      · rcases List.mem_append.1 hc with hc | hc
        · exact hpre c hc
        · exact hm c hc
      · exact hu c hc
    cases l with
    | nil => rw [enc] at h; cases h; intro c hc; cases hc
    | cons c l =>
      have hc := hb c List.mem_cons_self
      have hb' : ∀ c ∈ l, c < 256 := fun x h => hb x (List.mem_cons_of_mem _ h)
      simp only [List.length_cons] at hl
      rw [enc.eq_def] at h
      dsimp only at h
      by_cases h1 : (binary && (decide (c = 10) || decide (c = 13))) = true
      · rw [if_pos h1] at h
        obtain ⟨u, hu, rfl⟩ := Option.map_eq_some_iff.1 h
        refine key _ _ ?_ (ih l (by omega) hb' _ _ hu)
        simp only [Bool.and_eq_true, Bool.or_eq_true, decide_eq_true_eq] at h1
        obtain ⟨_, _, _, _, q5, q6, _⟩ := hexU_props (n := c) (by omega)
        intro x hx; simp at hx; omega
      · rw [if_neg h1] at h
        by_cases h2 : c = 13
        · rw [if_pos h2] at h
          cases l with
          | nil => cases h
          | cons c1 l =>
            dsimp only at h
            by_cases h3 : c1 = 10
            · rw [if_pos h3] at h
              obtain ⟨u, hu, rfl⟩ := Option.map_eq_some_iff.1 h
              refine key _ _ (by intro x hx; simp at hx; omega)
                (ih l (by simp only [List.length_cons] at hl; omega) (fun x h => hb' x (List.mem_cons_of_mem _ h)) _ _ hu)
            · rw [if_neg h3] at h
              obtain ⟨u, hu, rfl⟩ := Option.map_eq_some_iff.1 h
              exact key _ _ (by intro x hx; simp at hx; omega) (ih (c1 :: l) (by omega) hb' _ _ hu)
        · rw [if_neg h2] at h
          by_cases h3 : c = 10
          · rw [if_pos h3] at h
            obtain ⟨u, hu, rfl⟩ := Option.map_eq_some_iff.1 h
            exact key _ _ (by intro x hx; simp at hx; omega) (ih l (by omega) hb' _ _ hu)
          · rw [if_neg h3] at h
            by_cases h4 : (decide (32 < c) && decide (c < 61) || decide (c = 62) || decide (63 < c) && decide (c < 127)) = true
            · rw [if_pos h4] at h
              obtain ⟨u, hu, rfl⟩ := Option.map_eq_some_iff.1 h
              refine key _ _ ?_ (ih l (by omega) hb' _ _ hu)
              simp at h4
              intro x hx; simp at hx; omega
            · rw [if_neg h4] at h
              obtain ⟨u, hu, rfl⟩ := Option.map_eq_some_iff.1 h
              refine key _ _ ?_ (ih l (by omega) hb' _ _ hu)
              obtain ⟨_, _, _, _, p5, p6, _⟩ := hexU_props (n := c / 16) (by omega)
              obtain ⟨_, _, _, _, q5, q6, _⟩ := hexU_props (n := c % 16) (by omega)
              intro x hx; simp at hx; omega

end Gauche.QP

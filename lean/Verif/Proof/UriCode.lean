import Verif.Model.UriCode
import Verif.Proof.QP
namespace Gauche.UriCode
open Gauche.QP

variable {wc : Nat → List Nat}

theorem dec_encode (hwc : ∀ c, c < 128 → wc c = [c]) {ech : Nat → Bool} (h37 : ech 37 = false) {cgi : Bool}
    (h43 : cgi = true → ech 43 = false) : ∀ (l : List Nat), (∀ c ∈ l, c < 256) → ∀ n, (encode ech l).length ≤ n →
    dec wc cgi n (encode ech l) = l := by
  intro l
  induction l with
  | nil => intro _ n _; cases n <;> rfl
  | cons b l ih =>
    intro hb n hn
    have hb0 := hb b List.mem_cons_self
    have ih := ih (fun x h => hb x (List.mem_cons_of_mem _ h))
    have e : encode ech (b :: l) = (if b < 128 && ech b then [b] else [37, hexU (b / 16), hexU (b % 16)]) ++ encode ech l := rfl
    rw [e] at hn ⊢
    by_cases hc : (decide (b < 128) && ech b) = true
    · rw [if_pos hc] at hn ⊢
      simp only [List.cons_append, List.nil_append, List.length_cons] at hn ⊢
      simp only [Bool.and_eq_true, decide_eq_true_eq] at hc
      obtain ⟨m, rfl⟩ : ∃ m, n = m + 1 := ⟨n - 1, by omega⟩
      have n37 : b ≠ 37 := fun h => by rw [h, h37] at hc; cases hc.2
      rw [dec.eq_def]
      dsimp only
      rw [if_neg n37, hwc b hc.1, ih m (by omega)]
      by_cases h4 : b = 43
      · rw [if_pos h4]
        cases cgi with
        | true => rw [h4, h43 rfl] at hc; cases hc.2
        | false => rw [if_neg (by simp), hwc 43 (by omega), h4]; rfl
      · rw [if_neg h4]; rfl
    · rw [if_neg hc] at hn ⊢
      simp only [List.cons_append, List.nil_append, List.length_cons] at hn ⊢
      obtain ⟨m, rfl⟩ : ∃ m, n = m + 1 := ⟨n - 1, by omega⟩
      rw [dec.eq_def]
      dsimp only
      rw [if_pos rfl, digit_hexU (by omega), digit_hexU (by omega), ih m (by omega)]
      have e2 : b / 16 * 16 + b % 16 = b := by omega
      simp only [e2]

theorem encode_chars (ech : Nat → Bool) (l : List Nat) (hl : ∀ c ∈ l, c < 256) : ∀ c ∈ encode ech l,
    (c < 128 ∧ ech c = true) ∨ c = 37 ∨ (48 ≤ c ∧ c ≤ 57) ∨ (65 ≤ c ∧ c ≤ 70) := by
  intro c hc
  obtain ⟨b, hb, hc⟩ := List.mem_flatMap.1 hc
  have hb0 := hl b hb
  have hx : ∀ n < 16, (48 ≤ hexU n ∧ hexU n ≤ 57) ∨ (65 ≤ hexU n ∧ hexU n ≤ 70) := by decide
  by_cases h : (decide (b < 128) && ech b) = true
  · rw [if_pos h] at hc
    simp only [List.mem_singleton] at hc
    subst hc
    simp only [Bool.and_eq_true, decide_eq_true_eq] at h
    exact Or.inl h
  · rw [if_neg h] at hc
    have h1 := hx (b / 16) (by omega)
    have h2 := hx (b % 16) (by omega)
    simp only [List.mem_cons, List.not_mem_nil, or_false] at hc
    rcases hc with rfl | rfl | rfl
    · exact Or.inr (Or.inl rfl)
    · exact Or.inr (Or.inr h1)
    · exact Or.inr (Or.inr h2)

theorem encode_ne {ech : Nat → Bool} (l : List Nat) (h : l ≠ []) : encode ech l ≠ [] := by
  cases l with
  | nil => exact absurd rfl h
  | cons b l =>
    have e : encode ech (b :: l) = (if b < 128 && ech b then [b] else [37, hexU (b / 16), hexU (b % 16)]) ++ encode ech l := rfl
    rw [e]
    intro hc
    have := (List.append_eq_nil_iff.1 hc).1
    split at this <;> cases this

theorem encode_plain (l : List Nat) (hl : ∀ c ∈ l, c < 256) : ∀ c ∈ encode unreserved l, c ≠ 38 ∧ c ≠ 59 ∧ c ≠ 61 := by
  intro c hc
  rcases encode_chars _ l hl c hc with ⟨_, h⟩ | h
  · simp [unreserved] at h; omega
  · omega

theorem split1_plain (a : List Nat) (h : ∀ c ∈ a, c ≠ 61) : split1 a = (a, none) := by
  induction a with
  | nil => rfl
  | cons c a ih =>
    rw [split1, if_neg (h c List.mem_cons_self), ih (fun x hx => h x (List.mem_cons_of_mem _ hx))]

theorem split1_eq (a v : List Nat) (h : ∀ c ∈ a, c ≠ 61) : split1 (a ++ 61 :: v) = (a, some v) := by
  induction a with
  | nil => rw [List.nil_append, split1, if_pos rfl]
  | cons c a ih =>
    rw [List.cons_append, split1, if_neg (h c List.mem_cons_self), ih (fun x hx => h x (List.mem_cons_of_mem _ hx))]

theorem scan_plain (seps : Nat → Bool) (a : List Nat) (h : ∀ c ∈ a, seps c = false) : scan seps a = (a, none) := by
  induction a with
  | nil => rfl
  | cons c a ih =>
    rw [scan, if_neg (by rw [h c List.mem_cons_self]; simp), ih (fun x hx => h x (List.mem_cons_of_mem _ hx))]

theorem scan_sep (seps : Nat → Bool) (a : List Nat) (h : ∀ c ∈ a, seps c = false) (s d : Nat) (hs : seps s = true) (hd : seps d = false)
    (r : List Nat) : scan seps (a ++ s :: d :: r) = (a, some (d :: r)) := by
  induction a with
  | nil => rw [List.nil_append, scan, if_pos hs, List.dropWhile_cons_of_neg (by rw [hd]; simp)]
  | cons c a ih =>
    rw [List.cons_append, scan, if_neg (by rw [h c List.mem_cons_self]; simp), ih (fun x hx => h x (List.mem_cons_of_mem _ hx))]

/-- The condition on the parameters. -/
def OkParam (p : List Nat × Option (List Nat)) : Prop :=
  (∀ c ∈ p.1, c < 256) ∧ (∀ v, p.2 = some v → ∀ c ∈ v, c < 256) ∧ p ≠ ([], none)

abbrev sep : Nat → Bool := fun c => c = 38 || c = 59

theorem query1_plain {p : List Nat × Option (List Nat)} (h : OkParam p) : (∀ c ∈ query1 p, sep c = false) ∧ query1 p ≠ [] := by
  obtain ⟨name, v⟩ := p
  obtain ⟨h1, h2, h3⟩ := h
  have e1 := encode_plain name h1
  cases v with
  | none =>
    refine ⟨fun c hc => by have := e1 c hc; simp [sep]; omega, ?_⟩
    exact encode_ne name (fun e => h3 (by rw [e]))
  | some v =>
    have e2 := encode_plain v (h2 v rfl)
    refine ⟨?_, by simp [query1]⟩
    intro c hc
    simp only [query1, List.mem_append, List.mem_cons] at hc
    rcases hc with hc | rfl | hc
    · have := e1 c hc; simp [sep]; omega
    · rfl
    · have := e2 c hc; simp [sep]; omega

theorem decompose1_query1 (hwc : ∀ c, c < 128 → wc c = [c]) {p : List Nat × Option (List Nat)} (h : OkParam p) :
    decompose1 wc (query1 p) = some p := by
  have hne := (query1_plain h).2
  obtain ⟨name, v⟩ := p
  obtain ⟨h1, h2, h3⟩ := h
  have e1 := encode_plain name h1
  have d : ∀ l : List Nat, (∀ c ∈ l, c < 256) → decode wc true (encode unreserved l) = l := fun l hl =>
    dec_encode hwc (by decide) (fun _ => by decide) l hl _ (Nat.le_refl _)
  rw [decompose1, if_neg hne]
  cases v with
  | none =>
    simp only [query1]
    rw [split1_plain _ (fun c hc => (e1 c hc).2.2), d name h1]; rfl
  | some v =>
    simp only [query1]
    rw [split1_eq _ _ (fun c hc => (e1 c hc).2.2), d name h1]
    simp only [Option.map_some]
    rw [d v (h2 v rfl)]

theorem splitLoop_compose : ∀ (ps : List (List Nat × Option (List Nat))), ps ≠ [] → (∀ p ∈ ps, OkParam p) →
    ∀ n, (composeQuery ps).length < n → splitLoop sep n (composeQuery ps) = ps.map query1 ∧
      ∃ d r, composeQuery ps = d :: r ∧ sep d = false := by
  intro ps
  induction ps with
  | nil => intro h; exact absurd rfl h
  | cons p ps ih =>
    intro _ hok n hn
    obtain ⟨hp, hne⟩ := query1_plain (hok p List.mem_cons_self)
    obtain ⟨d, r, hd⟩ : ∃ d r, query1 p = d :: r := by
      cases h : query1 p with
      | nil => exact absurd h hne
      | cons d r => exact ⟨d, r, rfl⟩
    have hdsep : sep d = false := hp d (by rw [hd]; simp)
    obtain ⟨m, rfl⟩ : ∃ m, n = m + 1 := ⟨n - 1, by omega⟩
    cases ps with
    | nil =>
      refine ⟨?_, d, r, hd, hdsep⟩
      simp only [composeQuery]
      rw [splitLoop, scan_plain _ _ hp]; rfl
    | cons q qs =>
      have hn' : (query1 p ++ 38 :: composeQuery (q :: qs)).length < m + 1 := hn
      simp only [List.length_append, List.length_cons] at hn'
      obtain ⟨e, d', r', hd', hs'⟩ := ih (by simp) (fun x hx => hok x (List.mem_cons_of_mem _ hx)) m (by omega)
      constructor
      · have hcomp : composeQuery (p :: q :: qs) = query1 p ++ 38 :: composeQuery (q :: qs) := rfl
        rw [hcomp, splitLoop, hd', scan_sep sep _ hp 38 d' rfl hs' r', ← hd']
        dsimp only
        rw [e]; rfl
      · refine ⟨d, r ++ 38 :: composeQuery (q :: qs), ?_, hdsep⟩
        have hcomp : composeQuery (p :: q :: qs) = query1 p ++ 38 :: composeQuery (q :: qs) := rfl
        rw [hcomp, hd]; rfl

theorem mapE_map (hwc : ∀ c, c < 128 → wc c = [c]) (ps : List (List Nat × Option (List Nat))) (h : ∀ p ∈ ps, OkParam p) :
    mapE (decompose1 wc) (ps.map query1) = some ps := by
  induction ps with
  | nil => rfl
  | cons p ps ih =>
    rw [List.map_cons, mapE, decompose1_query1 hwc (h p List.mem_cons_self), ih (fun x hx => h x (List.mem_cons_of_mem _ hx))]; rfl

theorem dec_plain (hwc : ∀ c, c < 128 → wc c = [c]) (cgi : Bool) : ∀ (l : List Nat) (n : Nat), l.length ≤ n →
    (∀ c ∈ l, c ≠ 37 ∧ (cgi = true → c ≠ 43)) → dec wc cgi n l = l.flatMap wc := by
  intro l
  induction l with
  | nil => intro n _ _; cases n <;> rfl
  | cons c l ih =>
    intro n hn h
    simp only [List.length_cons] at hn
    obtain ⟨m, rfl⟩ : ∃ m, n = m + 1 := ⟨n - 1, by omega⟩
    obtain ⟨h1, h2⟩ := h c List.mem_cons_self
    rw [dec.eq_def]
    dsimp only
    rw [if_neg h1, ih m (by omega) (fun x hx => h x (List.mem_cons_of_mem _ hx)), List.flatMap_cons]
    by_cases h4 : c = 43
    · rw [if_pos h4]
      cases cgi with
      | true => exact absurd h4 (h2 rfl)
      | false => rw [if_neg (by simp), h4]
    · rw [if_neg h4]

end Gauche.UriCode

import Verif.Proof.RegexSearch

/-!
# The simple prefix
-/

namespace Gauche.Regex

open Gauche.Utf8 Gauche.Spec.Utf8 Spec

section
variable {cfg : Cfg}

/-- The places of a list of states. -/
abbrev spots (l : List St) : List Nat := l.map St.pos

/-- Captures do not matter. -/
def Indep (W : St → List St) : Prop :=
  ∀ st st' : St, st.pos = st'.pos → spots (W st) = spots (W st')

theorem spots_flatMap {V V' : St → List St} (hV : ∀ st st' : St, st.pos = st'.pos →
      spots (V st) = spots (V' st')) :
    ∀ {l l' : List St}, spots l = spots l' → spots (l.flatMap V) = spots (l'.flatMap V')
  | [], [], _ => rfl
  | [], _ :: _, h => by simp [spots] at h
  | _ :: _, [], h => by simp [spots] at h
  | a :: l, b :: l', h => by
    simp only [spots, List.map_cons, List.cons.injEq] at h
    simp only [spots, List.flatMap_cons, List.map_append]
    have h1 := hV a b h.1
    have h2 := spots_flatMap hV h.2
    simp only [spots] at h1 h2
    rw [h1, h2]

theorem indep_comp {W V : St → List St} (h : Indep W) (h' : Indep V) :
    Indep (fun st => (W st).flatMap V) :=
  fun st st' e => spots_flatMap h' (h st st' e)

theorem indep_nil : Indep (fun st => [st]) := fun st st' e => by simp [spots, e]

theorem indep_test (b : Nat → Bool) : Indep (fun st => test (b st.pos) st) := by
  intro st st' e
  simp only [test, e]
  by_cases h : b st'.pos = true
  · simp [h, spots, e]
  · simp [h, spots]

theorem indep_one (P : Nat → Bool) : Indep (one cfg P) := by
  intro st st' e
  unfold one
  rw [e]
  cases cfg.text[st'.pos]? with
  | none => rfl
  | some c =>
    dsimp only
    by_cases h : P c = true
    · simp [h, spots]
    · simp [h, spots]

theorem indep_iter {f : St → List St} (h : Indep f) : ∀ k, Indep (iter f k)
  | 0 => indep_nil
  | k + 1 => indep_comp h (indep_iter h k)

theorem spots_filter {a a' : Nat} (e : a = a') : ∀ {l l' : List St}, spots l = spots l' →
    spots (l.filter fun t => a < t.pos) = spots (l'.filter fun t => a' < t.pos)
  | [], [], _ => rfl
  | [], _ :: _, h => by simp [spots] at h
  | _ :: _, [], h => by simp [spots] at h
  | x :: l, y :: l', h => by
    simp only [spots, List.map_cons, List.cons.injEq] at h
    have ih := spots_filter e h.2
    simp only [List.filter_cons, h.1, e]
    rw [e] at ih
    by_cases hc : a' < y.pos
    · simp only [hc, decide_true, if_true, spots, List.map_cons, h.1]
      simp only [spots] at ih
      rw [ih]
    · simp only [hc, decide_false]; exact ih

theorem spots_append {l l' s s' : List St} (h : spots l = spots l') (g : spots s = spots s') :
    spots (l ++ s) = spots (l' ++ s') := by
  simp only [spots, List.map_append] at *
  rw [h, g]

theorem indep_star {f : St → List St} (h : Indep f) : ∀ k, Indep (star f k)
  | 0 => indep_nil
  | k + 1 => fun st st' e => by
    simp only [star]
    exact spots_append (spots_flatMap (indep_star h k) (spots_filter e (h st st' e)))
      (by simp [spots, e])

theorem indep_starLazy {f : St → List St} (h : Indep f) : ∀ k, Indep (starLazy f k)
  | 0 => indep_nil
  | k + 1 => fun st st' e => by
    simp only [starLazy]
    exact spots_append (l := [st]) (l' := [st']) (by simp [spots, e])
      (spots_flatMap (indep_starLazy h k) (spots_filter e (h st st' e)))

theorem spots_take (k : Nat) {l l' : List St} (h : spots l = spots l') :
    spots (l.take k) = spots (l'.take k) := by
  simp only [spots, List.map_take] at *
  rw [h]

theorem spots_ks {f : St → List St} (h : Indep f) (ks : List Nat) :
    Indep (fun st => ks.flatMap fun k => iter f k st) := by
  intro st st' e
  induction ks with
  | nil => rfl
  | cons k ks ih =>
    simp only [List.flatMap_cons]
    exact spots_append (indep_iter h k st st' e) ih

theorem indep_rep {f : St → List St} (h : Indep f) (k : RepKind) (m : Nat) (n : Option Nat)
    (b : Bool) :
    Indep fun st => (iter f m st).flatMap fun t =>
      match n with
      | some n => if k = .min then upToLazy f (n - m) t else upTo f (n - m) t
      | none =>
        if k = .min then starLazy f (cfg.text.length - t.pos) t
        else if b then (star f (cfg.text.length - t.pos) t).take 1
        else star f (cfg.text.length - t.pos) t := by
  apply indep_comp (indep_iter h m)
  intro st st' e
  cases n with
  | some n =>
    dsimp only
    by_cases hk : k = .min
    · rw [if_pos hk, if_pos hk]; exact spots_ks h _ st st' e
    · rw [if_neg hk, if_neg hk]; exact spots_ks h _ st st' e
  | none =>
    dsimp only
    rw [e]
    by_cases hk : k = .min
    · rw [if_pos hk, if_pos hk]; exact indep_starLazy h _ st st' e
    · rw [if_neg hk, if_neg hk]
      by_cases hb : b = true
      · rw [if_pos hb, if_pos hb]; exact spots_take _ (indep_star h _ st st' e)
      · rw [if_neg hb, if_neg hb]; exact indep_star h _ st st' e

theorem spots_map {u : St → St} (hu : ∀ t, (u t).pos = t.pos) (l : List St) :
    spots (l.map u) = spots l := by
  simp only [spots, List.map_map]
  apply List.map_congr_left
  intro t _
  exact hu t

theorem spots_group (g p : Nat) (l : List St) :
    spots (l.map fun t => { t with caps := fun x => if x = g then some (p, t.pos) else t.caps x }) =
      spots l :=
  spots_map (u := fun t => { t with caps := fun x => if x = g then some (p, t.pos) else t.caps x })
    (fun _ => rfl) l

theorem spots_isEmpty {l l' : List St} (h : spots l = spots l') : l.isEmpty = l'.isEmpty := by
  cases l <;> cases l' <;> simp [spots] at h ⊢

theorem indep_eol (fold last : Bool) : Indep (ways cfg .eol fold last) := by
  intro st st' e
  simp only [ways]
  by_cases h : (last || cfg.multi) = true
  · rw [if_pos h, if_pos h]; exact indep_test (fun p => atEol cfg p) st st' e
  · rw [if_neg h, if_neg h]; exact indep_one _ st st' e

mutual
theorem indep_ways {L : Lim} (hL : L.br = false) : ∀ (a : Ast) (fold last : Bool) (op : List Nat),
    ok L a fold op = true → Indep (ways cfg a fold last)
  | .char c, fold, last, op, h => by simp only [ways]; exact indep_one _
  | .cset s, fold, last, op, h => by simp only [ways]; exact indep_one _
  | .comp s, fold, last, op, h => by simp only [ways]; exact indep_one _
  | .any, fold, last, op, h => by simp only [ways]; exact indep_one _
  | .bos, fold, last, op, h => by simp only [ways]; exact indep_test (fun p => p == 0)
  | .eos, fold, last, op, h => by
    simp only [ways]; exact indep_test (fun p => p == cfg.text.length)
  | .bol, fold, last, op, h => by simp only [ways]; exact indep_test (fun p => atBol cfg p)
  | .eol, fold, last, op, h => indep_eol fold last
  | .wb, fold, last, op, h => by
    simp only [ways]; exact indep_test (fun p => atBow cfg p || atEow cfg p)
  | .nwb, fold, last, op, h => by
    simp only [ways]; exact indep_test (fun p => !(atBow cfg p || atEow cfg p))
  | .bow, fold, last, op, h => by simp only [ways]; exact indep_test (fun p => atBow cfg p)
  | .eow, fold, last, op, h => by simp only [ways]; exact indep_test (fun p => atEow cfg p)
  | .backref g, fold, last, op, h => by simp [ok, hL] at h
  | .seq l, fold, last, op, h => by
    simp only [ok] at h
    simp only [ways]
    exact indep_waysSeq hL l fold last op h
  | .uncase l, fold, last, op, h => by
    simp only [ok, Bool.and_eq_true] at h
    simp only [ways]
    exact indep_waysSeq hL l true last op h.2
  | .case_ l, fold, last, op, h => by
    simp only [ok] at h
    simp only [ways]
    exact indep_waysSeq hL l false last op h
  | .alt l, fold, last, op, h => by
    simp only [ok] at h
    simp only [ways]
    exact indep_waysAlt hL l fold last op h
  | .group g l, fold, last, op, h => by
    simp only [ok, Bool.and_eq_true] at h
    intro st st' e
    simp only [ways]
    rw [spots_group, spots_group]
    exact indep_waysSeq hL l fold last (g :: op) h.2 st st' e
  | .once l, fold, last, op, h => by
    simp only [ok, Bool.and_eq_true] at h
    intro st st' e
    simp only [ways]
    exact spots_take 1 (indep_waysSeq hL l fold true op h.2 st st' e)
  | .assert l, fold, last, op, h => by
    simp only [ok, Bool.and_eq_true] at h
    intro st st' e
    have ih := spots_take 1 (indep_waysSeq hL l fold true op h.2 st st' e)
    simp only [ways]
    have hlen : ((waysSeq cfg l fold true st).take 1).length =
        ((waysSeq cfg l fold true st').take 1).length := by
      have := congrArg List.length ih
      simpa [spots] using this
    simp only [spots, List.map_map]
    have : ∀ (s : St) (l : List St),
        l.map (St.pos ∘ fun t : St => ({ s with caps := t.caps } : St)) =
          List.replicate l.length s.pos := by
      intro s l
      induction l with
      | nil => rfl
      | cons a l ih => simp [List.replicate_succ, ih]
    rw [this, this, hlen, e]
  | .nassert l, fold, last, op, h => by
    simp only [ok, Bool.and_eq_true] at h
    intro st st' e
    have ih := spots_isEmpty (indep_waysSeq hL l fold true op h.2 st st' e)
    simp only [ways]
    rw [ih]
    exact indep_test (fun _ => (waysSeq cfg l fold true st').isEmpty) st st' e
  | .rep k m n l, fold, last, op, h => by
    simp only [ok, Bool.and_eq_true] at h
    have := indep_rep (cfg := cfg) (indep_waysSeq hL l fold false op h.1.1) k m n
      (k = .while_ && singleChar l)
    intro st st' e
    simp only [ways]
    exact this st st' e
theorem indep_waysSeq {L : Lim} (hL : L.br = false) : ∀ (l : List Ast) (fold last : Bool)
    (op : List Nat), okSeq L l fold op = true → Indep (waysSeq cfg l fold last)
  | [], fold, last, op, h => by simp only [waysSeq]; exact indep_nil
  | a :: l, fold, last, op, h => by
    simp only [okSeq, Bool.and_eq_true] at h
    simp only [waysSeq]
    exact indep_comp (indep_ways hL a fold _ op h.1) (indep_waysSeq hL l fold last op h.2)
theorem indep_waysAlt {L : Lim} (hL : L.br = false) : ∀ (l : List Ast) (fold last : Bool)
    (op : List Nat), okSeq L l fold op = true → Indep (waysAlt cfg l fold last)
  | [], fold, last, op, h => by simp only [waysAlt]; intro _ _ _; rfl
  | a :: l, fold, last, op, h => by
    simp only [okSeq, Bool.and_eq_true] at h
    intro st st' e
    simp only [waysAlt]
    exact spots_append (indep_ways hL a fold last op h.1 st st' e)
      (indep_waysAlt hL l fold last op h.2 st st' e)
end

/-! ## runs of one character -/

/-- `P+`, as long as possible. -/
theorem run_step {P : Nat → Bool} {n : Nat} {st : St} {c : Nat} (hc : cfg.text[st.pos]? = some c)
    (hP : P c = true) (hn : cfg.text.length - st.pos = n + 1) :
    spots ((star (one cfg P) (n + 1) st).take 1) =
      spots ((star (one cfg P) n { st with pos := st.pos + 1 }).take 1) := by
  have ho : one cfg P st = [{ st with pos := st.pos + 1 }] := by
    unfold one; rw [hc]; simp [hP]
  simp only [star, ho]
  rw [List.filter_cons_of_pos (by simp), List.filter_nil, List.flatMap_cons, List.flatMap_nil,
    List.append_nil]
  have hne : star (one cfg P) n { st with pos := st.pos + 1 } ≠ [] := by
    cases n <;> simp [star]
  cases h : star (one cfg P) n { st with pos := st.pos + 1 } with
  | nil => exact absurd h hne
  | cons x l => simp

/-- `P+` from the next place of a run. -/
theorem run_next {P : Nat → Bool} {st : St} {c d : Nat} (hc : cfg.text[st.pos]? = some c)
    (hP : P c = true) (hd : cfg.text[st.pos + 1]? = some d) (hPd : P d = true) :
    spots ((iter (one cfg P) 1 { st with pos := st.pos + 1 }).flatMap fun t =>
        (star (one cfg P) (cfg.text.length - t.pos) t).take 1) =
      spots ((iter (one cfg P) 1 st).flatMap fun t =>
        (star (one cfg P) (cfg.text.length - t.pos) t).take 1) := by
  have ho : one cfg P st = [{ st with pos := st.pos + 1 }] := by
    unfold one; rw [hc]; simp [hP]
  have ho' : one cfg P { st with pos := st.pos + 1 } = [{ st with pos := st.pos + 1 + 1 }] := by
    unfold one; dsimp only; rw [hd]; simp [hPd]
  have hl : st.pos + 1 < cfg.text.length := by
    rcases Nat.lt_or_ge (st.pos + 1) cfg.text.length with h | h
    · exact h
    · rw [List.getElem?_eq_none h] at hd; cases hd
  simp only [iter, ho, ho', List.flatMap_cons, List.flatMap_nil, List.append_nil]
  obtain ⟨n, hn⟩ : ∃ n, cfg.text.length - (st.pos + 1) = n + 1 :=
    ⟨cfg.text.length - (st.pos + 1) - 1, by omega⟩
  rw [hn, run_step (st := { st with pos := st.pos + 1 }) hd hPd hn]
  dsimp only
  rw [show cfg.text.length - (st.pos + 1 + 1) = n by omega]

/-- The set of a single item. -/
theorem charset_one {a : Ast} (h : isCharOrCharset a = true) :
    ∃ P, laset none a = some P ∧ singleChar [a] = true ∧
      waysSeq cfg [a] false false = one cfg P := by
  have single : waysSeq cfg [a] false false = ways cfg a false false := by
    funext st
    simp only [waysSeq]
    simp
  cases a <;> simp only [isCharOrCharset] at h <;> try (cases h; done)
  case char c =>
    exact ⟨fun x => decide (x = c), by simp only [laset], rfl, by
      rw [single]; simp only [ways]
      congr 1⟩
  case cset s => exact ⟨s.has, by simp only [laset], rfl, by rw [single]; simp only [ways]; rfl⟩
  case comp s => exact ⟨fun x => !s.has x, by simp only [laset], rfl, by rw [single]; simp only [ways]; rfl⟩

theorem simple_next {L : Lim} (hL : L.br = false) : ∀ (a : Ast) (rest : Option (Nat → Bool))
    (op : List Nat) (P : Nat → Bool) (last : Bool) (st : St) (c d : Nat), simplePrefixed a = true →
    ok L a false op = true → laset rest a = some P →
    cfg.text[st.pos]? = some c → P c = true → cfg.text[st.pos + 1]? = some d → P d = true →
    spots (ways cfg a false last { st with pos := st.pos + 1 }) = spots (ways cfg a false last st)
  | .rep .while_ 1 none [a], rest, op, P, last, st, c, d, hs, hok, hla, hc, hP, hd, hPd => by
    simp only [simplePrefixed] at hs
    obtain ⟨Q, hQ, hsc, hw⟩ := charset_one (cfg := cfg) hs
    simp only [laset, lasetn] at hla
    rw [if_neg (by decide), hQ] at hla
    injection hla with hla
    subst hla
    simp only [ways, hsc, hw, decide_true, Bool.and_self, if_true, reduceCtorEq, if_false]
    exact run_next hc hP hd hPd
  | .seq (a :: l), rest, op, P, last, st, c, d, hs, hok, hla, hc, hP, hd, hPd => by
    simp only [simplePrefixed] at hs
    simp only [ok, okSeq, Bool.and_eq_true] at hok
    simp only [laset, lasetn] at hla
    simp only [ways, waysSeq]
    exact spots_flatMap (indep_waysSeq hL l false last op hok.2)
      (simple_next hL a _ op P _ st c d hs hok.1 hla hc hP hd hPd)
  | .group g (a :: l), rest, op, P, last, st, c, d, hs, hok, hla, hc, hP, hd, hPd => by
    simp only [simplePrefixed] at hs
    simp only [ok, okSeq, Bool.and_eq_true] at hok
    simp only [laset, lasetn] at hla
    simp only [ways, waysSeq]
    rw [spots_group, spots_group]
    exact spots_flatMap (indep_waysSeq hL l false last (g :: op) hok.2.2)
      (simple_next hL a _ (g :: op) P _ st c d hs hok.2.1 hla hc hP hd hPd)

end
end Gauche.Regex

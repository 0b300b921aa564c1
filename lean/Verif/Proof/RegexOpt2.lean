import Verif.Proof.RegexOpt

/-!
# The optimizer keeps the first way (continued)
-/

namespace Gauche.Regex

open Gauche.Utf8 Gauche.Spec.Utf8 Spec

section
variable {cfg : Cfg}

/-- A greedy repetition in a sequence becomes one of two things. -/
theorem optimizeSeq_greedy (rest : List Ast) (m : Nat) (n : Option Nat) (l s : List Ast)
    (hne : optimizeSeq (if (optimizeSeq rest s).isEmpty then rest else optimizeSeq rest s) l ≠ []) :
    ∃ k x b, optimizeSeq rest (.rep .greedy m n l :: s) =
        .rep k m n (optimizeSeq (if (optimizeSeq rest s).isEmpty then rest else optimizeSeq rest s) l)
          :: optimizeSeq rest s ∧
      optimizeSeq (if (optimizeSeq rest s).isEmpty then rest else optimizeSeq rest s) l = x :: b ∧
      (k = .greedy ∨ (k = .while_ ∧
        ∀ y r, (if (optimizeSeq rest s).isEmpty then rest else optimizeSeq rest s) = y :: r →
          isDistinct x y = true)) := by
  have e := optimizeSeq.eq_3 rest m n l s
  generalize (if (optimizeSeq rest s).isEmpty then rest else optimizeSeq rest s) = rest' at *
  cases hb : optimizeSeq rest' l with
  | nil => exact absurd hb hne
  | cons x b =>
    rw [hb] at e
    cases rest' with
    | nil =>
      refine ⟨.while_, x, b, e, rfl, Or.inr ⟨rfl, ?_⟩⟩
      intro y r h; cases h
    | cons y r =>
      dsimp only at e
      by_cases hd : isDistinct x y = true
      · rw [if_pos hd] at e
        refine ⟨.while_, x, b, e, rfl, Or.inr ⟨rfl, ?_⟩⟩
        intro y' r' h
        injection h with h1 h2
        rw [← h1]; exact hd
      · rw [if_neg hd] at e
        exact ⟨.greedy, x, b, e, rfl, Or.inl rfl⟩

theorem optSeq_ne : ∀ (l : List Ast) (rest : List Ast) (tail : Bool), plainSeq tail l = true →
    l ≠ [] → optimizeSeq rest l ≠ []
  | [], _, _, _, h => absurd rfl h
  | .seq l :: s, rest, tail, h, _ => by
    simp only [plainSeq, plain, Bool.and_eq_true] at h
    have hl : l ≠ [] := by rintro rfl; simp [void] at h
    have := optSeq_ne l (if (optimizeSeq rest s).isEmpty then rest else optimizeSeq rest s) _ h.1.2 hl
    simp only [optimizeSeq]
    intro h'
    exact this (List.append_eq_nil_iff.1 h').1
  | .rep .greedy m n l :: s, rest, tail, h, _ => by
    simp only [plainSeq, plain, Bool.and_eq_true] at h
    have hl : l ≠ [] := by rintro rfl; simp [void] at h
    have := optSeq_ne l (if (optimizeSeq rest s).isEmpty then rest else optimizeSeq rest s) _
      h.1.2.1.2 hl
    obtain ⟨k, x, b, e, _⟩ := optimizeSeq_greedy rest m n l s this
    rw [e]; simp
  | .rep .min _ _ _ :: _, _, _, _, _ => by simp [optimizeSeq]
  | .rep .while_ _ _ _ :: _, _, _, _, _ => by simp [optimizeSeq]
  | .char _ :: _, _, _, _, _ => by simp [optimizeSeq]
  | .cset _ :: _, _, _, _, _ => by simp [optimizeSeq]
  | .comp _ :: _, _, _, _, _ => by simp [optimizeSeq]
  | .any :: _, _, _, _, _ => by simp [optimizeSeq]
  | .bos :: _, _, _, _, _ => by simp [optimizeSeq]
  | .eos :: _, _, _, _, _ => by simp [optimizeSeq]
  | .bol :: _, _, _, _, _ => by simp [optimizeSeq]
  | .eol :: _, _, _, _, _ => by simp [optimizeSeq]
  | .wb :: _, _, _, _, _ => by simp [optimizeSeq]
  | .nwb :: _, _, _, _, _ => by simp [optimizeSeq]
  | .bow :: _, _, _, _, _ => by simp [optimizeSeq]
  | .eow :: _, _, _, _, _ => by simp [optimizeSeq]
  | .uncase _ :: _, _, _, _, _ => by simp [optimizeSeq]
  | .case_ _ :: _, _, _, _, _ => by simp [optimizeSeq]
  | .alt _ :: _, _, _, _, _ => by simp [optimizeSeq]
  | .group _ _ :: _, _, _, _, _ => by simp [optimizeSeq]
  | .backref _ :: _, _, _, _, _ => by simp [optimizeSeq]
  | .once _ :: _, _, _, _, _ => by simp [optimizeSeq]
  | .assert _ :: _, _, _, _, _ => by simp [optimizeSeq]
  | .nassert _ :: _, _, _, _, _ => by simp [optimizeSeq]

theorem optSeq_isEmpty {l rest : List Ast} {tail : Bool} (h : plainSeq tail l = true) :
    (optimizeSeq rest l).isEmpty = l.isEmpty := by
  cases l with
  | nil => simp [optimizeSeq]
  | cons a l =>
    have := optSeq_ne (a :: l) rest tail h (by simp)
    cases ho : optimizeSeq rest (a :: l) with
    | nil => exact absurd ho this
    | cons x y => rfl

/-- A body that is optimized to a single character was one. -/
theorem optSeq_single : ∀ (l : List Ast) (rest : List Ast) (tail : Bool), plainSeq tail l = true →
    singleChar (optimizeSeq rest l) = true → singleChar (flat l) = true
  | [], _, _, _, h => by simp [optimizeSeq, singleChar] at h
  | .seq l :: s, rest, tail, h, hs => by
    have hp := h
    simp only [plainSeq, plain, Bool.and_eq_true] at h
    have hl : l ≠ [] := by rintro rfl; simp [void] at h
    have hn := optSeq_ne l (if (optimizeSeq rest s).isEmpty then rest else optimizeSeq rest s)
      _ h.1.2 hl
    simp only [optimizeSeq] at hs
    -- the tail is empty
    have ht : optimizeSeq rest s = [] := by
      cases h1 : optimizeSeq (if (optimizeSeq rest s).isEmpty then rest else optimizeSeq rest s) l with
      | nil => exact absurd h1 hn
      | cons x b =>
        rw [h1] at hs
        cases h2 : optimizeSeq rest s with
        | nil => rfl
        | cons y r =>
          rw [h2] at hs
          exfalso
          revert hs
          cases b <;> cases x <;> simp [singleChar]
    have hse : s = [] := by
      have := optSeq_isEmpty (rest := rest) h.2
      rw [ht] at this
      exact List.isEmpty_iff.1 this.symm
    subst hse
    rw [ht, List.append_nil] at hs
    have := optSeq_single l _ _ h.1.2 hs
    simp only [flat, flat1, List.append_nil]; exact this
  | .rep .greedy m n l :: s, rest, tail, h, hs => by
    simp only [plainSeq, plain, Bool.and_eq_true] at h
    have hl : l ≠ [] := by rintro rfl; simp [void] at h
    have := optSeq_ne l (if (optimizeSeq rest s).isEmpty then rest else optimizeSeq rest s) _
      h.1.2.1.2 hl
    obtain ⟨k, x, b, e, _⟩ := optimizeSeq_greedy rest m n l s this
    rw [e] at hs
    cases hq : optimizeSeq rest s <;> rw [hq] at hs <;> simp [singleChar] at hs
  | .char c :: s, rest, tail, h, hs => by
    simp only [plainSeq, Bool.and_eq_true] at h
    cases s with
    | nil => simp [flat, flat1, singleChar]
    | cons a s =>
      exfalso
      have := optSeq_ne (a :: s) rest tail h.2 (by simp)
      simp only [optimizeSeq.eq_def rest (Ast.char c :: a :: s)] at hs
      cases hq : optimizeSeq rest (a :: s) with
      | nil => exact this hq
      | cons x y => simp only [hq] at hs; simp [singleChar, optimize] at hs
  | .cset c :: s, rest, tail, h, hs => by
    simp only [plainSeq, Bool.and_eq_true] at h
    cases s with
    | nil => simp [flat, flat1, singleChar]
    | cons a s =>
      exfalso
      have := optSeq_ne (a :: s) rest tail h.2 (by simp)
      simp only [optimizeSeq.eq_def rest (Ast.cset c :: a :: s)] at hs
      cases hq : optimizeSeq rest (a :: s) with
      | nil => exact this hq
      | cons x y => simp only [hq] at hs; simp [singleChar, optimize] at hs
  | .comp c :: s, rest, tail, h, hs => by
    simp only [plainSeq, Bool.and_eq_true] at h
    cases s with
    | nil => simp [flat, flat1, singleChar]
    | cons a s =>
      exfalso
      have := optSeq_ne (a :: s) rest tail h.2 (by simp)
      simp only [optimizeSeq.eq_def rest (Ast.comp c :: a :: s)] at hs
      cases hq : optimizeSeq rest (a :: s) with
      | nil => exact this hq
      | cons x y => simp only [hq] at hs; simp [singleChar, optimize] at hs
  | .any :: s, rest, tail, h, hs => by
    simp only [plainSeq, Bool.and_eq_true] at h
    cases s with
    | nil => simp [flat, flat1, singleChar]
    | cons a s =>
      exfalso
      have := optSeq_ne (a :: s) rest tail h.2 (by simp)
      simp only [optimizeSeq.eq_def rest (Ast.any :: a :: s)] at hs
      cases hq : optimizeSeq rest (a :: s) with
      | nil => exact this hq
      | cons x y => simp only [hq] at hs; simp [singleChar, optimize] at hs
  | .rep .min _ _ _ :: s, rest, _, _, hs => by
    simp only [optimizeSeq, optimize] at hs; simp [singleChar] at hs
  | .rep .while_ _ _ _ :: _, _, _, _, hs => by
    simp only [optimizeSeq, optimize] at hs; simp [singleChar] at hs
  | .bos :: _, _, _, _, hs => by simp only [optimizeSeq, optimize] at hs; simp [singleChar] at hs
  | .eos :: _, _, _, _, hs => by simp only [optimizeSeq, optimize] at hs; simp [singleChar] at hs
  | .bol :: _, _, _, _, hs => by simp only [optimizeSeq, optimize] at hs; simp [singleChar] at hs
  | .eol :: _, _, _, _, hs => by simp only [optimizeSeq, optimize] at hs; simp [singleChar] at hs
  | .wb :: _, _, _, _, hs => by simp only [optimizeSeq, optimize] at hs; simp [singleChar] at hs
  | .nwb :: _, _, _, _, hs => by simp only [optimizeSeq, optimize] at hs; simp [singleChar] at hs
  | .bow :: _, _, _, _, hs => by simp only [optimizeSeq, optimize] at hs; simp [singleChar] at hs
  | .eow :: _, _, _, _, hs => by simp only [optimizeSeq, optimize] at hs; simp [singleChar] at hs
  | .uncase _ :: _, _, _, _, hs => by
    simp only [optimizeSeq, optimize] at hs; simp [singleChar] at hs
  | .case_ _ :: _, _, _, _, hs => by
    simp only [optimizeSeq, optimize] at hs; simp [singleChar] at hs
  | .alt _ :: _, _, _, _, hs => by simp only [optimizeSeq, optimize] at hs; simp [singleChar] at hs
  | .group _ _ :: _, _, _, _, hs => by
    simp only [optimizeSeq, optimize] at hs; simp [singleChar] at hs
  | .backref _ :: _, _, _, _, hs => by
    simp only [optimizeSeq, optimize] at hs; simp [singleChar] at hs
  | .once _ :: _, _, _, _, hs => by simp only [optimizeSeq, optimize] at hs; simp [singleChar] at hs
  | .assert _ :: _, _, _, _, hs => by
    simp only [optimizeSeq, optimize] at hs; simp [singleChar] at hs
  | .nassert _ :: _, _, _, _, hs => by
    simp only [optimizeSeq, optimize] at hs; simp [singleChar] at hs

/-! ## the theorem -/

/-- What follows is described by `rest`. -/
def Good (cfg : Cfg) (A B : List CSet) (rest : List Ast) (κ : St → Option St) : Prop :=
  (∀ t, κ t ≠ none) ∨ ∃ y s, rest = y :: s ∧ ∀ h, headOf y = some h → headIn A B h ∧
    ∀ t, κ t ≠ none → ∃ c, cfg.text[t.pos]? = some c ∧ fitsHead h c

theorem findSome?_ne_none {l : List St} {κ : St → Option St} (h : l.findSome? κ ≠ none) :
    ∃ t ∈ l, κ t ≠ none := by
  induction l with
  | nil => exact absurd rfl h
  | cons a l ih =>
    rw [List.findSome?_cons] at h
    cases hk : κ a with
    | some y => exact ⟨a, by simp, by rw [hk]; simp⟩
    | none =>
      rw [hk] at h
      obtain ⟨t, ht, h⟩ := ih h
      exact ⟨t, by simp [ht], h⟩

theorem findSome?_single (st : St) (κ : St → Option St) : [st].findSome? κ = κ st := by
  rw [List.findSome?_cons]; cases κ st <;> rfl

/-- What follows an item of a sequence. -/
theorem good_next {A B : List CSet} {rest s : List Ast} {tail last : Bool} {κ : St → Option St}
    (hs : plainSeq tail s = true)
    (hA : ∀ x ∈ setsIns true s, x ∈ A) (hB : ∀ x ∈ setsIns false s, x ∈ B)
    (ih : ∀ t, (waysSeq cfg (optimizeSeq rest s) false last t).findSome? κ =
      (waysSeq cfg s false last t).findSome? κ)
    (hg : tail = true ∨ Good cfg A B rest κ) :
    (tail && s.isEmpty) = true ∨
      Good cfg A B (if (optimizeSeq rest s).isEmpty then rest else optimizeSeq rest s)
        (fun t => (waysSeq cfg s false last t).findSome? κ) := by
  cases s with
  | nil =>
    rcases hg with rfl | hg
    · exact Or.inl rfl
    · refine Or.inr ?_
      have e1 : (optimizeSeq rest []).isEmpty = true := by simp [optimizeSeq]
      rw [if_pos e1]
      have e2 : (fun t => (waysSeq cfg [] false last t).findSome? κ) = κ := by
        funext t
        simp only [waysSeq]
        exact findSome?_single t κ
      rw [e2]; exact hg
  | cons a s =>
    refine Or.inr (Or.inr ?_)
    have hne := optSeq_ne (a :: s) rest tail hs (by simp)
    have hheads := headOK_optSeq (cfg := cfg) (A := A) (B := B) (a :: s) rest tail hs hA hB
    cases ho : optimizeSeq rest (a :: s) with
    | nil => exact absurd ho hne
    | cons y r =>
      rw [if_neg (by simp)]
      refine ⟨y, r, rfl, ?_⟩
      intro h hh
      obtain ⟨h1, h2⟩ := hheads y (by rw [ho]; simp) h hh
      refine ⟨h1, ?_⟩
      intro t ht
      dsimp only at ht
      rw [← ih t, ho] at ht
      obtain ⟨u, hu, _⟩ := findSome?_ne_none ht
      simp only [waysSeq] at hu
      obtain ⟨v, hv, _⟩ := List.mem_flatMap.1 hu
      exact h2 _ t v hv

theorem good_map {A B : List CSet} {rest : List Ast} {κ : St → Option St} {u : St → St}
    (hu : ∀ t, (u t).pos = t.pos) (h : Good cfg A B rest κ) :
    Good cfg A B rest (fun t => κ (u t)) := by
  rcases h with h | ⟨y, s, e, h⟩
  · exact Or.inl fun t => h (u t)
  · refine Or.inr ⟨y, s, e, fun a ha => ⟨(h a ha).1, fun t ht => ?_⟩⟩
    obtain ⟨c, hc, hf⟩ := (h a ha).2 (u t) ht
    rw [hu] at hc
    exact ⟨c, hc, hf⟩

/-- A repetition whose body is replaced. -/
theorem eqv_rep {f g : St → List St} (h : Eqv f g) (lazy : Bool) (m : Nat) (n : Option Nat)
    (st : St) (κ : St → Option St) :
    (repW cfg lazy f m n st).findSome? κ = (repW cfg lazy g m n st).findSome? κ :=
  h.repW lazy m n st κ

/-- A single character as a body. -/
theorem single_one {b : List Ast} (h : singleChar b = true) :
    ∃ x P, b = [x] ∧ waysSeq cfg b false false = one cfg P ∧
      ((x = .any) ∨ (headOf x = some x ∧ ∀ c, P c = true → fitsHead x c)) := by
  have single : ∀ a, waysSeq cfg [a] false false = ways cfg a false false := by
    intro a; funext st
    simp only [waysSeq]
    simp
  rcases b with _ | ⟨a, _ | ⟨c, l⟩⟩
  · simp [singleChar] at h
  · cases a <;> simp only [singleChar] at h <;> try (cases h; done)
    case any => exact ⟨.any, fun _ => true, rfl, by rw [single]; simp only [ways], Or.inl rfl⟩
    case char d =>
      exact ⟨.char d, fun x => x == d, rfl, by rw [single]; simp only [ways]; rfl,
        Or.inr ⟨rfl, fun c hc => by simpa [fitsHead] using hc⟩⟩
    case cset s =>
      exact ⟨.cset s, inSet s, rfl, by rw [single]; simp only [ways],
        Or.inr ⟨rfl, fun c hc => hc⟩⟩
    case comp s =>
      exact ⟨.comp s, fun x => !inSet s x, rfl, by rw [single]; simp only [ways],
        Or.inr ⟨rfl, fun c hc => by simpa [fitsHead] using hc⟩⟩
  · cases a <;> simp [singleChar] at h

/-- `rep-while` for `rep`, where what follows allows it. -/
theorem while_ok {A B : List CSet} (hsep : Sep A B) {k : RepKind} {x : Ast} {b rest : List Ast}
    (m : Nat) (n : Option Nat) (last : Bool) (st : St) {κ : St → Option St}
    (hxh : ∀ h, headOf x = some h → headIn A B h)
    (hk : k = .greedy ∨ (k = .while_ ∧ ∀ y r, rest = y :: r → isDistinct x y = true))
    (hg : ¬ (n = none ∧ singleChar (x :: b) = true) ∨ Good cfg A B rest κ) :
    (ways cfg (.rep k m n (x :: b)) false last st).findSome? κ =
      (repW cfg false (waysSeq cfg (x :: b) false false) m n st).findSome? κ := by
  rcases hk with rfl | ⟨rfl, hd⟩
  · rw [ways_rep_eq .greedy m n _ false last (by rintro ⟨h, _⟩; cases h)]
    rfl
  · by_cases hc : n = none ∧ singleChar (x :: b) = true
    · obtain ⟨rfl, hsc⟩ := hc
      have hg : Good cfg A B rest κ := by
        rcases hg with hg | hg
        · exact absurd ⟨rfl, hsc⟩ hg
        · exact hg
      simp only [ways, repW]
      rw [findSome?_flatMap', findSome?_flatMap']
      apply findSome?_ext
      intro t _
      rw [if_neg (by decide), if_pos (by rw [hsc]; decide), if_neg (by decide)]
      rcases hg with hg | ⟨y, r, hr, hg⟩
      · rw [findSome?_take_one, findSome?_total hg]
      · obtain ⟨x', P, hb, hw, hx⟩ := single_one (cfg := cfg) hsc
        injection hb with hb1 hb2
        subst hb1
        rw [hw]
        apply star_take
        intro u c hu hP
        have hdis := hd y r hr
        unfold isDistinct at hdis
        rcases hx with rfl | ⟨hxx, hfit⟩
        · simp [headOf] at hdis
        · rw [hxx] at hdis
          cases hy : headOf y with
          | none => rw [hy] at hdis; simp at hdis
          | some z =>
            rw [hy] at hdis
            obtain ⟨hz, hgz⟩ := hg z hy
            cases hκ : κ u with
            | none => rfl
            | some w =>
              obtain ⟨c', hc', hf⟩ := hgz u (by rw [hκ]; simp)
              rw [hu] at hc'
              injection hc' with hc'
              subst hc'
              exact (distinct_spec hsep hdis (hxh x hxx) hz (hfit c hP) hf).elim
    · rw [ways_rep_eq .while_ m n _ false last (by rintro ⟨_, h1, h2⟩; exact hc ⟨h1, h2⟩)]
      rfl

theorem eqv_cons {a a' : Ast} {r : List Ast} {last : Bool}
    (h : ∀ (b : Bool) (st : St) (κ : St → Option St), (ways cfg a' false b st).findSome? κ = (ways cfg a false b st).findSome? κ) :
    Eqv (waysSeq cfg (a' :: r) false last) (waysSeq cfg (a :: r) false last) := by
  intro st κ
  simp only [waysSeq]
  rw [findSome?_flatMap', findSome?_flatMap']
  exact h _ st _

theorem once_eq {l l' : List Ast} (last : Bool)
    (h : ∀ st, (waysSeq cfg l' false true st).findSome? some =
      (waysSeq cfg l false true st).findSome? some) (st : St) (κ : St → Option St) :
    (ways cfg (.once l') false last st).findSome? κ =
      (ways cfg (.once l) false last st).findSome? κ := by
  simp only [ways]
  rw [findSome?_take_one, findSome?_take_one, head?_eq, head?_eq, h]

theorem take_one_eq (l : List St) : l.take 1 = l.head?.toList := by cases l <;> rfl

theorem assert_eq {l l' : List Ast} (last : Bool)
    (h : ∀ st, (waysSeq cfg l' false true st).findSome? some =
      (waysSeq cfg l false true st).findSome? some) (st : St) (κ : St → Option St) :
    (ways cfg (.assert l') false last st).findSome? κ =
      (ways cfg (.assert l) false last st).findSome? κ := by
  simp only [ways]
  rw [take_one_eq, take_one_eq, head?_eq, head?_eq, h]

theorem nassert_eq {l l' : List Ast} (last : Bool)
    (h : ∀ st, (waysSeq cfg l' false true st).findSome? some =
      (waysSeq cfg l false true st).findSome? some) (st : St) (κ : St → Option St) :
    (ways cfg (.nassert l') false last st).findSome? κ =
      (ways cfg (.nassert l) false last st).findSome? κ := by
  have : (waysSeq cfg l' false true st).isEmpty = (waysSeq cfg l false true st).isEmpty := by
    have := h st
    rw [← head?_eq, ← head?_eq] at this
    cases h1 : waysSeq cfg l' false true st <;> cases h2 : waysSeq cfg l false true st <;>
      rw [h1, h2] at this <;> simp at this ⊢
  simp only [ways]
  rw [this]

mutual
theorem opt_ways {A B : List CSet} (hsep : Sep A B) : ∀ (a : Ast) (rest : List Ast)
    (tail last : Bool) (st : St) (κ : St → Option St), plain tail a = true →
    (∀ s ∈ setsIn true a, s ∈ A) → (∀ s ∈ setsIn false a, s ∈ B) →
    (tail = true ∨ Good cfg A B rest κ) →
    (ways cfg (optimize rest a) false last st).findSome? κ =
      (ways cfg a false last st).findSome? κ
  | .seq l, rest, tail, last, st, κ, h, hA, hB, hg => by
    simp only [plain] at h
    simp only [setsIn] at hA hB
    simp only [optimize, ways]
    exact opt_seq hsep l rest tail last st κ h hA hB hg
  | .alt l, rest, tail, last, st, κ, h, hA, hB, hg => by
    simp only [plain] at h
    simp only [setsIn] at hA hB
    simp only [optimize, ways]
    exact opt_alt hsep l rest tail last st κ h hA hB hg
  | .group g l, rest, tail, last, st, κ, h, hA, hB, hg => by
    simp only [plain] at h
    simp only [setsIn] at hA hB
    simp only [optimize, ways]
    rw [List.findSome?_map, List.findSome?_map]
    apply opt_seq hsep l rest tail last st _ h hA hB
    rcases hg with hg | hg
    · exact Or.inl hg
    · exact Or.inr (good_map (u := fun t => { t with caps := fun x => if x = g then some (st.pos, t.pos) else t.caps x })
        (fun t => rfl) hg)
  | .once l, rest, tail, last, st, κ, h, hA, hB, _ => by
    simp only [plain] at h
    simp only [setsIn] at hA hB
    simp only [optimize]
    exact once_eq last (fun st => opt_seq hsep l rest false true st some h hA hB
      (Or.inr (Or.inl fun t => by simp))) st κ
  | .assert l, rest, tail, last, st, κ, h, hA, hB, _ => by
    simp only [plain] at h
    simp only [setsIn] at hA hB
    simp only [optimize]
    exact assert_eq last (fun st => opt_seq hsep l rest false true st some h hA hB
      (Or.inr (Or.inl fun t => by simp))) st κ
  | .nassert l, rest, tail, last, st, κ, h, hA, hB, _ => by
    simp only [plain] at h
    simp only [setsIn] at hA hB
    simp only [optimize]
    exact nassert_eq last (fun st => opt_seq hsep l rest false true st some h hA hB
      (Or.inr (Or.inl fun t => by simp))) st κ
  | .rep k m n l, rest, tail, last, st, κ, h, hA, hB, _ => by
    simp only [plain, Bool.and_eq_true, decide_eq_true_eq] at h
    simp only [setsIn] at hA hB
    simp only [optimize]
    have hk : ∀ x : List Ast, ¬ (k = .while_ ∧ n = none ∧ singleChar x = true) :=
      fun x hx => h.1.1.1 hx.1
    rw [ways_rep_eq k m n _ false last (hk _), ways_rep_eq k m n _ false last (hk _)]
    exact eqv_rep (opt_body hsep l rest h.1.1.2 h.1.2 hA hB) _ m n st κ
  | .uncase _, _, _, _, _, _, h, _, _, _ => by simp [plain] at h
  | .case_ _, _, _, _, _, _, h, _, _, _ => by simp [plain] at h
  | .char _, _, _, _, _, _, _, _, _, _ => by simp only [optimize]
  | .cset _, _, _, _, _, _, _, _, _, _ => by simp only [optimize]
  | .comp _, _, _, _, _, _, _, _, _, _ => by simp only [optimize]
  | .any, _, _, _, _, _, _, _, _, _ => by simp only [optimize]
  | .bos, _, _, _, _, _, _, _, _, _ => by simp only [optimize]
  | .eos, _, _, _, _, _, _, _, _, _ => by simp only [optimize]
  | .bol, _, _, _, _, _, _, _, _, _ => by simp only [optimize]
  | .eol, _, _, _, _, _, _, _, _, _ => by simp only [optimize]
  | .wb, _, _, _, _, _, _, _, _, _ => by simp only [optimize]
  | .nwb, _, _, _, _, _, _, _, _, _ => by simp only [optimize]
  | .bow, _, _, _, _, _, _, _, _, _ => by simp only [optimize]
  | .eow, _, _, _, _, _, _, _, _, _ => by simp only [optimize]
  | .backref _, _, _, _, _, _, _, _, _, _ => by simp only [optimize]
theorem opt_body {A B : List CSet} (hsep : Sep A B) : ∀ (l : List Ast) (rest : List Ast),
    body1 l = true → plainSeq true l = true →
    (∀ s ∈ setsIns true l, s ∈ A) → (∀ s ∈ setsIns false l, s ∈ B) →
    Eqv (waysSeq cfg (optimizeRepBody rest l) false false) (waysSeq cfg l false false)
  | [], _, h, _, _, _ => by simp [body1] at h
  | _ :: _ :: _, _, h, _, _, _ => by simp [body1] at h
  | [.alt _], _, h, _, _, _ => by simp [body1] at h
  | [.uncase _], _, _, h, _, _ => by simp [plainSeq, plain] at h
  | [.case_ _], _, _, h, _, _ => by simp [plainSeq, plain] at h
  | [.seq l], rest, _, h, hA, hB => by
    simp only [plainSeq, plain, Bool.and_eq_true] at h
    simp only [setsIns, setsIn, List.append_nil] at hA hB
    simp only [optimizeRepBody]
    apply eqv_cons
    intro b st κ
    simp only [ways]
    exact opt_seq hsep l rest true b st κ h.1.2 hA hB (Or.inl rfl)
  | [.group g l], rest, _, h, hA, hB => by
    simp only [plainSeq, plain, Bool.and_eq_true] at h
    simp only [setsIns, setsIn, List.append_nil] at hA hB
    simp only [optimizeRepBody]
    apply eqv_cons
    intro b st κ
    simp only [ways]
    rw [List.findSome?_map, List.findSome?_map]
    exact opt_seq hsep l rest true b st _ h.1.2 hA hB (Or.inl rfl)
  | [.once l], rest, _, h, hA, hB => by
    simp only [plainSeq, plain, Bool.and_eq_true] at h
    simp only [setsIns, setsIn, List.append_nil] at hA hB
    simp only [optimizeRepBody]
    apply eqv_cons
    intro b st κ
    exact once_eq b (fun st => opt_seq hsep l rest false true st some h.1.2 hA hB
      (Or.inr (Or.inl fun t => by simp))) st κ
  | [.assert l], rest, _, h, hA, hB => by
    simp only [plainSeq, plain, Bool.and_eq_true] at h
    simp only [setsIns, setsIn, List.append_nil] at hA hB
    simp only [optimizeRepBody]
    apply eqv_cons
    intro b st κ
    exact assert_eq b (fun st => opt_seq hsep l rest false true st some h.1.2 hA hB
      (Or.inr (Or.inl fun t => by simp))) st κ
  | [.nassert l], rest, _, h, hA, hB => by
    simp only [plainSeq, plain, Bool.and_eq_true] at h
    simp only [setsIns, setsIn, List.append_nil] at hA hB
    simp only [optimizeRepBody]
    apply eqv_cons
    intro b st κ
    exact nassert_eq b (fun st => opt_seq hsep l rest false true st some h.1.2 hA hB
      (Or.inr (Or.inl fun t => by simp))) st κ
  | [.rep k m n l], rest, _, h, hA, hB => by
    simp only [plainSeq, plain, Bool.and_eq_true, decide_eq_true_eq] at h
    simp only [setsIns, setsIn, List.append_nil] at hA hB
    simp only [optimizeRepBody]
    apply eqv_cons
    intro b st κ
    have hk : ∀ x : List Ast, ¬ (k = .while_ ∧ n = none ∧ singleChar x = true) :=
      fun x hx => h.1.2.1.1.1 hx.1
    rw [ways_rep_eq k m n _ false b (hk _), ways_rep_eq k m n _ false b (hk _)]
    exact eqv_rep (fun st κ => opt_seq hsep l rest true false st κ h.1.2.1.2 hA hB (Or.inl rfl))
      _ m n st κ
  | [.char _], _, _, _, _, _ => fun _ _ => by simp only [optimizeRepBody]
  | [.cset _], _, _, _, _, _ => fun _ _ => by simp only [optimizeRepBody]
  | [.comp _], _, _, _, _, _ => fun _ _ => by simp only [optimizeRepBody]
  | [.any], _, _, _, _, _ => fun _ _ => by simp only [optimizeRepBody]
  | [.bos], _, _, _, _, _ => fun _ _ => by simp only [optimizeRepBody]
  | [.eos], _, _, _, _, _ => fun _ _ => by simp only [optimizeRepBody]
  | [.bol], _, _, _, _, _ => fun _ _ => by simp only [optimizeRepBody]
  | [.eol], _, _, _, _, _ => fun _ _ => by simp only [optimizeRepBody]
  | [.wb], _, _, _, _, _ => fun _ _ => by simp only [optimizeRepBody]
  | [.nwb], _, _, _, _, _ => fun _ _ => by simp only [optimizeRepBody]
  | [.bow], _, _, _, _, _ => fun _ _ => by simp only [optimizeRepBody]
  | [.eow], _, _, _, _, _ => fun _ _ => by simp only [optimizeRepBody]
  | [.backref _], _, _, _, _, _ => fun _ _ => by simp only [optimizeRepBody]
theorem opt_seq {A B : List CSet} (hsep : Sep A B) : ∀ (l : List Ast) (rest : List Ast)
    (tail last : Bool) (st : St) (κ : St → Option St), plainSeq tail l = true →
    (∀ s ∈ setsIns true l, s ∈ A) → (∀ s ∈ setsIns false l, s ∈ B) →
    (tail = true ∨ Good cfg A B rest κ) →
    (waysSeq cfg (optimizeSeq rest l) false last st).findSome? κ =
      (waysSeq cfg l false last st).findSome? κ
  | [], _, _, _, _, _, _, _, _, _ => by simp only [optimizeSeq]
  | a :: s, rest, tail, last, st, κ, h, hA, hB, hg => by
    have h0 := h
    simp only [plainSeq, Bool.and_eq_true] at h
    obtain ⟨⟨hv, h1⟩, h2⟩ := h
    simp only [setsIns, List.mem_append] at hA hB
    have hAs : ∀ x ∈ setsIns true s, x ∈ A := fun x hx => hA x (Or.inr hx)
    have hBs : ∀ x ∈ setsIns false s, x ∈ B := fun x hx => hB x (Or.inr hx)
    have hAa : ∀ x ∈ setsIn true a, x ∈ A := fun x hx => hA x (Or.inl hx)
    have hBa : ∀ x ∈ setsIn false a, x ∈ B := fun x hx => hB x (Or.inl hx)
    have ihs := fun t => opt_seq hsep s rest tail last t κ h2 hAs hBs hg
    have hnext := good_next h2 hAs hBs ihs hg
    have hem := optSeq_isEmpty (rest := rest) h2
    -- an item that stays an item
    have common : ∀ a', (∀ st, (ways cfg a' false (last && s.isEmpty) st).findSome?
          (fun t => (waysSeq cfg s false last t).findSome? κ) =
        (ways cfg a false (last && s.isEmpty) st).findSome?
          (fun t => (waysSeq cfg s false last t).findSome? κ)) →
        (waysSeq cfg (a' :: optimizeSeq rest s) false last st).findSome? κ =
          (waysSeq cfg (a :: s) false last st).findSome? κ := by
      intro a' ha
      simp only [waysSeq]
      rw [findSome?_flatMap', findSome?_flatMap', hem]
      rw [← ha st]
      exact findSome?_ext fun t _ => ihs t
    have plainCase : (optimizeSeq rest (a :: s) =
          optimize (if (optimizeSeq rest s).isEmpty then rest else optimizeSeq rest s) a ::
            optimizeSeq rest s) →
        (waysSeq cfg (optimizeSeq rest (a :: s)) false last st).findSome? κ =
          (waysSeq cfg (a :: s) false last st).findSome? κ := by
      intro he
      rw [he]
      apply common
      intro st
      exact opt_ways hsep a _ (tail && s.isEmpty) _ st _ h1 hAa hBa hnext
    cases a with
    | seq l =>
      simp only [plain] at h1
      simp only [setsIn] at hAa hBa
      simp only [optimizeSeq, waysSeq, ways]
      rw [waysSeq_append, findSome?_flatMap', findSome?_flatMap', hem]
      rw [findSome?_ext fun t _ => ihs t]
      rw [hem] at hnext
      exact opt_seq hsep l _ (tail && s.isEmpty) _ st _ h1 hAa hBa hnext
    | rep k m n l =>
      cases k with
      | greedy =>
        simp only [plain, Bool.and_eq_true, decide_eq_true_eq] at h1
        simp only [setsIn] at hAa hBa
        obtain ⟨⟨⟨_, hb1⟩, hpl⟩, hns⟩ := h1
        have hl : l ≠ [] := by rintro rfl; simp [body1] at hb1
        have hne := optSeq_ne l (if (optimizeSeq rest s).isEmpty then rest else optimizeSeq rest s)
          true hpl hl
        obtain ⟨k, x, b, e, hxb, hk⟩ := optimizeSeq_greedy rest m n l s hne
        rw [e]
        apply common
        intro st
        have hbody : Eqv (waysSeq cfg (optimizeSeq (if (optimizeSeq rest s).isEmpty then rest
            else optimizeSeq rest s) l) false false) (waysSeq cfg l false false) :=
          fun st κ => opt_seq hsep l _ true false st κ hpl hAa hBa (Or.inl rfl)
        have hheads := headOK_optSeq (cfg := cfg) (A := A) (B := B) l
          (if (optimizeSeq rest s).isEmpty then rest else optimizeSeq rest s) true hpl hAa hBa
        rw [ways_rep_eq .greedy m n l false _ (by rintro ⟨h, _⟩; cases h)]
        have := eqv_rep (cfg := cfg) hbody false m n st
          (fun t => (waysSeq cfg s false last t).findSome? κ)
        refine Eq.trans ?_ this
        rw [hxb]
        refine while_ok hsep m n _ st (fun h hh => (hheads x (by rw [hxb]; simp) h hh).1) hk ?_
        rcases hnext with ht | hgood
        · left
          rintro ⟨rfl, hsc⟩
          rw [← hxb] at hsc
          have := optSeq_single l _ true hpl hsc
          rw [ht, this] at hns
          simp at hns
        · exact Or.inr hgood
      | min => exact plainCase (by simp only [optimizeSeq])
      | while_ => exact plainCase (by simp only [optimizeSeq])
    | _ => exact plainCase (by simp only [optimizeSeq])
theorem opt_alt {A B : List CSet} (hsep : Sep A B) : ∀ (l : List Ast) (rest : List Ast)
    (tail last : Bool) (st : St) (κ : St → Option St), plainAlt tail l = true →
    (∀ s ∈ setsIns true l, s ∈ A) → (∀ s ∈ setsIns false l, s ∈ B) →
    (tail = true ∨ Good cfg A B rest κ) →
    (waysAlt cfg (optimizeAlt rest l) false last st).findSome? κ =
      (waysAlt cfg l false last st).findSome? κ
  | [], _, _, _, _, _, _, _, _, _ => by simp only [optimizeAlt]
  | a :: l, rest, tail, last, st, κ, h, hA, hB, hg => by
    simp only [plainAlt, Bool.and_eq_true] at h
    simp only [setsIns, List.mem_append] at hA hB
    simp only [optimizeAlt, waysAlt]
    rw [List.findSome?_append, List.findSome?_append,
      opt_ways hsep a rest tail last st κ h.1 (fun x hx => hA x (Or.inl hx))
        (fun x hx => hB x (Or.inl hx)) hg,
      opt_alt hsep l rest tail last st κ h.2 (fun x hx => hA x (Or.inr hx))
        (fun x hx => hB x (Or.inr hx)) hg]
end

/-- The first way is kept. -/
theorem optimize_first {a : Ast} (h : plain false a = true) (hsep : Separate a) (last : Bool)
    (st : St) :
    (ways cfg (regOptimize a) false last st).head? = (ways cfg a false last st).head? := by
  rw [head?_eq, head?_eq]
  exact opt_ways (A := setsIn true a) (B := setsIn false a) hsep a [] false last st some h
    (fun _ h => h) (fun _ h => h) (Or.inr (Or.inl fun t => by simp))

end
end Gauche.Regex

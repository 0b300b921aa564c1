import Verif.Proof.RegexLang

/-!
# The optimizer makes a simple prefix of `x+` only
-/

namespace Gauche.Regex

open Gauche.Utf8 Gauche.Spec.Utf8 Spec

theorem simple_single {m : Nat} {n : Option Nat} {k : RepKind} {l : List Ast}
    (h : simplePrefixed (.rep k m n l) = true) : m = 1 ∧ n = none ∧ singleChar l = true := by
  cases k with
  | greedy => simp [simplePrefixed] at h
  | min => simp [simplePrefixed] at h
  | while_ =>
    rcases m with _ | _ | m
    · simp [simplePrefixed] at h
    · cases n with
      | some n => simp [simplePrefixed] at h
      | none =>
        rcases l with _ | ⟨a, _ | ⟨b, l⟩⟩
        · simp [simplePrefixed] at h
        · have h : isCharOrCharset a = true := h
          refine ⟨rfl, rfl, ?_⟩
          cases a <;> simp [isCharOrCharset] at h <;> rfl
        · simp [simplePrefixed] at h
    · simp [simplePrefixed] at h

mutual
theorem plus_opt : ∀ (a : Ast) (rest : List Ast) (tail : Bool), plain tail a = true →
    simplePrefixed (optimize rest a) = true → plusHead .greedy a = true
  | .seq l, rest, tail, h, hs => by
    simp only [plain] at h
    simp only [optimize] at hs
    simp only [plusHead]
    cases ho : optimizeSeq rest l with
    | nil => rw [ho] at hs; simp [simplePrefixed] at hs
    | cons x b =>
      rw [ho] at hs
      simp only [simplePrefixed] at hs
      exact plus_optSeq l rest tail x b h ho hs
  | .group g l, rest, tail, h, hs => by
    simp only [plain] at h
    simp only [optimize] at hs
    simp only [plusHead]
    cases ho : optimizeSeq rest l with
    | nil => rw [ho] at hs; simp [simplePrefixed] at hs
    | cons x b =>
      rw [ho] at hs
      simp only [simplePrefixed] at hs
      exact plus_optSeq l rest tail x b h ho hs
  | .rep k m n l, rest, tail, h, hs => by
    simp only [plain, Bool.and_eq_true, decide_eq_true_eq] at h
    simp only [optimize] at hs
    cases k with
    | while_ => exact absurd rfl h.1.1.1
    | greedy => simp [simplePrefixed] at hs
    | min => simp [simplePrefixed] at hs
  | .alt _, _, _, _, hs => by simp [optimize, simplePrefixed] at hs
  | .uncase _, _, _, _, hs => by simp [optimize, simplePrefixed] at hs
  | .case_ _, _, _, _, hs => by simp [optimize, simplePrefixed] at hs
  | .once _, _, _, _, hs => by simp [optimize, simplePrefixed] at hs
  | .assert _, _, _, _, hs => by simp [optimize, simplePrefixed] at hs
  | .nassert _, _, _, _, hs => by simp [optimize, simplePrefixed] at hs
  | .char _, _, _, _, hs => by simp [optimize, simplePrefixed] at hs
  | .cset _, _, _, _, hs => by simp [optimize, simplePrefixed] at hs
  | .comp _, _, _, _, hs => by simp [optimize, simplePrefixed] at hs
  | .any, _, _, _, hs => by simp [optimize, simplePrefixed] at hs
  | .bos, _, _, _, hs => by simp [optimize, simplePrefixed] at hs
  | .eos, _, _, _, hs => by simp [optimize, simplePrefixed] at hs
  | .bol, _, _, _, hs => by simp [optimize, simplePrefixed] at hs
  | .eol, _, _, _, hs => by simp [optimize, simplePrefixed] at hs
  | .wb, _, _, _, hs => by simp [optimize, simplePrefixed] at hs
  | .nwb, _, _, _, hs => by simp [optimize, simplePrefixed] at hs
  | .bow, _, _, _, hs => by simp [optimize, simplePrefixed] at hs
  | .eow, _, _, _, hs => by simp [optimize, simplePrefixed] at hs
  | .backref _, _, _, _, hs => by simp [optimize, simplePrefixed] at hs
theorem plus_optSeq : ∀ (l rest : List Ast) (tail : Bool) (x : Ast) (b : List Ast),
    plainSeq tail l = true → optimizeSeq rest l = x :: b → simplePrefixed x = true →
    plusHeads .greedy l = true
  | [], _, _, _, _, _, ho, _ => by simp [optimizeSeq] at ho
  | a :: s, rest, tail, x, b, h, ho, hs => by
    simp only [plainSeq, Bool.and_eq_true] at h
    obtain ⟨⟨hv, h1⟩, h2⟩ := h
    simp only [plusHeads]
    have plainCase : (optimizeSeq rest (a :: s) =
          optimize (if (optimizeSeq rest s).isEmpty then rest else optimizeSeq rest s) a ::
            optimizeSeq rest s) → plusHead .greedy a = true := by
      intro he
      rw [he] at ho
      injection ho with ho1 ho2
      rw [← ho1] at hs
      exact plus_opt a _ _ h1 hs
    cases a with
    | seq l =>
      simp only [plain] at h1
      simp only [optimizeSeq] at ho
      simp only [plusHead]
      have hl : l ≠ [] := by rintro rfl; simp [void] at hv
      cases hq : optimizeSeq (if (optimizeSeq rest s).isEmpty then rest else optimizeSeq rest s) l with
      | nil => exact absurd hq (optSeq_ne l _ _ h1 hl)
      | cons y r =>
        rw [hq] at ho
        simp only [List.cons_append, List.cons.injEq] at ho
        exact plus_optSeq l _ _ y r h1 hq (by rw [ho.1]; exact hs)
    | rep k m n l =>
      cases k with
      | greedy =>
        simp only [plain, Bool.and_eq_true, decide_eq_true_eq] at h1
        obtain ⟨⟨⟨_, hb1⟩, hpl⟩, hns⟩ := h1
        have hl : l ≠ [] := by rintro rfl; simp [body1] at hb1
        have hne := optSeq_ne l (if (optimizeSeq rest s).isEmpty then rest else optimizeSeq rest s)
          true hpl hl
        obtain ⟨k, x', b', e, hxb, hk⟩ := optimizeSeq_greedy rest m n l s hne
        rw [e] at ho
        injection ho with ho1 ho2
        rw [← ho1] at hs
        obtain ⟨rfl, rfl, hsc⟩ := simple_single hs
        simp only [plusHead]
        rw [optSeq_single l _ true hpl hsc]
        decide
      | min => exact plainCase (by simp only [optimizeSeq])
      | while_ => exact plainCase (by simp only [optimizeSeq])
    | _ => exact plainCase (by simp only [optimizeSeq])
end

theorem simple_plus : ∀ (a : Ast), simplePrefixed a = true → plusHead .while_ a = true
  | .rep k m n l, h => by
    obtain ⟨rfl, rfl, hs⟩ := simple_single h
    have hk : k = .while_ := by cases k <;> simp [simplePrefixed] at h ⊢
    have : singleChar (flat l) = true := by
      rcases l with _ | ⟨a, _ | ⟨b, l⟩⟩
      · simp [singleChar] at hs
      · cases a <;> simp [singleChar] at hs <;> simp [flat, flat1, singleChar]
      · cases a <;> simp [singleChar] at hs
    simp [plusHead, hk, this]
  | .seq [], h => by simp [simplePrefixed] at h
  | .seq (a :: l), h => by
    simp only [simplePrefixed] at h
    simp only [plusHead, plusHeads]
    exact simple_plus a h
  | .group _ [], h => by simp [simplePrefixed] at h
  | .group g (a :: l), h => by
    simp only [simplePrefixed] at h
    simp only [plusHead, plusHeads]
    exact simple_plus a h
  | .alt _, h => by simp [simplePrefixed] at h
  | .uncase _, h => by simp [simplePrefixed] at h
  | .case_ _, h => by simp [simplePrefixed] at h
  | .once _, h => by simp [simplePrefixed] at h
  | .assert _, h => by simp [simplePrefixed] at h
  | .nassert _, h => by simp [simplePrefixed] at h
  | .char _, h => by simp [simplePrefixed] at h
  | .cset _, h => by simp [simplePrefixed] at h
  | .comp _, h => by simp [simplePrefixed] at h
  | .any, h => by simp [simplePrefixed] at h
  | .bos, h => by simp [simplePrefixed] at h
  | .eos, h => by simp [simplePrefixed] at h
  | .bol, h => by simp [simplePrefixed] at h
  | .eol, h => by simp [simplePrefixed] at h
  | .wb, h => by simp [simplePrefixed] at h
  | .nwb, h => by simp [simplePrefixed] at h
  | .bow, h => by simp [simplePrefixed] at h
  | .eow, h => by simp [simplePrefixed] at h
  | .backref _, h => by simp [simplePrefixed] at h

variable {cfg : Cfg}

theorem leftmost_opt {a : Ast} (h : plain false a = true) (hsep : Separate a) :
    leftmost cfg (regOptimize a) = leftmost cfg a := by
  unfold leftmost
  exact findSome?_ext fun i _ => optimize_first h hsep true _

end Gauche.Regex

import Verif.Proof.RegexOpt2

/-!
# The optimizer keeps patterns within the limits
-/

namespace Gauche.Regex

open Gauche.Utf8 Gauche.Spec.Utf8 Spec

/-- What is kept of an item. -/
def KP (L : Lim) (a a' : Ast) : Prop :=
  (consumes a = true → consumes a' = true) ∧ (noGroup a = true → noGroup a' = true) ∧
    (noEol a = true → noEol a' = true) ∧ ∀ op, ok L a false op = true → ok L a' false op = true

/-- What is kept of a sequence. -/
def KS (L : Lim) (a a' : List Ast) : Prop :=
  (consumesSeq a = true → consumesSeq a' = true) ∧ (noGroups a = true → noGroups a' = true) ∧
    (noEols a = true → noEols a' = true) ∧ ∀ op, okSeq L a false op = true → okSeq L a' false op = true

/-- What is kept of alternatives. -/
def KA (L : Lim) (a a' : List Ast) : Prop :=
  (consumesAll a = true → consumesAll a' = true) ∧ (noGroups a = true → noGroups a' = true) ∧
    (noEols a = true → noEols a' = true) ∧ ∀ op, okSeq L a false op = true → okSeq L a' false op = true

variable {L : Lim}

theorem KP.rfl {a : Ast} : KP L a a := ⟨id, id, id, fun _ => id⟩
theorem KS.rfl {a : List Ast} : KS L a a := ⟨id, id, id, fun _ => id⟩

theorem KS.cons {a a' : Ast} {l l' : List Ast} (h : KP L a a') (g : KS L l l') :
    KS L (a :: l) (a' :: l') := by
  obtain ⟨h1, h2, h3, h4⟩ := h
  obtain ⟨g1, g2, g3, g4⟩ := g
  refine ⟨?_, ?_, ?_, ?_⟩ <;>
    simp only [consumesSeq, noGroups, noEols, okSeq, Bool.or_eq_true, Bool.and_eq_true]
  · exact Or.imp h1 g1
  · exact And.imp h2 g2
  · exact And.imp h3 g3
  · exact fun op => And.imp (h4 op) (g4 op)

theorem consumesSeq_append (l s : List Ast) :
    consumesSeq (l ++ s) = (consumesSeq l || consumesSeq s) := by
  induction l with
  | nil => simp [consumesSeq]
  | cons a l ih => simp [consumesSeq, ih, Bool.or_assoc]

theorem noGroups_append (l s : List Ast) :
    noGroups (l ++ s) = (noGroups l && noGroups s) := by
  induction l with
  | nil => simp [noGroups]
  | cons a l ih => simp [noGroups, ih, Bool.and_assoc]

theorem noEols_append (l s : List Ast) :
    noEols (l ++ s) = (noEols l && noEols s) := by
  induction l with
  | nil => simp [noEols]
  | cons a l ih => simp [noEols, ih, Bool.and_assoc]

theorem okSeq_append (l s : List Ast) (op : List Nat) :
    okSeq L (l ++ s) false op = (okSeq L l false op && okSeq L s false op) := by
  induction l with
  | nil => simp [okSeq]
  | cons a l ih => simp [okSeq, ih, Bool.and_assoc]

theorem KS.flat {l l' s s' : List Ast} (h : KS L l l') (g : KS L s s') :
    KS L (.seq l :: s) (l' ++ s') := by
  obtain ⟨h1, h2, h3, h4⟩ := h
  obtain ⟨g1, g2, g3, g4⟩ := g
  refine ⟨?_, ?_, ?_, ?_⟩ <;>
    simp only [consumesSeq, noGroups, noEols, okSeq, consumes, noGroup, noEol, ok,
      consumesSeq_append, noGroups_append, noEols_append, okSeq_append,
      Bool.or_eq_true, Bool.and_eq_true]
  · exact Or.imp h1 g1
  · exact And.imp h2 g2
  · exact And.imp h3 g3
  · exact fun op => And.imp (h4 op) (g4 op)

theorem KP.rep {k k' : RepKind} {m : Nat} {n : Option Nat} {l l' : List Ast} (h : KS L l l') :
    KP L (.rep k m n l) (.rep k' m n l') := by
  obtain ⟨h1, h2, h3, h4⟩ := h
  refine ⟨?_, ?_, ?_, ?_⟩ <;>
    simp only [consumes, noGroup, noEol, ok, Bool.or_eq_true, Bool.and_eq_true]
  · exact And.imp_right h1
  · exact h2
  · exact id
  · intro op
    refine And.imp (And.imp (h4 op) (Or.imp_right h3)) ?_
    cases n with
    | some n => exact id
    | none => simp only [Bool.false_and, Bool.not_false, Bool.and_true]; exact h1

theorem KP.seq {l l' : List Ast} (h : KS L l l') : KP L (.seq l) (.seq l') := by
  obtain ⟨h1, h2, h3, h4⟩ := h
  exact ⟨by simpa only [consumes] using h1, by simpa only [noGroup] using h2,
    by simpa only [noEol] using h3, by simpa only [ok] using h4⟩

theorem KP.alt {l l' : List Ast} (h : KA L l l') : KP L (.alt l) (.alt l') := by
  obtain ⟨h1, h2, h3, h4⟩ := h
  exact ⟨by simpa only [consumes] using h1, by simpa only [noGroup] using h2,
    by simpa only [noEol] using h3, by simpa only [ok] using h4⟩

theorem KP.group {g : Nat} {l l' : List Ast} (h : KS L l l') : KP L (.group g l) (.group g l') := by
  obtain ⟨h1, h2, h3, h4⟩ := h
  refine ⟨by simpa only [consumes] using h1, by simp [noGroup],
    by simpa only [noEol] using h3, ?_⟩
  simp only [ok, Bool.and_eq_true]
  exact fun op => And.imp_right (h4 _)

theorem KP.once {l l' : List Ast} (h : KS L l l') : KP L (.once l) (.once l') := by
  obtain ⟨h1, h2, h3, h4⟩ := h
  refine ⟨by simpa only [consumes] using h1, by simpa only [noGroup] using h2,
    by simp [noEol], ?_⟩
  simp only [ok, Bool.and_eq_true]
  exact fun op => And.imp h2 (h4 _)

theorem KP.assert {l l' : List Ast} (h : KS L l l') : KP L (.assert l) (.assert l') := by
  obtain ⟨h1, h2, h3, h4⟩ := h
  refine ⟨by simp [consumes], by simpa only [noGroup] using h2, by simp [noEol], ?_⟩
  simp only [ok, Bool.and_eq_true]
  exact fun op => And.imp h2 (h4 _)

theorem KP.nassert {l l' : List Ast} (h : KS L l l') : KP L (.nassert l) (.nassert l') := by
  obtain ⟨h1, h2, h3, h4⟩ := h
  refine ⟨by simp [consumes], by simpa only [noGroup] using h2, by simp [noEol], ?_⟩
  simp only [ok, Bool.and_eq_true]
  exact fun op => And.imp h2 (h4 _)

mutual
theorem kp_opt : ∀ (a : Ast) (rest : List Ast) (tail : Bool), plain tail a = true →
    KP L a (optimize rest a)
  | .seq l, rest, tail, h => by
    simp only [plain] at h
    simp only [optimize]
    exact KP.seq (ks_opt l rest tail h)
  | .alt l, rest, tail, h => by
    simp only [plain] at h
    simp only [optimize]
    exact KP.alt (ka_opt l rest tail h)
  | .group g l, rest, tail, h => by
    simp only [plain] at h
    simp only [optimize]
    exact KP.group (ks_opt l rest tail h)
  | .once l, rest, tail, h => by
    simp only [plain] at h
    simp only [optimize]
    exact KP.once (ks_opt l rest false h)
  | .assert l, rest, tail, h => by
    simp only [plain] at h
    simp only [optimize]
    exact KP.assert (ks_opt l rest false h)
  | .nassert l, rest, tail, h => by
    simp only [plain] at h
    simp only [optimize]
    exact KP.nassert (ks_opt l rest false h)
  | .rep k m n l, rest, tail, h => by
    simp only [plain, Bool.and_eq_true, decide_eq_true_eq] at h
    simp only [optimize]
    exact KP.rep (kb_opt l rest h.1.1.2 h.1.2)
  | .uncase _, _, _, h => by simp [plain] at h
  | .case_ _, _, _, h => by simp [plain] at h
  | .char _, _, _, _ => by simp only [optimize]; exact KP.rfl
  | .cset _, _, _, _ => by simp only [optimize]; exact KP.rfl
  | .comp _, _, _, _ => by simp only [optimize]; exact KP.rfl
  | .any, _, _, _ => by simp only [optimize]; exact KP.rfl
  | .bos, _, _, _ => by simp only [optimize]; exact KP.rfl
  | .eos, _, _, _ => by simp only [optimize]; exact KP.rfl
  | .bol, _, _, _ => by simp only [optimize]; exact KP.rfl
  | .eol, _, _, _ => by simp only [optimize]; exact KP.rfl
  | .wb, _, _, _ => by simp only [optimize]; exact KP.rfl
  | .nwb, _, _, _ => by simp only [optimize]; exact KP.rfl
  | .bow, _, _, _ => by simp only [optimize]; exact KP.rfl
  | .eow, _, _, _ => by simp only [optimize]; exact KP.rfl
  | .backref _, _, _, _ => by simp only [optimize]; exact KP.rfl
theorem kb_opt : ∀ (l rest : List Ast), body1 l = true → plainSeq true l = true →
    KS L l (optimizeRepBody rest l)
  | [], _, h, _ => by simp [body1] at h
  | _ :: _ :: _, _, h, _ => by simp [body1] at h
  | [.alt _], _, h, _ => by simp [body1] at h
  | [.uncase _], _, _, h => by simp [plainSeq, plain] at h
  | [.case_ _], _, _, h => by simp [plainSeq, plain] at h
  | [.seq l], rest, _, h => by
    simp only [plainSeq, plain, Bool.and_eq_true] at h
    simp only [optimizeRepBody]
    exact KS.cons (KP.seq (ks_opt l rest _ h.1.2)) KS.rfl
  | [.group g l], rest, _, h => by
    simp only [plainSeq, plain, Bool.and_eq_true] at h
    simp only [optimizeRepBody]
    exact KS.cons (KP.group (ks_opt l rest _ h.1.2)) KS.rfl
  | [.once l], rest, _, h => by
    simp only [plainSeq, plain, Bool.and_eq_true] at h
    simp only [optimizeRepBody]
    exact KS.cons (KP.once (ks_opt l rest _ h.1.2)) KS.rfl
  | [.assert l], rest, _, h => by
    simp only [plainSeq, plain, Bool.and_eq_true] at h
    simp only [optimizeRepBody]
    exact KS.cons (KP.assert (ks_opt l rest _ h.1.2)) KS.rfl
  | [.nassert l], rest, _, h => by
    simp only [plainSeq, plain, Bool.and_eq_true] at h
    simp only [optimizeRepBody]
    exact KS.cons (KP.nassert (ks_opt l rest _ h.1.2)) KS.rfl
  | [.rep k m n l], rest, _, h => by
    simp only [plainSeq, plain, Bool.and_eq_true, decide_eq_true_eq] at h
    simp only [optimizeRepBody]
    exact KS.cons (KP.rep (ks_opt l rest _ h.1.2.1.2)) KS.rfl
  | [.char _], _, _, _ => by simp only [optimizeRepBody]; exact KS.rfl
  | [.cset _], _, _, _ => by simp only [optimizeRepBody]; exact KS.rfl
  | [.comp _], _, _, _ => by simp only [optimizeRepBody]; exact KS.rfl
  | [.any], _, _, _ => by simp only [optimizeRepBody]; exact KS.rfl
  | [.bos], _, _, _ => by simp only [optimizeRepBody]; exact KS.rfl
  | [.eos], _, _, _ => by simp only [optimizeRepBody]; exact KS.rfl
  | [.bol], _, _, _ => by simp only [optimizeRepBody]; exact KS.rfl
  | [.eol], _, _, _ => by simp only [optimizeRepBody]; exact KS.rfl
  | [.wb], _, _, _ => by simp only [optimizeRepBody]; exact KS.rfl
  | [.nwb], _, _, _ => by simp only [optimizeRepBody]; exact KS.rfl
  | [.bow], _, _, _ => by simp only [optimizeRepBody]; exact KS.rfl
  | [.eow], _, _, _ => by simp only [optimizeRepBody]; exact KS.rfl
  | [.backref _], _, _, _ => by simp only [optimizeRepBody]; exact KS.rfl
theorem ks_opt : ∀ (l rest : List Ast) (tail : Bool), plainSeq tail l = true →
    KS L l (optimizeSeq rest l)
  | [], _, _, _ => by simp only [optimizeSeq]; exact KS.rfl
  | a :: s, rest, tail, h => by
    simp only [plainSeq, Bool.and_eq_true] at h
    obtain ⟨⟨hv, h1⟩, h2⟩ := h
    have ihs := ks_opt s rest tail h2
    have plainCase : (optimizeSeq rest (a :: s) =
          optimize (if (optimizeSeq rest s).isEmpty then rest else optimizeSeq rest s) a ::
            optimizeSeq rest s) → KS L (a :: s) (optimizeSeq rest (a :: s)) := by
      intro he
      rw [he]
      exact KS.cons (kp_opt a _ _ h1) ihs
    cases a with
    | seq l =>
      simp only [plain] at h1
      simp only [optimizeSeq]
      exact KS.flat (ks_opt l _ _ h1) ihs
    | rep k m n l =>
      cases k with
      | greedy =>
        simp only [plain, Bool.and_eq_true, decide_eq_true_eq] at h1
        obtain ⟨⟨⟨_, hb1⟩, hpl⟩, hns⟩ := h1
        have hl : l ≠ [] := by rintro rfl; simp [body1] at hb1
        have hne := optSeq_ne l (if (optimizeSeq rest s).isEmpty then rest else optimizeSeq rest s)
          true hpl hl
        obtain ⟨k, x, b, e, hxb, hk⟩ := optimizeSeq_greedy rest m n l s hne
        rw [e]
        exact KS.cons (KP.rep (ks_opt l _ _ hpl)) ihs
      | min => exact plainCase (by simp only [optimizeSeq])
      | while_ => exact plainCase (by simp only [optimizeSeq])
    | _ => exact plainCase (by simp only [optimizeSeq])
theorem ka_opt : ∀ (l rest : List Ast) (tail : Bool), plainAlt tail l = true →
    KA L l (optimizeAlt rest l)
  | [], _, _, _ => by simp only [optimizeAlt]; exact ⟨id, id, id, fun _ => id⟩
  | a :: l, rest, tail, h => by
    simp only [plainAlt, Bool.and_eq_true] at h
    obtain ⟨h1, h2, h3, h4⟩ := kp_opt a rest tail h.1
    obtain ⟨g1, g2, g3, g4⟩ := ka_opt l rest tail h.2
    simp only [optimizeAlt]
    refine ⟨?_, ?_, ?_, ?_⟩ <;>
      simp only [consumesAll, noGroups, noEols, okSeq, Bool.and_eq_true]
    · exact And.imp h1 g1
    · exact And.imp h2 g2
    · exact And.imp h3 g3
    · exact fun op => And.imp (h4 op) (g4 op)
end

/-- A pattern within the limits stays there. -/
theorem optimize_ok {a : Ast} (h : plain false a = true) (hok : ok L a false [] = true) :
    ok L (regOptimize a) false [] = true :=
  (kp_opt a [] false h).2.2.2 [] hok

end Gauche.Regex

import Verif.Proof.RegexMain

/-!
# The code of a pattern implements its ways
-/

namespace Gauche.Regex

open Gauche.Utf8 Gauche.Spec.Utf8 Spec

section
variable {cx : Ctx} {cfg : Cfg} {ci br : Bool} {e : GEnv} {L : Lim}

/-- Code generator, matcher, limits and text fit together. -/
structure Fits (cx : Ctx) (cfg : Cfg) (e : GEnv) (L : Lim) : Prop where
  shows : Shows cx cfg L.ci L.br
  bytes : Bytes cx
  charMax : e.charMax ≤ 250
  sets : L.sets = e.sets
  csets : cx.sets = e.sets
  few : e.sets.length ≤ 256
  multi : e.multi = cfg.multi
  lmulti : L.multi = cfg.multi

theorem set_at (hS : Fits cx cfg e L) {s : CSet} (h : L.sets.contains s = true) {p : Nat}
    (hat : cx.at p = e.ix s) : cx.setAt p = s := by
  unfold Ctx.setAt
  rw [hat, hS.csets]
  unfold GEnv.ix
  rw [hS.sets] at h
  have hm : s ∈ e.sets := by simpa using h
  have hlt : e.sets.idxOf s < e.sets.length := List.idxOf_lt_length_iff.2 hm
  have := hS.few
  rw [Nat.mod_eq_of_lt (by omega)]
  rw [List.getD_eq_getElem?_getD, List.getElem?_eq_getElem hlt]
  simp

theorem at_two {p a b : Nat} (h : At cx p [a, b]) : cx.at (p + 1) = b := (at_cons.1 (at_cons.1 h).2).1

theorem singleChar_iff (l : List Ast) : singleChar l = (whileOp e l).isSome := by
  rcases l with _ | ⟨a, _ | ⟨b, l⟩⟩
  · rfl
  · cases a <;> simp only [singleChar, whileOp] <;> first | rfl | (split <;> rfl)
  · cases a <;> simp [singleChar, whileOp]

/-- The scanning instructions. -/
theorem impl_while (hS : Fits cx cfg e L) {op : List Nat} {l : List Ast} {w : List Nat}
    (hw : whileOp e l = some w) (hok : okSeq L l false op = true) {p : Nat} (hat : At cx p w) :
    Impl cx cfg op p (p + w.length)
      (fun st => (star (waysSeq cfg l false false) (cfg.text.length - st.pos) st).take 1) := by
  have single : ∀ a, waysSeq cfg [a] false false = ways cfg a false false := by
    intro a; funext st
    simp only [waysSeq]
    simp
  rcases l with _ | ⟨a, _ | ⟨b, l⟩⟩
  · simp [whileOp] at hw
  · rw [single]
    cases a <;> simp only [whileOp] at hw <;> try (cases hw; done)
    case any =>
      injection hw with hw; subst hw
      simp only [ways]
      exact impl_anyr hS.shows (op_at hat)
    case char c =>
      simp only [okSeq, ok, Bool.and_true, decide_eq_true_eq] at hok
      simp only [ways, Bool.false_eq_true, if_false]
      by_cases h1 : nbytes c = 1
      · rw [if_pos h1] at hw
        injection hw with hw; subst hw
        have hc : c < 128 := by
          rcases Nat.lt_or_ge c 128 with h | h
          · exact h
          · exact absurd h1 (nbytes_large h)
        refine impl_match1r hS.shows hc (op_at hat) ?_
        rw [at_two hat]; omega
      · rw [if_neg h1] at hw
        injection hw with hw; subst hw
        rw [at_append] at hat
        rw [charPut_eq c hok] at hat ⊢
        have := impl_matchr (op := op) hS.shows (k := c) hok (op_at hat.1) (at_two hat.1) hat.2
        simp only [List.length_append, List.length_cons, List.length_nil, encode_length]
        rw [show p + (0 + 1 + 1 + nbytes c) = p + 2 + nbytes c by omega]
        exact this
    case cset s =>
      simp only [okSeq, ok, Bool.and_true] at hok
      injection hw with hw; subst hw
      have hset := set_at hS hok (at_two hat)
      simp only [ways]
      cases hl : s.large with
      | true =>
        rw [hl] at hat
        exact impl_setr hS.shows (op_at hat) hset
      | false =>
        rw [hl] at hat
        exact impl_set1r hS.shows (op_at hat) hset hl
    case comp s =>
      simp only [okSeq, ok, Bool.and_true] at hok
      injection hw with hw; subst hw
      have hset := set_at hS hok (at_two hat)
      simp only [ways]
      exact impl_nsetr hS.shows (op_at hat) hset
  · cases a <;> simp [whileOp] at hw

/-- The body of `once`, `assert`, `nassert`. -/
theorem body_addr {p : Nat} {o : Op} {b : List Nat} {q : Nat} (hB : Bytes cx)
    (hat : At cx p ([o.byte] ++ off q ++ b ++ [Op.success.byte])) :
    opTable[cx.at p]? = some o ∧ cx.target (p + 1) = q ∧ At cx (p + 3) b ∧
      opTable[cx.at (p + 3 + b.length)]? = some .success := by
  simp only [at_append] at hat
  obtain ⟨⟨⟨h1, h2⟩, h3⟩, h4⟩ := hat
  simp only [List.length_append, List.length_cons, List.length_nil, off_length] at h2 h3 h4
  refine ⟨op_at h1, at_off hB h2, h3, ?_⟩
  rw [show p + 3 + b.length = p + (0 + 1 + 2 + b.length) by omega]
  exact op_at h4

theorem ways_rep_eq (k : RepKind) (m : Nat) (n : Option Nat) (l : List Ast) (fold last : Bool)
    (h : ¬ (k = .while_ ∧ n = none ∧ singleChar l = true)) :
    ways cfg (.rep k m n l) fold last =
      repW cfg (k = .min) (waysSeq cfg l fold false) m n := by
  funext st
  simp only [ways, repW]
  apply flatMap_ext
  intro t _
  cases n with
  | some n => simp
  | none =>
    dsimp only
    by_cases hk : k = .min
    · rw [if_pos hk, if_pos (by simpa using hk)]
    · have hk2 : ¬ (decide (k = .while_) && singleChar l) = true := by
        intro h'
        rw [Bool.and_eq_true, decide_eq_true_eq] at h'
        exact h ⟨h'.1, rfl, h'.2⟩
      have hk3 : ¬ decide (k = .min) = true := by simpa using hk
      rw [if_neg hk, if_neg hk2, if_neg hk3]

theorem keeps_of_keep {W : St → List St} (h : Keep W) : Keeps cfg W := fun st _ t ht => h st t ht

mutual
theorem gen_impl (hS : Fits cx cfg e L) : ∀ (a : Ast) (fold last : Bool) (op : List Nat) (p : Nat),
    ok L a fold op = true → (fold = true → L.ci = true) → At cx p (gen e a fold last p) →
    Impl cx cfg op p (p + (gen e a fold last p).length) (ways cfg a fold last)
  | .char c, fold, last, op, p, h, hf, hat => by
    simp only [ok, decide_eq_true_eq] at h
    simp only [gen] at hat ⊢
    have hc : ∀ x ∈ [c], IsCode x := fun x hx => by rw [List.mem_singleton.1 hx]; exact h
    have hlen : (runBytes [c]).length ≤ 255 := by
      rw [runBytes_eq hc]
      have := nbytes_pos c
      simp [encodeAll, encode_length]; omega
    apply (impl_flush hS.shows hf hc hlen hat).congr
    intro st _
    rw [runW_cons]
    have e : runW cfg fold ([] : List Nat) = fun st => [st] := rfl
    rw [e]; simp [ways]
  | .cset s, fold, last, op, p, h, hf, hat => by
    simp only [ok] at h
    simp only [gen] at hat ⊢
    simp only [ways]
    have hset := set_at hS h (at_two hat)
    cases hl : s.large with
    | true => rw [hl] at hat; exact impl_set hS.shows (op_at hat) hset
    | false => rw [hl] at hat; exact impl_set1 hS.shows (op_at hat) hset hl
  | .comp s, fold, last, op, p, h, hf, hat => by
    simp only [ok] at h
    simp only [gen] at hat ⊢
    simp only [ways]
    have hset := set_at hS h (at_two hat)
    cases hl : s.large with
    | true => rw [hl] at hat; exact impl_nset hS.shows (op_at hat) hset
    | false => rw [hl] at hat; exact impl_nset1 hS.shows (op_at hat) hset hl
  | .any, fold, last, op, p, h, hf, hat => by
    simp only [gen] at hat ⊢
    simp only [ways]; exact impl_any hS.shows (op_at hat)
  | .bos, fold, last, op, p, h, hf, hat => by
    simp only [gen] at hat ⊢
    simp only [ways]; exact impl_bos (op_at hat)
  | .eos, fold, last, op, p, h, hf, hat => by
    simp only [gen] at hat ⊢
    simp only [ways]; exact impl_eos hS.shows (op_at hat)
  | .bol, fold, last, op, p, h, hf, hat => by
    simp only [gen] at hat ⊢
    simp only [ways]; exact impl_bol hS.shows (op_at hat)
  | .eol, fold, last, op, p, h, hf, hat => by
    simp only [gen, hS.multi] at hat ⊢
    by_cases hc : (last || cfg.multi) = true
    · rw [if_pos hc] at hat ⊢
      apply (impl_eol hS.shows (op_at hat)).congr
      intro st _
      simp only [ways]; rw [if_pos hc]
    · rw [if_neg hc] at hat ⊢
      apply (impl_match1 hS.shows (k := 36) (by decide) (op_at hat) (at_two hat)).congr
      intro st _
      simp only [ways]; rw [if_neg hc]
  | .wb, fold, last, op, p, h, hf, hat => by
    simp only [gen] at hat ⊢
    simp only [ways]; exact impl_wb hS.shows (op_at hat)
  | .nwb, fold, last, op, p, h, hf, hat => by
    simp only [gen] at hat ⊢
    simp only [ways]; exact impl_nwb hS.shows (op_at hat)
  | .bow, fold, last, op, p, h, hf, hat => by
    simp only [gen] at hat ⊢
    simp only [ways]; exact impl_bow hS.shows (op_at hat)
  | .eow, fold, last, op, p, h, hf, hat => by
    simp only [gen] at hat ⊢
    simp only [ways]; exact impl_eow hS.shows (op_at hat)
  | .seq l, fold, last, op, p, h, hf, hat => by
    simp only [ok] at h
    simp only [gen] at hat ⊢
    apply (impl_seq hS.shows hS.charMax hf last (items_ok hS l fold op h hf) hat).congr
    intro st _
    simp only [ways]; exact (waysSeq_eq l fold last st).symm
  | .uncase l, fold, last, op, p, h, hf, hat => by
    simp only [ok, Bool.and_eq_true] at h
    simp only [gen] at hat ⊢
    apply (impl_seq hS.shows hS.charMax (fun _ => h.1) last
      (items_ok hS l true op h.2 (fun _ => h.1)) hat).congr
    intro st _
    simp only [ways]; exact (waysSeq_eq l true last st).symm
  | .case_ l, fold, last, op, p, h, hf, hat => by
    simp only [ok] at h
    simp only [gen] at hat ⊢
    apply (impl_seq hS.shows hS.charMax (by simp) last
      (items_ok hS l false op h (by simp)) hat).congr
    intro st _
    simp only [ways]; exact (waysSeq_eq l false last st).symm
  | .alt l, fold, last, op, p, h, hf, hat => by
    simp only [ok] at h
    simp only [gen] at hat ⊢
    simp only [ways]
    exact alts_impl hS l fold last op p h hf hat
  | .group g l, fold, last, op, p, h, hf, hat => by
    simp only [ok, Bool.and_eq_true, decide_eq_true_eq, Bool.not_eq_true',
      List.contains_eq_mem, decide_eq_false_iff_not] at h
    obtain ⟨⟨h1, h2⟩, h3⟩ := h
    simp only [gen] at hat ⊢
    rw [at_append, at_append] at hat
    obtain ⟨⟨ha, hb⟩, hc⟩ := hat
    have hg : g % 256 = g := by omega
    rw [hg] at ha hc
    simp only [List.length_append, List.length_cons, List.length_nil] at hb hc ⊢
    have body := impl_seq hS.shows hS.charMax hf last (items_ok hS l fold (g :: op) h3 hf) hb
    have hpres : Pres cfg (seqW (l.map fun a => ways cfg a fold) last) :=
      (items_ok hS l fold (g :: op) h3 hf).pres last
    have hc' : At cx (p + 2 + (asmItems e fold last (p + 2) [] (items e l)).length)
        [Op.end_.byte, g] := by
      rw [show p + 2 + _ = p + (0 + 1 + 1 + _) from Nat.add_assoc _ _ _]; exact hc
    have := impl_group h2 hpres (op_at ha) (at_two ha) body (op_at hc') (at_two hc')
    rw [show p + (0 + 1 + 1 + (asmItems e fold last (p + 2) [] (items e l)).length + (0 + 1 + 1)) =
      p + 2 + (asmItems e fold last (p + 2) [] (items e l)).length + 2 by omega]
    apply this.congr
    intro st _
    simp only [ways]
    rw [← waysSeq_eq]
  | .backref g, fold, last, op, p, h, hf, hat => by
    simp only [ok, Bool.and_eq_true, decide_eq_true_eq, Bool.not_eq_true',
      List.contains_eq_mem, decide_eq_false_iff_not] at h
    obtain ⟨⟨⟨h1, h2⟩, h3⟩, h4⟩ := h
    subst h3
    simp only [gen] at hat ⊢
    have hg : g % 256 = g := by omega
    rw [hg] at hat
    simp only [ways]
    exact impl_backref hS.shows h1 h4 (op_at hat) (at_two hat)
  | .once l, fold, last, op, p, h, hf, hat => by
    simp only [ok, Bool.and_eq_true] at h
    simp only [gen] at hat ⊢
    obtain ⟨a, b, c, d⟩ := body_addr hS.bytes hat
    have hi := items_ok hS l fold op h.2 hf
    have body := (impl_seq hS.shows hS.charMax hf true hi c).congr
      (W' := waysSeq cfg l fold true) fun st _ => (waysSeq_eq l fold true st).symm
    have := impl_once (keeps_of_keep (keep_waysSeq l fold true h.1)) a b body d
    simp only [List.length_append, List.length_cons, List.length_nil, off_length]
    rw [show p + (0 + 1 + 2 + (asmItems e fold true (p + 3) [] (items e l)).length + (0 + 1)) =
      p + 3 + (asmItems e fold true (p + 3) [] (items e l)).length + 1 by omega]
    simp only [ways]
    exact this
  | .assert l, fold, last, op, p, h, hf, hat => by
    simp only [ok, Bool.and_eq_true] at h
    simp only [gen] at hat ⊢
    obtain ⟨a, b, c, d⟩ := body_addr hS.bytes hat
    have hi := items_ok hS l fold op h.2 hf
    have body := (impl_seq hS.shows hS.charMax hf true hi c).congr
      (W' := waysSeq cfg l fold true) fun st _ => (waysSeq_eq l fold true st).symm
    have := impl_assert (keeps_of_keep (keep_waysSeq l fold true h.1)) a b body d
    simp only [List.length_append, List.length_cons, List.length_nil, off_length]
    rw [show p + (0 + 1 + 2 + (asmItems e fold true (p + 3) [] (items e l)).length + (0 + 1)) =
      p + 3 + (asmItems e fold true (p + 3) [] (items e l)).length + 1 by omega]
    simp only [ways]
    exact this
  | .nassert l, fold, last, op, p, h, hf, hat => by
    simp only [ok, Bool.and_eq_true] at h
    simp only [gen] at hat ⊢
    obtain ⟨a, b, c, d⟩ := body_addr hS.bytes hat
    have hi := items_ok hS l fold op h.2 hf
    have body := (impl_seq hS.shows hS.charMax hf true hi c).congr
      (W' := waysSeq cfg l fold true) fun st _ => (waysSeq_eq l fold true st).symm
    have := impl_nassert (keeps_of_keep (keep_waysSeq l fold true h.1)) a b body d
    simp only [List.length_append, List.length_cons, List.length_nil, off_length]
    rw [show p + (0 + 1 + 2 + (asmItems e fold true (p + 3) [] (items e l)).length + (0 + 1)) =
      p + 3 + (asmItems e fold true (p + 3) [] (items e l)).length + 1 by omega]
    simp only [ways]
    exact this
  | .rep k m n l, fold, last, op, p, h, hf, hat => by
    simp only [ok, Bool.and_eq_true] at h
    obtain ⟨⟨h1, h2⟩, h3⟩ := h
    have hi := items_ok hS l fold op h1 hf
    rw [hS.lmulti] at h2
    have hlast : ∀ w ∈ l.map (fun a => ways cfg a fold), ∀ b, w b = w false := by
      intro w hw b
      obtain ⟨a, ha, rfl⟩ := List.mem_map.1 hw
      apply ways_last a fold b
      rw [Bool.or_eq_true] at h2 ⊢
      rcases h2 with h2 | h2
      · exact Or.inl h2
      · refine Or.inr ?_
        clear h1 h3 hi hat hw
        induction l with
        | nil => simp at ha
        | cons x l ih =>
          simp only [noEols, Bool.and_eq_true] at h2
          rcases List.mem_cons.1 ha with rfl | ha
          · exact h2.1
          · exact ih ha h2.2
    have hseq : seqW (l.map fun a => ways cfg a fold) false = waysSeq cfg l fold false := by
      funext st; exact (waysSeq_eq l fold false st).symm
    by_cases hc : k = .while_ ∧ n = none ∧ singleChar l = true
    · obtain ⟨rfl, rfl, hsc⟩ := hc
      simp only [gen] at hat ⊢
      rw [singleChar_iff (e := e)] at hsc
      obtain ⟨w, hw⟩ := Option.isSome_iff_exists.1 hsc
      simp only [hw] at hat ⊢
      rw [at_append] at hat
      have g1 := impl_seqRep hS.shows hS.charMax hf false hi hlast m hat.1
      rw [hseq] at g1
      rw [List.length_append, ← Nat.add_assoc]
      -- either case is not folded, or it is not a literal
      have hfold : waysSeq cfg l fold false = waysSeq cfg l false false ∧
          okSeq L l false op = true := by
        cases hfo : fold with
        | false => subst hfo; exact ⟨rfl, h1⟩
        | true =>
          subst hfo
          rw [Bool.and_eq_true] at h3
          rcases l with _ | ⟨a, _ | ⟨b, l⟩⟩
          · simp [whileOp] at hw
          · cases a <;> simp only [whileOp] at hw <;> try (cases hw; done)
            case char c => simp [oneLiteral] at h3
            all_goals
              refine ⟨by funext st; simp only [waysSeq, ways], ?_⟩
              simpa only [okSeq, ok] using h1
          · cases a <;> simp [whileOp] at hw
      have g2 := impl_while hS hw hfold.2 hat.2
      have := impl_comp g1 g2 (pres_iter (pres_waysSeq l fold false) m)
      apply this.congr
      intro st _
      simp only [ways]
      apply flatMap_ext
      intro t _
      rw [if_neg (by decide), if_pos]
      · rw [hfold.1]
      · rw [Bool.and_eq_true, singleChar_iff (e := e)]
        exact ⟨by decide, hsc⟩
    · have hgen : gen e (.rep k m n l) fold last p =
          genRep e (k = .min) m n (items e l) fold p := by
        simp only [gen]
        cases k with
        | while_ =>
          cases n with
          | none =>
            have : whileOp e l = none := by
              rw [← Option.not_isSome_iff_eq_none, ← singleChar_iff (e := e)]
              exact fun h' => hc ⟨rfl, rfl, h'⟩
            rw [this]
          | some n => rfl
        | greedy => rfl
        | min => rfl
      rw [hgen] at hat ⊢
      have := impl_genRep hS.shows hS.bytes hS.charMax hf hi hlast (k = .min) m n (by
        intro hn
        subst hn
        rw [Bool.and_eq_true] at h3
        rw [hseq]
        exact prog_waysSeq l fold false h3.1) hat
      rw [hseq] at this
      rw [ways_rep_eq k m n l fold last hc]
      exact this
theorem items_ok (hS : Fits cx cfg e L) : ∀ (l : List Ast) (fold : Bool) (op : List Nat),
    okSeq L l fold op = true → (fold = true → L.ci = true) →
    ItemsOK cx cfg op fold (items e l) (l.map fun a => ways cfg a fold)
  | [], _, _, _, _ => by simp only [items]; exact .nil
  | a :: l, fold, op, h, hf => by
    simp only [okSeq, Bool.and_eq_true] at h
    have hl := items_ok hS l fold op h.2 hf
    have ha := fun last p => gen_impl hS a fold last op p h.1 hf
    have hcode : ItemOK cx cfg op fold (.code (gen e a)) (ways cfg a fold) :=
      fun last => ⟨pres_ways a fold last, fun p hp => ha last p hp⟩
    rw [List.map_cons]
    cases a with
    | char c =>
      simp only [items]
      refine .cons ?_ hl
      simp only [ok, decide_eq_true_eq] at h
      exact ⟨h.1, fun last => by simp only [ways]⟩
    | _ =>
      simp only [items]
      exact .cons hcode hl
theorem alts_impl (hS : Fits cx cfg e L) : ∀ (l : List Ast) (fold last : Bool) (op : List Nat)
    (p : Nat), okSeq L l fold op = true → (fold = true → L.ci = true) →
    At cx p (genAlts e l fold last p) →
    Impl cx cfg op p (p + (genAlts e l fold last p).length) (waysAlt cfg l fold last)
  | [], fold, last, op, p, _, _, hat => by
    simp only [genAlts] at hat
    simp only [waysAlt]
    exact impl_fail (op_at hat)
  | a :: l, fold, last, op, p, h, hf, hat => by
    simp only [okSeq, Bool.and_eq_true] at h
    simp only [genAlts] at hat ⊢
    have ha := fun p => gen_impl hS a fold last op p h.1 hf
    have hl := fun p => alts_impl hS l fold last op p h.2 hf
    by_cases he : l.isEmpty = true
    · rw [if_pos he] at hat ⊢
      apply (ha p hat).congr
      intro st _
      have : l = [] := List.isEmpty_iff.1 he
      subst this
      simp [waysAlt]
    · rw [if_neg he] at hat ⊢
      generalize hb : gen e a fold last (p + 3) = b at *
      generalize hr : genAlts e l fold last (p + 3 + b.length + 3) = r at *
      simp only [at_append] at hat
      obtain ⟨⟨⟨⟨⟨h1, h2⟩, h3⟩, h4⟩, h5⟩, h6⟩ := hat
      simp only [List.length_append, List.length_cons, List.length_nil, off_length,
        ← Nat.add_assoc] at h2 h3 h4 h5 h6 ⊢
      have g1 := ha (p + 3) (by rw [hb]; simpa [Nat.add_assoc] using h3)
      have g2 := hl (p + 3 + b.length + 3) (by
        rw [hr]
        rw [show p + 3 + b.length + 3 = p + 0 + 1 + 2 + b.length + 0 + 1 + 2 by omega]
        exact h6)
      rw [hb] at g1
      rw [hr] at g2
      rw [show p + 0 + 1 + 2 + b.length + 0 + 1 + 2 + r.length =
        p + 3 + b.length + 3 + r.length by omega]
      have h4' : At cx (p + 3 + b.length) [Op.jump.byte] := by
        rw [show p + 3 + b.length = p + 0 + 1 + 2 + b.length by omega]; exact h4
      have h5' : At cx (p + 3 + b.length + 1) (off (p + 3 + b.length + 3 + r.length)) := by
        rw [show p + 3 + b.length + 1 = p + 0 + 1 + 2 + b.length + 0 + 1 by omega]; exact h5
      have := impl_alt (op_at h1) (at_off hS.bytes h2) g1 (op_at h4') (at_off hS.bytes h5') g2
      apply this.congr
      intro st _
      simp only [waysAlt]
end

end
end Gauche.Regex

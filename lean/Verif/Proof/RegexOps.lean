import Verif.Proof.RegexImpl

/-!
# Single instructions
-/

namespace Gauche.Regex

open Gauche.Utf8 Gauche.Spec.Utf8 Spec

section
variable {cx : Ctx} {cfg : Cfg} {op : List Nat} {ci br : Bool}

theorem inSet_eq (s : CSet) (c : Nat) : inSet s c = s.has c := rfl

theorem getElem?_lt {l : List Nat} {i c : Nat} (h : l[i]? = some c) : i < l.length := by
  rcases Nat.lt_or_ge i l.length with h' | h'
  · exact h'
  · rw [List.getElem?_eq_none h'] at h; cases h

theorem not_stop (S : Shows cx cfg ci br) {i c : Nat} (h : cfg.text[i]? = some c) :
    cx.stop ≠ boff cfg i := by
  intro e
  have hl := getElem?_lt h
  have := (S.boff_stop (Nat.le_of_lt hl)).1 e.symm
  omega

theorem at_stop (S : Shows cx cfg ci br) {i : Nat} (hi : i ≤ cfg.text.length)
    (h : cfg.text[i]? = none) : cx.stop = boff cfg i := by
  have : cfg.text.length ≤ i := by
    rcases Nat.lt_or_ge i cfg.text.length with h' | h'
    · rw [List.getElem?_eq_getElem h'] at h; cases h
    · exact h'
  exact ((S.boff_stop hi).2 (by omega)).symm

theorem has_small {s : CSet} (h : s.large = false) {c : Nat} (hc : 128 ≤ c) : s.has c = false := by
  unfold CSet.large at h
  unfold CSet.has
  rw [List.any_eq_false] at h ⊢
  intro r hr
  have := h r hr
  simp at this ⊢
  omega

theorem impl_any (S : Shows cx cfg ci br) {p : Nat} (ho : opTable[cx.at p]? = some .any) :
    Impl cx cfg op p (p + 1) (one cfg fun _ => true) := by
  apply impl_one ho
  intro rec i c hi
  simp only [exec]
  cases h : cfg.text[i]? with
  | none => rw [if_pos (at_stop S hi h)]
  | some x =>
    rw [if_neg (not_stop S h)]
    dsimp only
    rw [if_pos trivial, boff_succ h, ← S.nfollows h, Nat.add_assoc]

theorem nbytes_small {c : Nat} (h : c < 128) : nbytes c = 1 := by
  unfold nbytes; simp [h]

theorem nbytes_large {c : Nat} (h : 128 ≤ c) : nbytes c ≠ 1 := by
  unfold nbytes
  simp only [show ¬ c < 0x80 by omega, if_false]
  repeat' split
  all_goals omega

theorem impl_set1 (S : Shows cx cfg ci br) {p : Nat} {s : CSet}
    (ho : opTable[cx.at p]? = some .set1) (hs : cx.setAt (p + 1) = s) (hl : s.large = false) :
    Impl cx cfg op p (p + 2) (one cfg (inSet s)) := by
  apply impl_one ho
  intro rec i c hi
  simp only [exec, hs]
  cases h : cfg.text[i]? with
  | none => rw [if_pos (at_stop S hi h)]
  | some x =>
    rw [if_neg (not_stop S h)]
    dsimp only
    have hb := S.byte h
    by_cases hx : x < 128
    · rw [hb.1 hx, if_neg (by omega), boff_succ h, nbytes_small hx, inSet_eq]
    · rw [if_pos (by have := hb.2 (by omega); omega), inSet_eq, has_small hl (by omega)]; rfl

theorem impl_nset1 (S : Shows cx cfg ci br) {p : Nat} {s : CSet}
    (ho : opTable[cx.at p]? = some .nset1) (hs : cx.setAt (p + 1) = s) (hl : s.large = false) :
    Impl cx cfg op p (p + 2) (one cfg fun x => !inSet s x) := by
  apply impl_one ho
  intro rec i c hi
  simp only [exec, hs]
  cases h : cfg.text[i]? with
  | none => rw [if_pos (at_stop S hi h)]
  | some x =>
    rw [if_neg (not_stop S h)]
    dsimp only
    have hb := S.byte h
    by_cases hx : x < 128
    · rw [hb.1 hx, if_pos hx, boff_succ h, nbytes_small hx, inSet_eq]
      cases s.has x <;> rfl
    · rw [if_neg (by have := hb.2 (by omega); omega), inSet_eq, has_small hl (by omega)]
      rw [boff_succ h, ← S.nfollows h, Nat.add_assoc]; rfl

theorem impl_set (S : Shows cx cfg ci br) {p : Nat} {s : CSet}
    (ho : opTable[cx.at p]? = some .set) (hs : cx.setAt (p + 1) = s) :
    Impl cx cfg op p (p + 2) (one cfg (inSet s)) := by
  apply impl_one ho
  intro rec i c hi
  simp only [exec, hs]
  cases h : cfg.text[i]? with
  | none => rw [if_pos (at_stop S hi h)]
  | some x =>
    rw [if_neg (not_stop S h), S.getc h]
    simp only [hasOpt, nbytesOpt, boff_succ h, inSet_eq, Nat.add_assoc, Nat.reduceAdd]

theorem impl_nset (S : Shows cx cfg ci br) {p : Nat} {s : CSet}
    (ho : opTable[cx.at p]? = some .nset) (hs : cx.setAt (p + 1) = s) :
    Impl cx cfg op p (p + 2) (one cfg fun x => !inSet s x) := by
  apply impl_one ho
  intro rec i c hi
  simp only [exec, hs]
  cases h : cfg.text[i]? with
  | none => rw [if_pos (at_stop S hi h)]
  | some x =>
    rw [if_neg (not_stop S h), S.getc h]
    simp only [hasOpt, nbytesOpt, boff_succ h, inSet_eq, Nat.add_assoc, Nat.reduceAdd]
    by_cases hh : s.has x = true
    · rw [if_pos hh, if_neg (by simp [hh])]
    · rw [if_neg hh, if_pos (by simp [hh])]

theorem impl_match1 (S : Shows cx cfg ci br) {p k : Nat} (hk : k < 128)
    (ho : opTable[cx.at p]? = some .match1) (hs : cx.at (p + 1) = k) :
    Impl cx cfg op p (p + 2) (one cfg fun x => x == k) := by
  apply impl_one ho
  intro rec i c hi
  simp only [exec, hs]
  cases h : cfg.text[i]? with
  | none => rw [if_pos (at_stop S hi h)]
  | some x =>
    rw [if_neg (not_stop S h)]
    dsimp only
    have hb := S.byte h
    by_cases hx : x < 128
    · rw [hb.1 hx]
      by_cases e : k = x
      · subst e; simp [boff_succ h, nbytes_small hx]
      · rw [if_neg e]; simp [Ne.symm e]
    · have := hb.2 (by omega)
      rw [if_neg (by omega)]
      have : x ≠ k := by omega
      simp [this]

theorem impl_match1CI (S : Shows cx cfg ci br) (hci : ci = true) {p k : Nat} (hk : k < 128)
    (ho : opTable[cx.at p]? = some .match1CI) (hs : cx.at (p + 1) = k) :
    Impl cx cfg op p (p + 2) (one cfg fun x => cfg.down x == k) := by
  apply impl_one ho
  intro rec i c hi
  simp only [exec, hs]
  cases h : cfg.text[i]? with
  | none => rw [if_pos (at_stop S hi h)]
  | some x =>
    rw [if_neg (not_stop S h)]
    dsimp only
    have hb := S.byte h
    have hn := S.nfollows h
    by_cases hx : x < 128
    · rw [nbytes_small hx] at hn
      rw [hb.1 hx] at hn ⊢
      rw [S.down]
      by_cases e : cfg.down x = k
      · rw [if_neg (by rintro (h' | h') <;> omega)]
        simp [e, boff_succ h, nbytes_small hx]
      · rw [if_pos (Or.inr (Ne.symm e))]
        simp [e]
    · have hnb := nbytes_large (c := x) (by omega)
      rw [if_pos (Or.inl (by omega))]
      have := (S.ci hci x (List.mem_of_getElem? h)).1
      have e : cfg.down x ≠ k := by
        intro e
        rw [e, nbytes_small hk] at this
        omega
      simp [e]

/-! ## assertions -/

theorem impl_bos {p : Nat} (ho : opTable[cx.at p]? = some .bos) :
    Impl cx cfg op p (p + 1) (fun st => test (st.pos == 0) st) := by
  apply impl_test ho
  intro rec st c hv
  simp only [exec]
  have : boff cfg st.pos = 0 ↔ st.pos = 0 :=
    ⟨fun h => boff_inj hv.1 (Nat.zero_le _) (by rw [h, boff_zero]), fun h => by rw [h, boff_zero]⟩
  by_cases h : st.pos = 0
  · rw [if_pos (this.2 h), if_pos (by simp [h])]
  · rw [if_neg (fun h' => h (this.1 h')), if_neg (by simp [h])]

theorem impl_eos (S : Shows cx cfg ci br) {p : Nat} (ho : opTable[cx.at p]? = some .eos) :
    Impl cx cfg op p (p + 1) (fun st => test (st.pos == cfg.text.length) st) := by
  apply impl_test ho
  intro rec st c hv
  simp only [exec]
  have := S.boff_stop hv.1
  by_cases h : st.pos = cfg.text.length
  · rw [if_pos (this.2 h), if_pos (by simp [h])]
  · rw [if_neg (fun h' => h (this.1 h')), if_neg (by simp [h])]

theorem boff_eq_zero {i : Nat} (hi : i ≤ cfg.text.length) : boff cfg i = 0 ↔ i = 0 :=
  ⟨fun h => boff_inj hi (Nat.zero_le _) (by rw [h, boff_zero]), fun h => by rw [h, boff_zero]⟩

theorem newline_eq (S : Shows cx cfg ci br) {i x : Nat} (h : cfg.text[i]? = some x) :
    (cx.mem (boff cfg i) == 10 || cx.mem (boff cfg i) == 13) = newline (some x) := by
  have hb := S.byte h
  unfold newline
  by_cases hx : x < 128
  · rw [hb.1 hx]
  · have := hb.2 (by omega)
    rw [Bool.eq_iff_iff]
    simp; omega

theorem word_eq (S : Shows cx cfg ci br) {i x : Nat} (h : cfg.text[i]? = some x) :
    wordConstituent (cx.mem (boff cfg i)) = wordChar (some x) := by
  have hb := S.byte h
  unfold wordConstituent wordChar
  by_cases hx : x < 128
  · rw [hb.1 hx]
  · have := hb.2 (by omega)
    rw [Bool.eq_iff_iff]
    simp; omega

theorem beginningOfLine_eq (S : Shows cx cfg ci br) {i : Nat} (hi : i ≤ cfg.text.length) :
    beginningOfLine cx (boff cfg i) = atBol cfg i := by
  unfold beginningOfLine atBol prev
  by_cases h0 : i = 0
  · rw [if_pos ((boff_eq_zero hi).2 h0)]; simp [h0]
  · rw [if_neg (fun h => h0 ((boff_eq_zero hi).1 h)), S.multi, if_neg h0]
    have h0' : (i == 0) = false := by simp [h0]
    rw [h0']
    cases hm : cfg.multi with
    | false => rfl
    | true =>
      obtain ⟨j, rfl⟩ : ∃ j, i = j + 1 := ⟨i - 1, by omega⟩
      have hj : j < cfg.text.length := by omega
      have ht := List.getElem?_eq_getElem hj
      rw [S.backward ht]
      simp only [Nat.add_sub_cancel, ht, Bool.not_true, Bool.false_or, Bool.true_and]
      exact newline_eq S ht

theorem endOfLine_eq (S : Shows cx cfg ci br) {i : Nat} (hi : i ≤ cfg.text.length) :
    endOfLine cx (boff cfg i) = atEol cfg i := by
  unfold endOfLine atEol next
  by_cases h0 : i = cfg.text.length
  · rw [if_pos ((S.boff_stop hi).2 h0)]; simp [h0]
  · rw [if_neg (fun h => h0 ((S.boff_stop hi).1 h)), S.multi]
    have h0' : (i == cfg.text.length) = false := by simp [h0]
    rw [h0']
    cases hm : cfg.multi with
    | false => rfl
    | true =>
      have ht := List.getElem?_eq_getElem (show i < cfg.text.length by omega)
      simp only [ht, Bool.not_true, Bool.false_or, Bool.true_and]
      exact newline_eq S ht

theorem wordBoundary_eq (S : Shows cx cfg ci br) {i : Nat} (hi : i ≤ cfg.text.length)
    (b e : Bool) :
    wordBoundary cx b e (boff cfg i) = ((b && atBow cfg i) || (e && atEow cfg i)) := by
  unfold wordBoundary
  have z := boff_eq_zero hi
  have w := S.boff_stop hi
  have nx : wordConstituent (cx.mem (boff cfg i)) = wordChar (next cfg i) := by
    unfold next
    cases h : cfg.text[i]? with
    | none => rw [← at_stop S hi h, S.after]; rfl
    | some x => exact word_eq S h
  by_cases c1 : b = true ∧ i = 0
  · obtain ⟨rfl, h0⟩ := c1
    rw [if_pos (by simp [z.2 h0])]
    simp [atBow, h0]
  · rw [if_neg (by rw [Bool.and_eq_true, decide_eq_true_eq, z]; exact c1)]
    by_cases c2 : e = true ∧ i = cfg.text.length
    · obtain ⟨rfl, h0⟩ := c2
      rw [if_pos (by simp [w.2 h0])]
      simp [atEow, h0]
    · rw [if_neg (by rw [Bool.and_eq_true, decide_eq_true_eq, w]; exact c2)]
      have a2 : (e && atEow cfg i) = (e && (!wordChar (next cfg i) && wordChar (prev cfg i))) := by
        unfold atEow
        cases e with
        | false => rfl
        | true =>
          have : i ≠ cfg.text.length := fun h => c2 ⟨rfl, h⟩
          simp [this]
      have a1 : (b && atBow cfg i) = (b && (wordChar (next cfg i) && !wordChar (prev cfg i))) := by
        unfold atBow
        cases b with
        | false => rfl
        | true =>
          have : i ≠ 0 := fun h => c1 ⟨rfl, h⟩
          simp [this]
      rw [a1, a2]
      by_cases h0 : i = 0
      · have hb : b = false := by
          cases b with
          | false => rfl
          | true => exact absurd ⟨rfl, h0⟩ c1
        rw [if_pos (z.2 h0)]
        simp [hb, prev, h0, wordChar]
      · obtain ⟨j, rfl⟩ : ∃ j, i = j + 1 := ⟨i - 1, by omega⟩
        have hj : j < cfg.text.length := by omega
        have ht := List.getElem?_eq_getElem hj
        have pv : wordConstituent (cx.mem (boff cfg j)) = wordChar (prev cfg (j + 1)) := by
          unfold prev
          rw [if_neg (by omega), Nat.add_sub_cancel, ht]
          exact word_eq S ht
        rw [if_neg (fun h => h0 (z.1 h)), S.backward ht]
        simp only [nx, pv, Bool.and_assoc]

theorem impl_bol (S : Shows cx cfg ci br) {p : Nat} (ho : opTable[cx.at p]? = some .bol) :
    Impl cx cfg op p (p + 1) (fun st => test (atBol cfg st.pos) st) := by
  apply impl_test ho
  intro rec st c hv
  simp only [exec, beginningOfLine_eq S hv.1]

theorem impl_eol (S : Shows cx cfg ci br) {p : Nat} (ho : opTable[cx.at p]? = some .eol) :
    Impl cx cfg op p (p + 1) (fun st => test (atEol cfg st.pos) st) := by
  apply impl_test ho
  intro rec st c hv
  simp only [exec, endOfLine_eq S hv.1]

theorem impl_bow (S : Shows cx cfg ci br) {p : Nat} (ho : opTable[cx.at p]? = some .bow) :
    Impl cx cfg op p (p + 1) (fun st => test (atBow cfg st.pos) st) := by
  apply impl_test ho
  intro rec st c hv
  simp [exec, wordBoundary_eq S hv.1]

theorem impl_eow (S : Shows cx cfg ci br) {p : Nat} (ho : opTable[cx.at p]? = some .eow) :
    Impl cx cfg op p (p + 1) (fun st => test (atEow cfg st.pos) st) := by
  apply impl_test ho
  intro rec st c hv
  simp [exec, wordBoundary_eq S hv.1]

theorem impl_wb (S : Shows cx cfg ci br) {p : Nat} (ho : opTable[cx.at p]? = some .wb) :
    Impl cx cfg op p (p + 1) (fun st => test (atBow cfg st.pos || atEow cfg st.pos) st) := by
  apply impl_test ho
  intro rec st c hv
  simp [exec, wordBoundary_eq S hv.1]

theorem impl_nwb (S : Shows cx cfg ci br) {p : Nat} (ho : opTable[cx.at p]? = some .nwb) :
    Impl cx cfg op p (p + 1) (fun st => test (!(atBow cfg st.pos || atEow cfg st.pos)) st) := by
  apply impl_test ho
  intro rec st c hv
  simp only [exec, wordBoundary_eq S hv.1, Bool.true_and]
  by_cases h : (atBow cfg st.pos || atEow cfg st.pos) = true
  · rw [if_pos h, if_neg (by rw [h]; simp)]
  · rw [if_neg h, if_pos (by rw [Bool.not_eq_true] at h; rw [h]; rfl)]

/-! ## runs of characters -/

/-- Where a run of characters ends, if it is there. -/
def runTo (cfg : Cfg) (fold : Bool) : List Nat → Nat → Option Nat
  | [], i => some i
  | c :: l, i =>
    match cfg.text[i]? with
    | some x => if (if fold then cfg.down x else x) == c then runTo cfg fold l (i + 1) else none
    | none => none

/-- The ways of a run. -/
def runW (cfg : Cfg) (fold : Bool) (l : List Nat) (st : St) : List St :=
  match runTo cfg fold l st.pos with
  | some j => [{ st with pos := j }]
  | none => []

theorem runW_nil (fold : Bool) (st : St) : runW cfg fold [] st = [st] := rfl

theorem runW_cons (fold : Bool) (c : Nat) (l : List Nat) (st : St) :
    runW cfg fold (c :: l) st =
      (one cfg (fun x => (if fold then cfg.down x else x) == c) st).flatMap (runW cfg fold l) := by
  unfold runW one
  simp only [runTo]
  cases cfg.text[st.pos]? with
  | none => rfl
  | some x =>
    dsimp only
    by_cases h : ((if fold then cfg.down x else x) == c) = true
    · rw [if_pos h, if_pos h]
      simp [List.flatMap_cons]
    · rw [if_neg h, if_neg h]; rfl

theorem runW_append (fold : Bool) (a b : List Nat) (st : St) :
    runW cfg fold (a ++ b) st = (runW cfg fold a st).flatMap (runW cfg fold b) := by
  induction a generalizing st with
  | nil => simp [runW_nil]
  | cons c a ih =>
    rw [List.cons_append, runW_cons, runW_cons, List.flatMap_assoc]
    exact flatMap_ext fun t _ => ih t

theorem pres_runW (fold : Bool) (l : List Nat) : Pres cfg (runW cfg fold l) := by
  induction l with
  | nil => exact pres_nil
  | cons c l ih =>
    have := pres_comp (pres_one (cfg := cfg) (fun x => (if fold then cfg.down x else x) == c)) ih
    intro st hv t ht
    rw [runW_cons] at ht
    exact this st hv t ht

/-- Without case folding: the run is a prefix of what follows. -/
theorem runTo_prefix (l : List Nat) (i : Nat) :
    runTo cfg false l i = if l <+: cfg.text.drop i then some (i + l.length) else none := by
  induction l generalizing i with
  | nil => simp [runTo]
  | cons c l ih =>
    simp only [runTo]
    cases h : cfg.text[i]? with
    | none =>
      rw [List.getElem?_eq_none_iff] at h
      rw [List.drop_eq_nil_of_le h, if_neg (by simp)]
    | some x =>
      have hl := getElem?_lt h
      rw [List.getElem?_eq_getElem hl] at h
      injection h with h
      rw [List.drop_eq_getElem_cons hl, h, ih]
      dsimp only
      have hp : c :: l <+: x :: cfg.text.drop (i + 1) ↔ c = x ∧ l <+: cfg.text.drop (i + 1) :=
        List.cons_prefix_cons
      by_cases e : c = x
      · subst e
        rw [if_pos (by simp)]
        by_cases hq : l <+: cfg.text.drop (i + 1)
        · rw [if_pos hq, if_pos (hp.2 ⟨rfl, hq⟩), List.length_cons]
          congr 1; omega
        · rw [if_neg hq, if_neg (fun h => hq (hp.1 h).2)]
      · rw [if_neg (by simp [Ne.symm e]), if_neg (fun h => e (hp.1 h).1)]

theorem encodeAll_prefix {l t : List Nat} (hl : ∀ c ∈ l, IsCode c) (ht : ∀ c ∈ t, IsCode c) :
    encodeAll l <+: encodeAll t ↔ l <+: t := by
  constructor
  · intro h
    induction l generalizing t with
    | nil => simp
    | cons c l ih =>
      cases t with
      | nil =>
        rw [encodeAll_cons] at h
        have := encode_ne_nil c
        simp at h
        exact absurd h.1 this
      | cons d t =>
        rw [encodeAll_cons, encodeAll_cons] at h
        obtain ⟨s, hs⟩ := h
        have e : c = d := encode_prefix (hl _ (by simp)) (ht _ (by simp))
          (by rw [List.append_assoc] at hs; exact hs)
        subst e
        rw [List.cons_prefix_cons]
        refine ⟨rfl, ih (fun x hx => hl x (by simp [hx])) (fun x hx => ht x (by simp [hx])) ⟨s, ?_⟩⟩
        rw [List.append_assoc] at hs
        exact List.append_cancel_left hs
  · rintro ⟨s, rfl⟩
    rw [encodeAll_append]; exact List.prefix_append _ _

theorem holds_prefix {m : Mem} {l b : List Nat} (h : Holds m l) :
    b <+: l ↔ b.length ≤ l.length ∧ ∀ k (hk : k < b.length), m k = b[k] := by
  constructor
  · rintro ⟨s, rfl⟩
    exact ⟨by simp, (holds_append.1 h).1⟩
  · rintro ⟨h1, h2⟩
    have : b = l.take b.length := by
      apply List.ext_getElem
      · simp; omega
      · intro k hk hk'
        rw [← h2 k hk, List.getElem_take]
        exact h k (by omega)
    rw [this]; exact List.take_prefix _ _

theorem boff_add {i : Nat} {w : List Nat} (h : w <+: cfg.text.drop i) :
    boff cfg (i + w.length) = boff cfg i + (encodeAll w).length := by
  have hw := List.prefix_iff_eq_take.1 h
  unfold boff
  rw [List.take_add, ← hw, encodeAll_append, List.length_append]

theorem length_from (S : Shows cx cfg ci br) (i : Nat) :
    (encodeAll (cfg.text.drop i)).length = cx.stop - boff cfg i := by
  have := congrArg (fun l => (encodeAll l).length) (List.take_append_drop i cfg.text)
  simp only [encodeAll_append, List.length_append] at this
  rw [S.stop]; unfold boff; omega

/-- Comparing the bytes of a run with the input. -/
theorem same_run (S : Shows cx cfg ci br) {l : List Nat} (hl : ∀ c ∈ l, IsCode c) {pc i : Nat}
    (hat : At cx pc (encodeAll l)) (hb : boff cfg i + (encodeAll l).length ≤ cx.stop) :
    cx.same pc (boff cfg i) (encodeAll l).length = true ↔ l <+: cfg.text.drop i := by
  rw [← encodeAll_prefix hl (fun c hc => S.codes c (List.mem_of_mem_drop hc)),
    holds_prefix (S.holdsFrom i), length_from S]
  unfold Ctx.same
  rw [List.all_eq_true]
  constructor
  · intro h
    refine ⟨by omega, fun k hk => ?_⟩
    have := h k (by simpa using hk)
    rw [hat k hk] at this
    simpa using (beq_iff_eq.1 this).symm
  · rintro ⟨_, h⟩ k hk
    have hk : k < (encodeAll l).length := by simpa using hk
    rw [hat k hk, ← h k hk]
    simp

theorem prefix_fits (S : Shows cx cfg ci br) {l : List Nat} {i : Nat}
    (hi : i ≤ cfg.text.length) (h : l <+: cfg.text.drop i) :
    boff cfg i + (encodeAll l).length ≤ cx.stop := by
  rw [← boff_add h]; exact S.boff_le _

theorem impl_match (S : Shows cx cfg ci br) {l : List Nat} (hl : ∀ c ∈ l, IsCode c) {p : Nat}
    (ho : opTable[cx.at p]? = some .match_) (hn : cx.at (p + 1) = (encodeAll l).length)
    (hat : At cx (p + 2) (encodeAll l)) :
    Impl cx cfg op p (p + 2 + (encodeAll l).length) (runW cfg false l) := by
  apply impl_det ho
  intro rec st c G hv _ _
  simp only [exec, hn]
  rw [runTo_prefix]
  by_cases hb : cx.stop < boff cfg st.pos + (encodeAll l).length
  · rw [if_pos hb, if_neg]
    intro h
    have := prefix_fits S hv.1 h
    omega
  · rw [if_neg hb]
    have := same_run S hl (pc := p + 2) (i := st.pos) hat (by omega)
    by_cases h : l <+: cfg.text.drop st.pos
    · rw [if_pos (this.2 h), if_pos h]
      simp only [boff_add h]
    · rw [if_neg (fun h' => h (this.1 h')), if_neg h]

theorem at_holds {pc : Nat} {l : List Nat} (h : At cx pc l) : Holds (fun k => cx.at (pc + k)) l := h

theorem matchCi_run (S : Shows cx cfg ci br) (hci : ci = true) {l : List Nat} :
    ∀ (n pc i : Nat), (∀ c ∈ l, IsCode c) → l ≠ [] → l.length ≤ n →
      At cx pc (encodeAll l) → boff cfg i + (encodeAll l).length ≤ cx.stop →
      matchCi cx n (boff cfg i) pc ((encodeAll l).length : Int) =
        (runTo cfg true l i).map fun j => (boff cfg j, pc + (encodeAll l).length) := by
  induction l with
  | nil => intro n pc i _ h; exact absurd rfl h
  | cons c l ih =>
    intro n pc i hl _ hn hat hb
    obtain ⟨n, rfl⟩ : ∃ n', n = n' + 1 := ⟨n - 1, by simp at hn; omega⟩
    rw [encodeAll_cons] at hat hb ⊢
    rw [at_append] at hat
    rw [List.length_append, encode_length] at hb ⊢
    have hc := nbytes_pos c
    have hi : boff cfg i < cx.stop := by omega
    cases ht : cfg.text[i]? with
    | none =>
      rw [List.getElem?_eq_none_iff] at ht
      have := boff_mono (cfg := cfg) ht
      rw [boff_length, ← S.stop] at this
      omega
    | some x =>
      simp only [matchCi, S.getc ht, charGet_encode c _ (hl c (by simp)) (at_holds hat.1), nbytesOpt,
        S.down, runTo, ht, if_true]
      have hx := (S.ci hci x (List.mem_of_getElem? ht)).1
      by_cases e : cfg.down x = c
      · have hcond : (cfg.down x == c) = true := by simpa using e
        rw [if_pos e, if_pos hcond]
        rw [e] at hx
        by_cases hle : l = []
        · subst hle
          rw [if_neg (by simp [hx])]
          simp [runTo, boff_succ ht, hx]
        · have hpos : 0 < (encodeAll l).length := by
            cases l with
            | nil => exact absurd rfl hle
            | cons d l => rw [encodeAll_cons, List.length_append, encode_length]
                          have := nbytes_pos d; omega
          rw [← hx, if_pos (by push_cast; omega)]
          have := ih n (pc + nbytes c) (i + 1) (fun y hy => hl y (by simp [hy])) hle
            (by simp at hn; omega) (by rw [encode_length] at hat; exact hat.2)
            (by rw [boff_succ ht, ← hx]; omega)
          rw [boff_succ ht, ← hx] at this
          rw [show ((nbytes c + (encodeAll l).length : Nat) : Int) - (nbytes c : Int) =
            ((encodeAll l).length : Int) by push_cast; omega, this]
          congr 1
          funext j
          rw [Nat.add_assoc]
      · have hcond : ¬ (cfg.down x == c) = true := by simpa using e
        rw [if_neg e, if_neg hcond]; rfl

theorem impl_matchCI (S : Shows cx cfg ci br) (hci : ci = true) {l : List Nat}
    (hl : ∀ c ∈ l, IsCode c) (hne : l ≠ []) {p : Nat}
    (ho : opTable[cx.at p]? = some .matchCI) (hn : cx.at (p + 1) = (encodeAll l).length)
    (hat : At cx (p + 2) (encodeAll l)) :
    Impl cx cfg op p (p + 2 + (encodeAll l).length) (runW cfg true l) := by
  have hlen : ∀ l : List Nat, l.length ≤ (encodeAll l).length := by
    intro l
    induction l with
    | nil => simp
    | cons d l ih =>
      rw [encodeAll_cons, List.length_append, encode_length, List.length_cons]
      have := nbytes_pos d; omega
  apply impl_det ho
  intro rec st c G hv _ _
  simp only [exec, hn]
  by_cases hb : cx.stop < boff cfg st.pos + (encodeAll l).length
  · rw [if_pos hb]
    -- a run that is there fits
    have fits : ∀ (l : List Nat) (i j : Nat), runTo cfg true l i = some j →
        boff cfg i + (encodeAll l).length ≤ cx.stop := by
      intro l
      induction l with
      | nil => intro i j _; simpa using S.boff_le i
      | cons d l ih =>
        intro i j h
        simp only [runTo] at h
        cases ht : cfg.text[i]? with
        | none => rw [ht] at h; cases h
        | some x =>
          rw [ht] at h
          simp only [if_true] at h
          by_cases e : cfg.down x = d
          · rw [if_pos (by simpa using e)] at h
            have := ih _ _ h
            have hx := (S.ci hci x (List.mem_of_getElem? ht)).1
            rw [boff_succ ht, ← hx, e] at this
            rw [encodeAll_cons, List.length_append, encode_length]; omega
          · rw [if_neg (by simpa using e)] at h; cases h
    cases hr : runTo cfg true l st.pos with
    | none => rfl
    | some j => have := fits l _ _ hr; omega
  · rw [if_neg hb]
    rw [matchCi_run S hci _ (p + 2) st.pos hl hne (by have := hlen l; omega) hat (by omega)]
    cases runTo cfg true l st.pos <;> rfl
end

end Gauche.Regex

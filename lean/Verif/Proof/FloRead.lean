import Verif.Spec.FloText
import Verif.Proof.NumText
import Verif.Proof.FloPrint
/-
What the decimal reader reads.
-/
namespace Gauche.FloText
open Gauche.Spec Gauche.Flonum Gauche.Radix Gauche.Bignum Gauche.NumText Gauche.NumText.Spec Gauche.FloText.Spec

theorem run_tok {strict : Bool} {s : List Char} {ds : List Nat} (h : DigitRun strict s ds) (hne : ds ≠ []) : TokOk 10 strict false false s ds := by
  obtain ⟨h1, h2, h3, h4, h5⟩ := h
  refine (tokOk_iff 10 strict s false false ds).2 ⟨h1, h5, h4, ?_, h3, fun h => absurd h h2⟩
  rintro rfl
  simp at h1
  exact absurd h1 hne

theorem run_tok' {strict : Bool} {s : List Char} {ds : List Nat} (h : DigitRun strict s ds) : TokOk 10 strict true false s ds := by
  obtain ⟨h1, h2, h3, h4, h5⟩ := h
  exact (tokOk_iff 10 strict s true false ds).2 ⟨h1, h5, h4, fun _ => ⟨rfl, rfl⟩, h3, fun _ => ⟨rfl, rfl⟩⟩

theorem run_uint {strict : Bool} {s : List Char} {ds : List Nat} (h : DigitRun strict s ds) (hne : ds ≠ []) : UIntText 10 strict s (ofBE 10 ds) :=
  ⟨⟨ds, h.1, hne, rfl⟩, h.2.1, h.2.2.1, h.2.2.2.1, h.2.2.2.2⟩

theorem run_count {strict : Bool} {s : List Char} {ds : List Nat} (h : DigitRun strict s ds) : (s.filter (· ≠ '_')).length = ds.length := by
  have := congrArg List.length h.1
  simpa using this

theorem run_nil {strict : Bool} {s : List Char} (h : DigitRun strict s []) : s = [] := by
  obtain ⟨h1, h2, _⟩ := h
  cases s with
  | nil => rfl
  | cons c cs =>
    have hc : c ≠ '_' := by simpa using h2
    rw [List.filter_cons_of_pos (by simpa using hc)] at h1
    simp at h1

theorem run_head {strict : Bool} {s : List Char} {ds : List Nat} (h : DigitRun strict s ds) (hne : ds ≠ []) :
    ∃ c cs, s = c :: cs ∧ ∃ d, digitOf 10 c = some d := by
  obtain ⟨h1, h2, _⟩ := h
  cases s with
  | nil => simp at h1; exact absurd h1 hne
  | cons c cs =>
    have hc : c ≠ '_' := by simpa using h2
    rw [List.filter_cons_of_pos (by simpa using hc)] at h1
    cases ds with
    | nil => simp at h1
    | cons d ds =>
      simp at h1
      exact ⟨c, cs, rfl, d, h1.1⟩

theorem digit10 {c : Char} {d : Nat} (h : digitOf 10 c = some d) : 48 ≤ c.toNat ∧ c.toNat < 58 ∧ d = c.toNat - 48 := by
  unfold digitOf at h
  simp only [] at h
  rw [Option.filter_eq_some_iff] at h
  obtain ⟨h1, h2⟩ := h
  simp at h2
  split at h1
  · simp at h1; omega
  · split at h1
    · simp at h1; omega
    · split at h1
      · simp at h1; omega
      · simp at h1

theorem ofBE_append (a b : List Nat) : ofBE 10 (a ++ b) = ofBE 10 a * 10 ^ b.length + ofBE 10 b := by
  rw [← foldl_ofBE b (ofBE 10 a)]
  unfold ofBE
  rw [List.foldl_append]

/-! ### the fraction -/

theorem natOf_isInt {n : Num} {k : Nat} (h : n.IsInt k) : natOf n = k := by
  unfold natOf; rw [h.2]; simp

theorem accInit_spec {n : Num} {k : Nat} (h : n.IsInt k) : (accInit n).Inv 10 ∧ (accInit n).val 10 = k := by
  obtain ⟨h1, h2⟩ := h
  cases n with
  | fix n =>
    simp only [Num.toInt] at h2
    subst h2
    unfold accInit
    simp only [Int.toNat_natCast]
    obtain ⟨_, hle⟩ := h1
    split
    · refine ⟨⟨?_, by simp, Nat.zero_le _, by simp⟩, ?_⟩
      · intro w hw
        simp at hw
        rcases hw with rfl | rfl
        · have h' : ((w : Nat) : Int) ≤ 2305843009213693951 := hle
          omega
        · omega
      · simp [Acc.val, Bignum.val]
    · exact ⟨by simp only [Acc.Inv]; omega, rfl⟩
  | big b =>
    obtain ⟨hs, hw, ⟨hne, _⟩, ho⟩ := h1
    refine ⟨⟨hw, hne, Nat.zero_le _, by simp [accInit]⟩, ?_⟩
    simp only [Num.toInt, Big.toInt] at h2
    simp only [accInit, Acc.val, pow_zero, mul_one, Nat.add_zero]
    rcases hs with hs | hs
    · rw [hs] at h2; omega
    · rw [hs] at h2
      have : Bignum.val b.vals = 0 := by omega
      omega

theorem stop_head {r : Nat} {s : List Char} (h : Stop r s) : s.head? ≠ some '_' := by
  cases s with
  | nil => simp
  | cons c cs => simpa using (h c cs rfl).1

theorem readFrac_some {strict : Bool} {n : Num} {k : Nat} (hn : n.IsInt k) {b rest : List Char} {db : List Nat} (hb : DigitRun strict b db)
    (hs : Stop 10 rest) : ∃ fr, readFrac strict (some n) (b ++ rest) = .ok fr rest ∧ fr.IsInt ((k * 10 ^ db.length + ofBE 10 db : Nat) : Int) := by
  obtain ⟨a1, a2⟩ := accInit_spec hn
  obtain ⟨f1, f2⟩ := fold_spec (r := 10) (by norm_num) (by norm_num) db _ a1 (run_tok' hb).lt
  have hfin := accFinish_spec (r := 10) (by norm_num) (by norm_num) f1
  rw [f2, a2, foldl_ofBE] at hfin
  refine ⟨_, ?_, hfin⟩
  unfold readFrac
  simp only []
  rw [if_neg]
  · exact (ruLoop_iff (r := 10) (by norm_num) strict (b ++ rest) true false (accInit n) _ rest).2 ⟨b, db, rfl, run_tok' hb, hs, rfl⟩
  · cases b with
    | nil => simpa using stop_head hs
    | cons c cs => simpa using hb.2.1

/-! ### the exponent -/

theorem foldl_le (ds : List Nat) : ∀ e, e ≤ ds.foldl (fun a d => a * 10 + d) e := by
  induction ds with
  | nil => intro e; exact le_refl _
  | cons d ds ih => intro e; rw [List.foldl_cons]; have := ih (e * 10 + d); omega

theorem expLoop_spec {strict : Bool} (tok : List Char) : ∀ (dr us : Bool) (ds : List Nat) (e E : Nat), TokOk 10 strict dr us tok ds →
    (E < 325 → e = E) → (325 ≤ E → 325 ≤ e) →
    ∃ e', expLoop (!dr) us (decide (325 ≤ E)) e tok = some (e', decide (325 ≤ ds.foldl (fun a d => a * 10 + d) E), []) ∧
      (ds.foldl (fun a d => a * 10 + d) E < 325 → e' = ds.foldl (fun a d => a * 10 + d) E) ∧
      (325 ≤ ds.foldl (fun a d => a * 10 + d) E → 325 ≤ e') := by
  induction tok with
  | nil =>
    rintro dr us ds e E ⟨h1, h2, rfl⟩ he hE
    exact ⟨e, rfl, he, hE⟩
  | cons c cs ih =>
    intro dr us ds e E h he hE
    rcases h with ⟨rfl, h1, h2, h3, h4⟩ | ⟨d, ds', h1, rfl, h3⟩
    · subst h2 h3
      have hne : cs ≠ [] := by rintro rfl; exact absurd h4.2.1 (by simp)
      obtain ⟨e', k1, k2, k3⟩ := ih true true ds e E h4 he hE
      refine ⟨e', ?_, k2, k3⟩
      rw [← k1, expLoop, if_pos rfl]
      rw [if_neg]
      · rfl
      · simp [hne]
    · obtain ⟨g1, g2, g3⟩ := digit10 h1
      have hus : c ≠ '_' := by rintro rfl; rw [digitOf_us] at h1; cases h1
      rw [expLoop, if_neg hus, if_pos ⟨g1, g2⟩]
      by_cases hov : 325 ≤ E
      · rw [if_pos (by simpa using hov)]
        obtain ⟨e', k1, k2, k3⟩ := ih true false ds' e (E * 10 + d) h3 (fun h => by omega) (fun _ => hE hov)
        refine ⟨e', ?_, k2, k3⟩
        rw [List.foldl_cons, ← k1]
        rw [decide_eq_true hov, decide_eq_true (by omega : 325 ≤ E * 10 + d)]
        rfl
      · rw [if_neg (by simpa using hov)]
        have heE := he (by omega)
        subst heE
        obtain ⟨e', k1, k2, k3⟩ := ih true false ds' (e * 10 + d) (e * 10 + d) h3 (fun _ => rfl) (fun h => h)
        refine ⟨e', ?_, k2, k3⟩
        rw [List.foldl_cons, ← k1, ← g3]
        rfl

theorem expMark_of {c : Char} (h : c ∈ "eEsSfFdDlL".toList) : isExpMark c = true ∧ digitOf 10 c = none ∧ c ≠ '_' ∧ c ≠ '#' ∧ c ≠ '.' ∧ c ≠ '/' := by
  revert c; decide

theorem readExponent_spec {strict : Bool} {s : List Char} {e : Int} (h : ExponentText strict s e) :
    ∃ e', readExponent s = some (e', decide (325 ≤ e.natAbs), []) ∧ (e.natAbs < 325 → e' = e) ∧ (325 ≤ e.natAbs → (e' < 0 ↔ e < 0)) := by
  rcases h with ⟨rfl, rfl⟩ | ⟨c, sg, t, sgn, ds, rfl, hc, hsg, ht, hne, rfl⟩
  · exact ⟨0, rfl, fun _ => rfl, fun _ => Iff.rfl⟩
  · obtain ⟨e', k1, k2, k3⟩ := expLoop_spec t false false ds 0 0 (run_tok ht hne) (fun _ => rfl) (fun h => h)
    rw [show ds.foldl (fun a d => a * 10 + d) 0 = ofBE 10 ds from rfl] at k1 k2 k3
    rw [show decide (325 ≤ 0) = false from rfl, show (!false) = true from rfl] at k1
    obtain ⟨c0, cs0, rfl, d, hd⟩ := run_head ht hne
    obtain ⟨g1, g2, _⟩ := digit10 hd
    have n1 : c0 ≠ '-' := by rintro rfl; exact absurd g1 (by decide)
    have n2 : c0 ≠ '+' := by rintro rfl; exact absurd g1 (by decide)
    unfold readExponent
    simp only [(expMark_of hc).1, if_true]
    rcases hsg with ⟨rfl, rfl⟩ | ⟨rfl, rfl⟩ | ⟨rfl, rfl⟩
    · simp only [List.nil_append]
      rw [if_neg (by simp [n1, n2]), k1]
      refine ⟨e', by simp, fun h => ?_, fun h => ?_⟩
      · rw [k2 (by omega)]; simp
      · have := k3 (by omega); omega
    · simp only [List.cons_append, List.nil_append]
      rw [if_pos (by simp), if_neg (by simp), k1]
      refine ⟨e', by simp, fun h => ?_, fun h => ?_⟩
      · rw [k2 (by omega)]; simp
      · have := k3 (by omega); omega
    · simp only [List.cons_append, List.nil_append]
      rw [if_pos (by simp), if_neg (by simp), k1]
      refine ⟨-e', by simp, fun h => ?_, fun h => ?_⟩
      · rw [k2 (by omega)]; simp
      · have := k3 (by omega); omega

/-! ### the whole text -/

/-- What `read_real` makes of the digits, the number of digits after the point and the exponent. -/
def result (fuel : Nat) (neg : Bool) (f d : Nat) (e : Int) : FR :=
  if 325 ≤ e.natAbs then
    if e < 0 ∨ f = 0 then .flo (.num neg (.fin 0 (-1074))) [] else .flo (.num neg .inf) []
  else match toFlonum fuel f (e - d) with
    | none => .hang
    | some x => .flo (.num neg x) []

theorem finish_spec {strict : Bool} {s : List Char} {e : Int} (h : ExponentText strict s e) (fuel : Nat) (neg : Bool) (f d : Nat) :
    finish fuel neg f d s = result fuel neg f d e := by
  obtain ⟨e', k1, k2, k3⟩ := readExponent_spec h
  unfold finish result
  rw [k1]
  simp only []
  by_cases hov : 325 ≤ e.natAbs
  · rw [if_pos (by simpa using hov), if_pos hov]
    by_cases hz : e < 0 ∨ f = 0
    · rw [if_pos hz, if_pos (by rw [k3 hov]; exact hz)]
    · rw [if_neg hz, if_neg (by rw [k3 hov]; exact hz)]
  · rw [if_neg (by simpa using hov), if_neg hov, k2 (by omega)]
    cases toFlonum fuel f (e - d) <;> rfl

theorem stop_exp {strict : Bool} {s : List Char} {e : Int} (h : ExponentText strict s e) : Stop 10 s := by
  rcases h with ⟨rfl, _⟩ | ⟨c, sg, t, sgn, ds, rfl, hc, _⟩
  · exact stop_nil _
  · intro c' cs hh
    simp at hh
    obtain ⟨rfl, _⟩ := hh
    obtain ⟨_, h2, h3, h4, _⟩ := expMark_of hc
    exact ⟨h3, h4, h2⟩

theorem stop_dot (s : List Char) : Stop 10 ('.' :: s) := by
  intro c cs h; simp at h
  obtain ⟨rfl, _⟩ := h
  exact ⟨by decide, by decide, by decide⟩

theorem not_special10 {s : List Char} {c : Char} (h : s.head? = some c) (hc : c.toLower ≠ 'i' ∧ c.toLower ≠ 'n') :
    ((s.take 5).map Char.toLower == "inf.0".toList) = false ∧ ((s.take 5).map Char.toLower == "nan.0".toList) = false := by
  cases s with
  | nil => simp at h
  | cons x t =>
    simp at h
    subst h
    constructor
    · rw [beq_eq_false_iff_ne]; intro hh
      have := congrArg List.head? hh
      simp at this
      exact hc.1 this
    · rw [beq_eq_false_iff_ne]; intro hh
      have := congrArg List.head? hh
      simp at this
      exact hc.2 this

theorem digit_lower_table : ∀ c, c < 58 → 48 ≤ c → (Char.ofNat c).toLower ≠ 'i' ∧ (Char.ofNat c).toLower ≠ 'n' ∧ Char.ofNat c ≠ '.' ∧ Char.ofNat c ≠ '+' ∧
    Char.ofNat c ≠ '-' ∧ Char.ofNat c ≠ 'i' ∧ Char.ofNat c ≠ 'I' := by decide

theorem digit_lower {c : Char} {d : Nat} (h : digitOf 10 c = some d) : c.toLower ≠ 'i' ∧ c.toLower ≠ 'n' ∧ c ≠ '.' ∧ c ≠ '+' ∧ c ≠ '-' ∧ c ≠ 'i' ∧ c ≠ 'I' := by
  obtain ⟨h1, h2, _⟩ := digit10 h
  have := digit_lower_table c.toNat h2 h1
  rwa [Char.ofNat_toNat] at this

theorem udec_head {strict : Bool} {s : List Char} {f d : Nat} {e : Int} (h : UDecimalText strict s f d e) :
    ∃ c cs, s = c :: cs ∧ (c = '.' ∨ ∃ v, digitOf 10 c = some v) := by
  obtain ⟨body, ex, rfl, hex, ⟨da, h1, h2, _⟩ | ⟨a, b, da, db, rfl, h1, h2, h3, _⟩⟩ := h
  · obtain ⟨c, cs, rfl, hd⟩ := run_head h1 h2
    exact ⟨c, cs ++ ex, rfl, Or.inr hd⟩
  · by_cases ha : da = []
    · subst ha
      rw [run_nil h1]
      exact ⟨'.', b ++ ex, rfl, Or.inl rfl⟩
    · obtain ⟨c, cs, rfl, hd⟩ := run_head h1 ha
      exact ⟨c, _, rfl, Or.inr hd⟩

theorem readUdec_spec {strict : Bool} {s : List Char} {f d : Nat} {e : Int} (h : UDecimalText strict s f d e) (fuel : Nat) (neg sign : Bool) :
    readUdec fuel strict neg sign s = result fuel neg f d e := by
  obtain ⟨c, cs, hs, hc⟩ := udec_head h
  have hl : c.toLower ≠ 'i' ∧ c.toLower ≠ 'n' := by
    rcases hc with rfl | ⟨v, hv⟩
    · decide
    · exact ⟨(digit_lower hv).1, (digit_lower hv).2.1⟩
  obtain ⟨s1, s2⟩ := not_special10 (s := s) (c := c) (by rw [hs]; rfl) hl
  unfold readUdec
  rw [if_neg (by rw [hs]; simp), s1, s2]
  simp only [Bool.and_false, Bool.false_eq_true, if_false]
  obtain ⟨body, ex, hbe, hex, hform⟩ := h
  have frac : ∀ (b : List Char) (db : List Nat), DigitRun strict b db →
      (((b ++ ex).take ((b ++ ex).length - ex.length)).filter (· ≠ '_')).length = db.length := by
    intro b db hb
    rw [List.length_append, Nat.add_sub_cancel, List.take_left, run_count hb]
  rcases hform with ⟨da, h1, h2, h3, rfl, rfl⟩ | ⟨a, b, da, db, rfl, h1, h2, h3, rfl, rfl⟩
  · obtain ⟨n, k1, k2⟩ := readUint_full (r := 10) (by norm_num) (by norm_num) (run_uint h1 h2) (stop_exp hex)
    obtain ⟨c1, cs1, hc1, v, hv⟩ := run_head h1 h2
    have hnd : c ≠ '.' := by
      rw [hbe, hc1] at hs
      simp at hs
      rw [← hs.1]
      exact (digit_lower hv).2.2.1
    subst hs
    split
    · rename_i t heq
      injection heq with heq _
      exact absurd heq hnd
    · rw [hbe, k1]
      simp only []
      have hex' := hex
      rcases hex with ⟨rfl, _⟩ | ⟨cm, sg, t, sgn, ds, rfl, hcm, _⟩
      · exact absurd rfl h3
      · simp only []
        obtain ⟨_, _, _, _, m1, m2⟩ := expMark_of hcm
        rw [if_neg m2, if_neg m1, natOf_isInt k2]
        exact finish_spec hex' _ _ _ _
  · by_cases ha : da = []
    · subst ha
      have := run_nil h1
      subst this
      simp only [List.nil_append] at hbe h3 ⊢
      subst hbe
      obtain ⟨fr, k1, k2⟩ := readUint_full (r := 10) (by norm_num) (by norm_num) (run_uint h2 h3) (stop_exp hex)
      simp only [List.cons_append]
      obtain ⟨c1, cs1, rfl, _⟩ := run_head h2 h3
      rw [if_neg (by simp)]
      simp only [readFrac, k1]
      rw [frac _ _ h2, natOf_isInt k2]
      exact finish_spec hex _ _ _ _
    · obtain ⟨n, k1, k2⟩ := readUint_full (r := 10) (by norm_num) (by norm_num) (run_uint h1 ha) (stop_dot (b ++ ex))
      obtain ⟨c1, cs1, hc1, v, hv⟩ := run_head h1 ha
      have hnd : c ≠ '.' := by
        rw [hbe, hc1] at hs
        simp at hs
        rw [← hs.1]
        exact (digit_lower hv).2.2.1
      subst hs
      split
      · rename_i t heq
        injection heq with heq _
        exact absurd heq hnd
      · rw [hbe, show a ++ '.' :: b ++ ex = a ++ '.' :: (b ++ ex) by simp, k1]
        simp only []
        rw [if_neg (by decide), if_pos trivial]
        obtain ⟨fr, j1, j2⟩ := readFrac_some k2 h2 (stop_exp hex)
        rw [j1]
        simp only []
        rw [frac _ _ h2, natOf_isInt j2, ofBE_append]
        exact finish_spec hex _ _ _ _

/-- A decimal text is read as the flonum that its digits and its exponent determine. -/
theorem readNumber_spec {strict : Bool} {s : List Char} {neg : Bool} {f d : Nat} {e : Int} (h : DecimalText strict s neg f d e) (fuel : Nat) :
    readNumber fuel strict s = result fuel neg f d e := by
  obtain ⟨sg, body, rfl, hsg, hu⟩ := h
  obtain ⟨c, cs, rfl, hc⟩ := udec_head hu
  have hcc : c ≠ '+' ∧ c ≠ '-' ∧ c ≠ 'i' ∧ c ≠ 'I' := by
    rcases hc with rfl | ⟨v, hv⟩
    · decide
    · exact (digit_lower hv).2.2.2
  have hdec : readDec fuel strict (sg ++ c :: cs) = result fuel neg f d e := by
    rcases hsg with ⟨rfl, rfl⟩ | ⟨rfl | rfl, rfl⟩
    · exact readUdec_spec hu fuel true true
    · show readDec fuel strict (c :: cs) = _
      unfold readDec
      split
      · rename_i heq; injection heq with h1 _; exact absurd h1 hcc.2.1
      · rename_i heq; injection heq with h1 _; exact absurd h1 hcc.1
      · exact readUdec_spec hu fuel false false
    · exact readUdec_spec hu fuel false true
  have hlen : (sg ++ c :: cs).length = sg.length + cs.length + 1 := by simp; omega
  unfold readNumber
  rw [if_neg (by simp)]
  simp only []
  rw [hdec]
  have n1 : ¬ (((sg ++ c :: cs).head? = some '+' ∨ (sg ++ c :: cs).head? = some '-') ∧ (sg ++ c :: cs).length = 1) := by
    rintro ⟨h1, h2⟩
    rcases hsg with ⟨rfl, _⟩ | ⟨rfl | rfl, _⟩
    · simp at h2
    · simp [hcc.1, hcc.2.1] at h1
    · simp at h2
  have n2 : ¬ (((sg ++ c :: cs).head? = some '+' ∨ (sg ++ c :: cs).head? = some '-') ∧ (sg ++ c :: cs).length = 2 ∧
      ((sg ++ c :: cs)[1]? = some 'i' ∨ (sg ++ c :: cs)[1]? = some 'I')) := by
    rintro ⟨h1, h2, h3⟩
    rcases hsg with ⟨rfl, _⟩ | ⟨rfl | rfl, _⟩
    · simp [hcc.2.2.1, hcc.2.2.2] at h3
    · simp [hcc.1, hcc.2.1] at h1
    · simp [hcc.2.2.1, hcc.2.2.2] at h3
  rw [if_neg n1, if_neg n2]
  have : ∀ x : FR, x = result fuel neg f d e → (∃ y, x = .flo y []) ∨ x = .hang := by
    rintro x rfl
    unfold result
    by_cases h1 : 325 ≤ e.natAbs
    · rw [if_pos h1]
      by_cases h2 : e < 0 ∨ f = 0
      · rw [if_pos h2]; exact Or.inl ⟨_, rfl⟩
      · rw [if_neg h2]; exact Or.inl ⟨_, rfl⟩
    · rw [if_neg h1]
      cases toFlonum fuel f (e - d) with
      | none => exact Or.inr rfl
      | some y => exact Or.inl ⟨_, rfl⟩
  rcases this _ rfl with ⟨y, hy⟩ | hy <;> rw [hy]

end Gauche.FloText

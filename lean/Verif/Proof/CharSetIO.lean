import Verif.Proof.CharSet3
import Verif.Model.CharSetIO
/-
Internal lemmas for C61: what the reader does on the printer's output.
-/
namespace Gauche.CharSet

theorem hexVal_hexDigit (d : Nat) (h : d < 16) : hexVal (hexDigit d) = some d := by
  unfold hexVal hexDigit
  by_cases h1 : d < 10
  · rw [if_pos h1, if_pos (by omega)]; congr 1; omega
  · rw [if_neg h1, if_neg (by omega), if_pos (by omega)]; congr 1; omega

theorem hexVal_semi : hexVal 59 = none := by decide

theorem hexDigits_isHex : ∀ (k n : Nat), ∀ c ∈ hexDigits k n, (hexVal c).isSome = true
  | 0, _, c, h => by cases h
  | k + 1, n, c, h => by
    rw [hexDigits, List.mem_append] at h
    rcases h with h | h
    · exact hexDigits_isHex k _ c h
    · rw [List.mem_singleton] at h
      rw [h, hexVal_hexDigit _ (by omega)]; rfl

theorem hexDigits_length : ∀ (k n : Nat), (hexDigits k n).length = k
  | 0, _ => rfl
  | k + 1, n => by rw [hexDigits, List.length_append, hexDigits_length k]; rfl

theorem scanHex_append : ∀ (l : List Nat) (rest : List Nat), (∀ c ∈ l, (hexVal c).isSome = true) →
    scanHex (l ++ rest) = (l ++ (scanHex rest).1, (scanHex rest).2)
  | [], _, _ => rfl
  | c :: l, rest, h => by
    have hc := h c (by simp)
    have hne : c ≠ 59 := by rintro rfl; simp [hexVal_semi] at hc
    obtain ⟨v, hv⟩ := Option.isSome_iff_exists.1 hc
    rw [List.cons_append, scanHex, if_neg hne, hv]
    dsimp only
    rw [scanHex_append l rest (fun d hd => h d (by simp [hd]))]
    rfl

theorem scanHex_rest : ∀ l : List Nat, (scanHex l).1 ++ (scanHex l).2 = l
  | [] => rfl
  | c :: r => by
    rw [scanHex]
    by_cases h : c = 59
    · rw [if_pos h]; rfl
    · rw [if_neg h]
      cases hexVal c with
      | none => rfl
      | some v => simp only [List.cons_append, scanHex_rest r]

theorem decodeHex_append : ∀ (l : List Nat) (k m v : Nat) (buf : List Nat), l.length = k →
    decodeHex (k + m) v (l ++ buf) = (decodeHex k v l).bind fun x => decodeHex m x.1 buf
  | [], k, m, v, buf, h => by
    subst h
    simp [decodeHex]
  | c :: l, k, m, v, buf, h => by
    subst h
    rw [show (c :: l).length + m = (l.length + m) + 1 by simp; omega, List.cons_append, decodeHex,
      show (c :: l).length = l.length + 1 from rfl, decodeHex]
    cases hexVal c with
    | none => rfl
    | some d =>
      dsimp only
      by_cases hb : v * 16 + d > charMax
      · rw [if_pos hb, if_pos hb]; rfl
      · rw [if_neg hb, if_neg hb]
        exact decodeHex_append l l.length m _ buf rfl

theorem decodeHex_digits : ∀ (k n : Nat), n < 16 ^ k → n ≤ charMax →
    decodeHex k 0 (hexDigits k n) = some (n, [])
  | 0, n, h, _ => by
    have : n = 0 := by simpa using h
    subst this; rfl
  | k + 1, n, h, hm => by
    rw [hexDigits, decodeHex_append _ k 1 0 _ (hexDigits_length k _),
      decodeHex_digits k (n / 16) (by rw [Nat.pow_succ] at h; omega) (by omega)]
    simp only [Option.bind_some, decodeHex, hexVal_hexDigit _ (Nat.mod_lt n (by decide : 0 < 16))]
    rw [if_neg (by omega)]
    congr 2; omega

theorem decodeHex_prefix (k n : Nat) (buf : List Nat) (h : n < 16 ^ k) (hm : n ≤ charMax) :
    decodeHex k 0 (hexDigits k n ++ buf) = some (n, buf) := by
  have := decodeHex_append (hexDigits k n) k 0 0 buf (hexDigits_length k n)
  rw [Nat.add_zero] at this
  rw [this, decodeHex_digits k n h hm]
  rfl

/-- One printed character is read back as that character. -/
theorem printCh_step {esc : Nat → Bool} {ch : Nat} {first : Bool} {s s' : RState} (rest : List Nat)
    (hc : ch ≤ charMax) (hb : s.begin_ = 1 → first = true ∨ ch ≠ 94) (hb2 : s.begin_ ≠ 2 )
    (ho : ordchar s ch = some s') :
    readStep s (printCh esc ch first ++ rest) = some (.inl (s', rest)) := by
  unfold printCh
  by_cases h1 : ch = 91 ∨ ch = 93 ∨ ch = 45 ∨ ch = 92 ∨ (ch = 94 ∧ first = true)
  · rw [if_pos h1]
    simp only [List.cons_append, List.nil_append]
    rw [readStep, if_neg (by omega), if_neg (by omega), if_neg (by omega), if_pos rfl, readEscape,
      if_neg (by omega), if_neg (by omega), if_neg (by omega), if_neg (by omega), if_neg (by omega),
      if_neg (by omega), if_neg (by omega), if_neg (by omega), if_neg (by omega), ho]
    rfl
  · rw [if_neg h1]
    by_cases h2 : esc ch = true
    · rw [if_pos h2]
      by_cases h3 : ch < 0x10000
      · rw [if_pos h3]
        simp only [List.cons_append]
        rw [readStep, if_neg (by omega), if_neg (by omega), if_neg (by omega), if_pos rfl, readEscape,
          if_neg (by omega), if_neg (by omega), if_neg (by omega), if_neg (by omega), if_neg (by omega),
          if_neg (by omega), if_neg (by omega), if_pos (by omega), if_pos rfl,
          scanHex_append _ _ (hexDigits_isHex 4 ch)]
        dsimp only
        rw [decodeHex_prefix 4 ch _ (by omega) hc, Option.bind_some, ho]
        dsimp only [Option.map_some]
        rw [scanHex_rest]
      · rw [if_neg h3]
        simp only [List.cons_append]
        rw [readStep, if_neg (by omega), if_neg (by omega), if_neg (by omega), if_pos rfl, readEscape,
          if_neg (by omega), if_neg (by omega), if_neg (by omega), if_neg (by omega), if_neg (by omega),
          if_neg (by omega), if_neg (by omega), if_pos (by omega), if_neg (by omega),
          scanHex_append _ _ (hexDigits_isHex 8 ch)]
        dsimp only
        have : charMax < 16 ^ 8 := by decide
        rw [decodeHex_prefix 8 ch _ (by omega) hc, Option.bind_some, ho]
        dsimp only [Option.map_some]
        rw [scanHex_rest]
    · rw [if_neg h2]
      simp only [List.cons_append, List.nil_append]
      have : ¬ (s.begin_ = 1 ∧ ch = 94) := by
        rintro ⟨ha, rfl⟩
        have := hb ha
        exact h1 (by simpa using this)
      rw [readStep, if_neg this, if_neg (by omega), if_neg (by omega), if_neg (by omega), if_neg (by omega), ho]
      rfl

theorem printCh_pos (esc : Nat → Bool) (ch : Nat) (first : Bool) : 0 < (printCh esc ch first).length := by
  unfold printCh
  split
  · simp
  · split
    · split <;> simp
    · simp

/-- The reader holds the set `M`, between two items. -/
structure At (s : RState) (M : Nat → Prop) : Prop where
  rep : ∃ rs, Rep s.set rs ∧ ∀ c, Has s.set rs c ↔ M c
  mutbl : s.set.immutable = false
  compl : s.complement = false
  inr : s.inrange = false

theorem ord_plain {s : RState} {M} (h : At s M) {ch : Nat} (hc : ch ≤ charMax) :
    ∃ s', ordchar s ch = some s' ∧ At s' (fun c => c = ch ∨ M c) ∧ s'.begin_ = 0 ∧ s'.lastchar = some ch := by
  obtain ⟨rs, h1, h2⟩ := h.rep
  obtain ⟨cs', rs', a1, a2, a3, a4⟩ := addRange_spec h1 h.mutbl (f := ch) (u := ch) hc
  refine ⟨⟨cs', 0, s.complement, false, some ch⟩, ?_, ⟨⟨rs', a2, fun c => ?_⟩, a3, h.compl, rfl⟩, rfl, rfl⟩
  · unfold ordchar
    rw [h.inr]
    simp only [Bool.false_eq_true, if_false, a1, Option.map_some]
  · rw [a4, h2]
    constructor <;> rintro (h | h) <;> first | exact Or.inr h | exact Or.inl (by omega)

theorem ord_range {s : RState} {M} (h : At s M) {lo hi : Nat} (hl : s.lastchar = some lo) (hc : hi ≤ charMax) :
    ∃ s', ordchar { s with inrange := true, begin_ := 0 } hi = some s' ∧
      At s' (fun c => (lo ≤ c ∧ c ≤ hi) ∨ M c) ∧ s'.begin_ = 0 := by
  obtain ⟨rs, h1, h2⟩ := h.rep
  obtain ⟨cs', rs', a1, a2, a3, a4⟩ := addRange_spec h1 h.mutbl (f := lo) (u := hi) hc
  refine ⟨⟨cs', 0, s.complement, false, none⟩, ?_, ⟨⟨rs', a2, fun c => ?_⟩, a3, h.compl, rfl⟩, rfl⟩
  · unfold ordchar
    simp only [if_true, hl, a1, Option.map_some]
  · rw [a4, h2]

theorem readLoop_step {fuel : Nat} {s : RState} {inp : List Nat} {s' inp'}
    (h : readStep s inp = some (.inl (s', inp'))) : readLoop (fuel + 1) s inp = readLoop fuel s' inp' := by
  rw [readLoop, h]

/-- A printed run, with the distance `k` above which it is printed with a dash. -/
def runText (esc : Nat → Bool) (k : Nat) (first : Bool) (e : Nat × Nat) : List Nat :=
  printCh esc e.1 first ++
    (if e.2 ≠ e.1 then (if e.2 - e.1 > k then [45] else []) ++ printCh esc e.2 false else [])

def runsText (esc : Nat → Bool) (k : Nat) : Bool → List (Nat × Nat) → List Nat
  | _, [] => []
  | f, e :: r => runText esc k f e ++ runsText esc k false r

/-- The characters a printed run stands for. -/
def runHas (k : Nat) (e : Nat × Nat) (c : Nat) : Prop :=
  if e.2 - e.1 > k then e.1 ≤ c ∧ c ≤ e.2 else c = e.1 ∨ c = e.2

theorem run_read {esc : Nat → Bool} {k : Nat} {first : Bool} {e : Nat × Nat} {s : RState} {M} (h : At s M)
    (hk : 0 < k) (he : e.1 ≤ e.2) (hm : e.2 ≤ charMax)
    (hb : s.begin_ = 1 → first = true ∨ e.1 ≠ 94) (hb2 : s.begin_ ≠ 2) (rest : List Nat) (fuel : Nat)
    (hf : (runText esc k first e ++ rest).length < fuel) :
    ∃ s' fuel', readLoop fuel s (runText esc k first e ++ rest) = readLoop fuel' s' rest ∧
      rest.length < fuel' ∧ s'.begin_ = 0 ∧ At s' (fun c => runHas k e c ∨ M c) := by
  obtain ⟨s1, o1, a1, b1, l1⟩ := ord_plain h (ch := e.1) (by omega)
  have p1 := printCh_pos esc e.1 first
  have p2 := printCh_pos esc e.2 false
  unfold runText runHas at *
  obtain ⟨fuel, rfl⟩ : ∃ f, fuel = f + 1 := ⟨fuel - 1, by omega⟩
  rw [List.append_assoc, readLoop_step (printCh_step _ (by omega) hb hb2 o1)]
  by_cases h1 : e.2 ≠ e.1
  · rw [if_pos h1] at hf ⊢
    by_cases h2 : e.2 - e.1 > k
    · rw [if_pos h2] at hf
      simp only [if_pos h2, List.cons_append, List.nil_append, List.length_append, List.length_cons] at hf ⊢
      obtain ⟨fuel, rfl⟩ : ∃ f, fuel = f + 1 := ⟨fuel - 1, by omega⟩
      obtain ⟨s2, o2, a2, b2⟩ := ord_range a1 (hi := e.2) l1 hm
      have st : readStep s1 (45 :: (printCh esc e.2 false ++ rest)) =
          some (.inl ({ s1 with inrange := true, begin_ := 0 }, printCh esc e.2 false ++ rest)) := by
        rw [readStep, if_neg (by omega), if_neg (by omega), if_pos ⟨rfl, b1, a1.inr⟩]
      rw [readLoop_step st]
      obtain ⟨fuel, rfl⟩ : ∃ f, fuel = f + 1 := ⟨fuel - 1, by omega⟩
      rw [readLoop_step (printCh_step _ hm (by dsimp only; omega) (by dsimp only; omega) o2)]
      refine ⟨s2, fuel, rfl, by omega, b2, ?_⟩
      obtain ⟨⟨rs, r1, r2⟩, m2, m3, m4⟩ := a2
      refine ⟨⟨rs, r1, fun c => ?_⟩, m2, m3, m4⟩
      rw [r2]
      constructor
      · rintro (h | h | h)
        · exact .inl h
        · exact .inl (by omega)
        · exact .inr h
      · rintro (h | h)
        · exact .inl h
        · exact .inr (.inr h)
    · rw [if_neg h2] at hf
      simp only [if_neg h2, List.nil_append, List.length_append] at hf ⊢
      obtain ⟨fuel, rfl⟩ : ∃ f, fuel = f + 1 := ⟨fuel - 1, by omega⟩
      obtain ⟨s2, o2, a2, b2, _⟩ := ord_plain a1 (ch := e.2) hm
      rw [readLoop_step (printCh_step _ hm (by omega) (by omega) o2)]
      refine ⟨s2, fuel, rfl, by omega, b2, ?_⟩
      obtain ⟨⟨rs, r1, r2⟩, m2, m3, m4⟩ := a2
      refine ⟨⟨rs, r1, fun c => ?_⟩, m2, m3, m4⟩
      rw [r2]; tauto
  · rw [if_neg h1] at hf ⊢
    simp only [List.nil_append, List.append_nil, List.length_append] at hf ⊢
    refine ⟨s1, fuel, rfl, by omega, b1, ?_⟩
    have hk2 : ¬ (e.2 - e.1 > k) := by omega
    simp only [if_neg hk2]
    obtain ⟨⟨rs, r1, r2⟩, m2, m3, m4⟩ := a1
    refine ⟨⟨rs, r1, fun c => ?_⟩, m2, m3, m4⟩
    rw [r2, show e.2 = e.1 by omega]; tauto

theorem runs_read {esc : Nat → Bool} {k : Nat} (hk : 0 < k) : ∀ (l : List (Nat × Nat)) {first : Bool} {s : RState} {M},
    At s M → (∀ e ∈ l, e.1 ≤ e.2 ∧ e.2 ≤ charMax) → (s.begin_ = 1 → first = true ∨ ∀ e ∈ l, e.1 ≠ 94) → s.begin_ ≠ 2 →
    ∀ (rest : List Nat) (fuel : Nat), (runsText esc k first l ++ rest).length < fuel →
    ∃ s' fuel', readLoop fuel s (runsText esc k first l ++ rest) = readLoop fuel' s' rest ∧
      rest.length < fuel' ∧ (s'.begin_ = 0 ∨ (l = [] ∧ s'.begin_ = s.begin_)) ∧
      At s' (fun c => (∃ e ∈ l, runHas k e c) ∨ M c)
  | [], first, s, M, h, hl, hb, hb2, rest, fuel, hf => by
    refine ⟨s, fuel, rfl, hf, .inr ⟨rfl, rfl⟩, ?_⟩
    obtain ⟨⟨rs, r1, r2⟩, m2, m3, m4⟩ := h
    exact ⟨⟨rs, r1, fun c => by rw [r2]; simp⟩, m2, m3, m4⟩
  | e :: r, first, s, M, h, hl, hb, hb2, rest, fuel, hf => by
    rw [runsText, List.append_assoc] at hf ⊢
    obtain ⟨s1, f1, q1, q2, q3, q4⟩ := run_read h hk (hl e (by simp)).1 (hl e (by simp)).2
      (fun x => (hb x).imp id (fun y => y e (by simp))) hb2 _ fuel hf
    rw [q1]
    obtain ⟨s2, f2, t1, t2, t3, t4⟩ := runs_read hk r (first := false) q4 (fun x hx => hl x (by simp [hx]))
      (by omega) (by omega) rest f1 q2
    refine ⟨s2, f2, t1, t2, .inl (by omega), ?_⟩
    obtain ⟨⟨rs, r1, r2⟩, m2, m3, m4⟩ := t4
    refine ⟨⟨rs, r1, fun c => ?_⟩, m2, m3, m4⟩
    rw [r2]
    simp only [List.mem_cons, exists_eq_or_imp]
    generalize (∃ e ∈ r, runHas k e c) = P
    tauto

theorem printLarge_eq (esc : Nat → Bool) : ∀ l : List (Nat × Nat), printLarge esc l = runsText esc 2 false l
  | [] => rfl
  | e :: r => by rw [printLarge, runsText, runText, printLarge_eq esc r, List.append_assoc]

theorem printSmall_eq (esc b : Nat → Bool) : ∀ (n code : Nat), code + n = 128 →
    (∀ beg first, printSmall esc b n code none first = runsText esc 1 first (smallRuns b n code beg false)) ∧
    (∀ p first, p < code → printCh esc p first ++ printSmall esc b n code (some p) false =
      runsText esc 1 first (smallRuns b n code p true))
  | 0, code, h => by
    refine ⟨fun beg first => rfl, fun p first hp => ?_⟩
    simp only [printSmall, smallRuns, if_true, runsText, runText, List.append_nil]
    by_cases h1 : code - p > 1
    · rw [if_pos h1, if_pos (c := code - 1 ≠ p) (by omega)]
      by_cases h2 : p < 0x7e
      · rw [if_pos h2, if_pos (c := code - 1 - p > 1) (by omega)]
      · rw [if_neg h2, if_neg (c := code - 1 - p > 1) (by omega)]
    · rw [if_neg h1, if_neg (c := code - 1 ≠ p) (by omega)]
  | n + 1, code, h => by
    obtain ⟨i1, i2⟩ := printSmall_eq esc b n (code + 1) (by omega)
    constructor
    · intro beg first
      rw [printSmall, smallRuns]
      cases hb : b code with
      | true =>
        simp only [if_true, Bool.false_and, Bool.false_eq_true, if_false, Bool.not_false, Bool.true_and]
        exact i2 code first (by omega)
      | false =>
        simp only [Bool.false_eq_true, if_false, Bool.false_and, Bool.not_false, Bool.true_and]
        exact i1 beg first
    · intro p first hp
      rw [printSmall, smallRuns]
      cases hb : b code with
      | true =>
        simp only [if_true, Bool.not_true, Bool.and_false, Bool.false_eq_true, if_false, Bool.false_and]
        exact i2 p first (by omega)
      | false =>
        simp only [Bool.false_eq_true, if_false, Bool.not_false, Bool.and_true, if_true, runsText, runText]
        rw [i1 p false, List.append_assoc]
        congr 2
        by_cases h1 : code - p > 1
        · rw [if_pos h1, if_pos (c := code - 1 ≠ p) (by omega)]
          by_cases h2 : code - p > 2
          · rw [if_pos h2, if_pos (c := code - 1 - p > 1) (by omega)]
          · rw [if_neg h2, if_neg (c := code - 1 - p > 1) (by omega)]
        · rw [if_neg h1, if_neg (c := code - 1 ≠ p) (by omega)]

/-- The reader on the printer's output. -/
theorem readSet_print {cs rs} (h : Rep cs rs) (esc : Nat → Bool) (rest : List Nat) :
    ∃ text, cs.print esc = some (35 :: 91 :: text) ∧
    ∃ cs' rs', readSet (text ++ rest) = some (cs', rest) ∧ Rep cs' rs' ∧ cs'.immutable = false ∧
      ∀ c, Has cs' rs' c ↔ (c < 128 ∧ cs.small c = true) ∨ ∃ e ∈ rs, runHas 2 e c := by
  obtain ⟨m1, m2⟩ := smallRuns_spec cs.small 128 0 0 false (by simp) (Nat.le_refl _)
  simp only [Bool.false_eq_true, if_false, false_and, false_or, Nat.zero_add] at m1 m2
  refine ⟨printSmall esc cs.small smallChars 0 none true ++ printLarge esc rs ++ [93], ?_, ?_⟩
  · unfold CharSet.print; rw [raw_eq h]; rfl
  rw [printLarge_eq, show smallChars = 128 from rfl, (printSmall_eq esc cs.small 128 0 rfl).1 0 true]
  unfold readSet
  simp only [List.append_assoc]
  have a0 : At ⟨make, 1, false, false, none⟩ (fun _ => False) :=
    ⟨⟨[], rep_make, fun c => by unfold Has make; simp⟩, rfl, rfl, rfl⟩
  obtain ⟨s1, f1, q1, q2, q3, q4⟩ := runs_read (esc := esc) (k := 1) (by decide) (smallRuns cs.small 128 0 0 false)
    (first := true) a0 (fun e he => (canon_mem m2 e he).2) (by simp) (by simp) (runsText esc 2 false rs ++ ([93] ++ rest)) _
    (Nat.lt_succ_self _)
  refine ?_
  have hlen : (runsText esc 1 true (smallRuns cs.small 128 0 0 false) ++ (runsText esc 2 false rs ++ ([93] ++ rest))).length + 1 = 
      (runsText esc 1 true (smallRuns cs.small 128 0 0 false) ++ (runsText esc 2 false rs ++ ([93] ++ rest))).length.succ := rfl
  rw [hlen, q1]
  obtain ⟨s2, f2, t1, t2, t3, t4⟩ := runs_read (esc := esc) (k := 2) (by decide) rs (first := false) q4
    (fun e he => (canon_mem h.canon e he).2)
    (fun _ => .inr fun e he => by have := (canon_mem h.canon e he).1; omega)
    (by rcases q3 with q3 | q3 <;> [omega; (rw [q3.2]; decide)]) ([93] ++ rest) f1 q2
  rw [t1]
  obtain ⟨f2, rfl⟩ : ∃ f, f2 = f + 1 := ⟨f2 - 1, by omega⟩
  obtain ⟨⟨rs', r1, r2⟩, m3, m4, m5⟩ := t4
  refine ⟨s2.set, rs', ?_, r1, m3, fun c => ?_⟩
  · simp only [readLoop, readStep, List.cons_append, List.nil_append]
    rw [if_neg (by omega), if_pos trivial]
    simp [finishRead, m4, m5]
  · rw [r2]
    simp only [or_false]
    rw [or_comm]
    refine or_congr ?_ Iff.rfl
    have hm : ∀ e ∈ smallRuns cs.small 128 0 0 false, (runHas 1 e c ↔ e.1 ≤ c ∧ c ≤ e.2) := by
      intro e he
      have := (canon_mem m2 e he).2.1
      unfold runHas
      by_cases hh : e.2 - e.1 > 1
      · rw [if_pos hh]
      · rw [if_neg hh]; omega
    have := m1 c
    unfold MemR at this
    rw [show (c < 128 ∧ cs.small c = true) ↔ (0 ≤ c ∧ c < 128 ∧ cs.small c = true) by simp, ← this]
    constructor
    · rintro ⟨e, he, hx⟩; exact ⟨e, he, (hm e he).1 hx⟩
    · rintro ⟨e, he, hx⟩; exact ⟨e, he, (hm e he).2 hx⟩
end Gauche.CharSet

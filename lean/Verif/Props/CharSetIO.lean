import Verif.Proof.CharSetIO
import Verif.Props.CharSet
/-
C61: writing a character set and reading the text back.

The text is what `write` prints, `#[...]`; reading is the reader's `#[` syntax.  `esc` (which characters the
printer writes as hexadecimal escapes) is arbitrary.
-/
namespace Gauche.CharSet
open Gauche.CharProg

/-- `c` is the middle of three consecutive members at or above code 128, not extended by a fourth member.
(Codes below 128 are printed separately, so 127 does not extend 128..130.) -/
def MidOfThree (S : Set Nat) (c : Nat) : Prop :=
  129 ≤ c ∧ c - 1 ∈ S ∧ c ∈ S ∧ c + 1 ∈ S ∧ (c = 129 ∨ c - 2 ∉ S) ∧ c + 2 ∉ S

theorem canon_adj {rs : List (Nat × Nat)} {b : Nat} (hc : Canon b rs) {e : Nat × Nat} (he : e ∈ rs) :
    ¬ MemR (e.2 + 1) rs ∧ (∀ c, c + 1 = e.1 → ¬ MemR c rs) ∧
    ∀ c, e.1 ≤ c → c ≤ e.2 → ∀ e' ∈ rs, e'.1 ≤ c → c ≤ e'.2 → e' = e := by
  induction rs generalizing b with
  | nil => cases he
  | cons x r ih =>
    obtain ⟨h1, h2, h3, h4⟩ := hc
    have hr : ∀ y ∈ r, x.2 + 2 ≤ y.1 ∧ y.1 ≤ y.2 := fun y hy => ⟨(canon_mem h4 y hy).1, (canon_mem h4 y hy).2.1⟩
    rcases List.mem_cons.1 he with rfl | he
    · refine ⟨?_, ?_, ?_⟩
      · rw [memR_cons]
        rintro (h | ⟨y, hy, h⟩)
        · omega
        · have := hr y hy; omega
      · intro c hc
        rw [memR_cons]
        rintro (h | ⟨y, hy, h⟩)
        · omega
        · have := hr y hy; omega
      · intro c a1 a2 e' he' a3 a4
        rcases List.mem_cons.1 he' with rfl | he'
        · rfl
        · have := hr e' he'; omega
    · obtain ⟨i1, i2, i3⟩ := ih h4 he
      have := hr e he
      refine ⟨?_, ?_, ?_⟩
      · rw [memR_cons]
        rintro (h | h)
        · omega
        · exact i1 h
      · intro c hc
        rw [memR_cons]
        rintro (h | h)
        · omega
        · exact i2 c hc h
      · intro c a1 a2 e' he' a3 a4
        rcases List.mem_cons.1 he' with rfl | he'
        · omega
        · exact i3 c a1 a2 e' he' a3 a4

/-- **C61, the exact result.**  `write` followed by `read` always succeeds, consumes exactly the written text, and
gives an immutable set with the members of the original except the middle ones of isolated triples of large
characters. -/
theorem C61_exact (cs : CharSet) (h : Made cs) (esc : Nat → Bool) (rest : List Nat) :
    ∃ text cs', cs.print esc = some text ∧ readLiteral (text ++ rest) = some (cs', rest) ∧
      cs'.immutable = true ∧ members cs' = {c | c ∈ members cs ∧ ¬ MidOfThree (members cs) c} := by
  obtain ⟨rs, h1⟩ := made_rep h
  obtain ⟨text, p1, cs1, rs1, p2, p3, p4, p5⟩ := readSet_print h1 esc rest
  obtain ⟨cs2, f1, f2, f3, f4⟩ := freezeX_spec p3
  refine ⟨_, cs2, p1, ?_, f3, ?_⟩
  · simp only [List.cons_append, readLiteral, p2, Option.bind_some, f1, Option.map_some]
  ext c
  have hm : ∀ c, 128 ≤ c → (c ∈ members cs ↔ MemR c rs) := fun c hc => by
    rw [mem_members h1, Has, if_neg (by omega)]
  rw [mem_members f2, f4, p5, Set.mem_setOf_eq]
  by_cases hc : c < 128
  · have hno : ¬ ∃ e ∈ rs, runHas 2 e c := by
      rintro ⟨e, he, hx⟩
      have := canon_mem h1.canon e he
      unfold runHas at hx
      split at hx <;> omega
    rw [mem_members h1, Has, if_pos hc]
    constructor
    · rintro (⟨_, hs⟩ | hx)
      · exact ⟨hs, fun hm => absurd hm.1 (by omega)⟩
      · exact absurd hx hno
    · rintro ⟨hs, _⟩; exact .inl ⟨hc, hs⟩
  · rw [hm c (by omega)]
    have key : (∃ e ∈ rs, runHas 2 e c) ↔ MemR c rs ∧ ¬ MidOfThree (members cs) c := by
      constructor
      · rintro ⟨e, he, hx⟩
        have hcm := canon_mem h1.canon e he
        have hin : e.1 ≤ c ∧ c ≤ e.2 := by
          unfold runHas at hx; split at hx <;> omega
        refine ⟨⟨e, he, hin⟩, ?_⟩
        rintro ⟨m1, m2, m3, m4, m5, m6⟩
        obtain ⟨a1, a2, a3⟩ := canon_adj h1.canon he
        rw [hm _ (by omega)] at m2 m4 m6
        unfold runHas at hx
        by_cases hd : e.2 - e.1 > 2
        · -- a longer run extends the triple on one side
          have hlo : e.1 = c - 1 := by
            rcases Nat.lt_trichotomy e.1 (c - 1) with hl | hl | hl
            · exfalso
              rcases m5 with m5 | m5
              · omega
              · apply m5
                rw [hm _ (by omega)]
                exact ⟨e, he, by omega, by omega⟩
            · exact hl
            · exact absurd m2 (a2 (c - 1) (by omega))
          exact m6 ⟨e, he, by omega, by omega⟩
        · rw [if_neg hd] at hx
          rcases hx with rfl | rfl
          · exact a2 (e.1 - 1) (by omega) m2
          · exact a1 m4
      · rintro ⟨⟨e, he, h2, h3⟩, hno⟩
        have hcm := canon_mem h1.canon e he
        refine ⟨e, he, ?_⟩
        unfold runHas
        by_cases hd : e.2 - e.1 > 2
        · rw [if_pos hd]; exact ⟨h2, h3⟩
        · rw [if_neg hd]
          by_contra hx
          apply hno
          have : e.1 + 1 = c ∧ e.2 = c + 1 := by omega
          obtain ⟨a1, a2, a3⟩ := canon_adj h1.canon he
          refine ⟨by omega, (hm _ (by omega)).2 ⟨e, he, by omega, by omega⟩, (hm _ (by omega)).2 ⟨e, he, h2, h3⟩,
            (hm _ (by omega)).2 ⟨e, he, by omega, by omega⟩, ?_, ?_⟩
          · by_cases h129 : c = 129
            · exact .inl h129
            · right
              rw [hm _ (by omega)]
              exact a2 (c - 2) (by omega)
          · rw [hm _ (by omega), show c + 2 = e.2 + 1 by omega]
            exact a1
    rw [key]
    constructor
    · rintro (⟨hx, _⟩ | hx)
      · omega
      · exact hx
    · exact .inr

/-- **C61, partial.**  If no three consecutive large characters stand alone in the set, the set read back has the
same members, and `char-set=` says so.  (Without this hypothesis the claim is false: `C61_bug_three_characters`.) -/
theorem C61_round_trip_partial (cs : CharSet) (h : Made cs) (esc : Nat → Bool) (rest : List Nat)
    (h3 : ∀ c, ¬ MidOfThree (members cs) c) :
    ∃ text cs', cs.print esc = some text ∧ readLiteral (text ++ rest) = some (cs', rest) ∧
      members cs' = members cs := by
  obtain ⟨text, cs', e1, e2, _, e4⟩ := C61_exact cs h esc rest
  refine ⟨text, cs', e1, e2, ?_⟩
  rw [e4]; ext c; simp [h3 c]

/-- The set of U+3041 .. U+3043, as a program. -/
def threeProg : List Cmd := [.new, .addRange 0 0x3041 0x3043]

/-- **C61, the disagreement.**  There is a set (U+3041 .. U+3043) whose written text reads back as a set without
its middle member, whatever the escaping. -/
theorem C61_bug_three_characters : ∃ cs, Made cs ∧ 0x3042 ∈ members cs ∧ ∀ esc, ∃ text cs',
    cs.print esc = some text ∧ readLiteral text = some (cs', []) ∧ 0x3042 ∉ members cs' ∧
    members cs' ≠ members cs := by
  obtain ⟨cs', rs', a1, a2, a3, a4⟩ := addRange_spec rep_make rfl (f := 0x3041) (u := 0x3043) (by decide)
  have hmade : Made cs' := by
    refine ⟨threeProg, [cs'], ?_, by simp⟩
    simp only [threeProg, run, step, onSet, List.nil_append, List.getElem?_cons_zero, Option.bind_some]
    rw [if_neg (by decide), a1]
    rfl
  have hmem : ∀ c, c ∈ members cs' ↔ 0x3041 ≤ c ∧ c ≤ 0x3043 := fun c => by
    rw [mem_members a2, a4]
    unfold Has make; simp
  have hmid : MidOfThree (members cs') 0x3042 := by
    refine ⟨by decide, (hmem _).2 (by decide), (hmem _).2 (by decide), (hmem _).2 (by decide), .inr ?_, ?_⟩
    · rw [hmem]; decide
    · rw [hmem]; decide
  refine ⟨cs', hmade, (hmem _).2 (by decide), fun esc => ?_⟩
  obtain ⟨text, cs2, e1, e2, _, e4⟩ := C61_exact cs' hmade esc []
  rw [List.append_nil] at e2
  have hn : (0x3042 : Nat) ∉ members cs2 := by
    rw [e4]; exact fun hx => hx.2 hmid
  refine ⟨text, cs2, e1, e2, hn, fun heq => hn ?_⟩
  rw [heq]; exact (hmem _).2 (by decide)

/-! ### The hypotheses are met -/

/-- `#[\^a-c\u0300]` with U+0300 a combining mark. -/
example : (run step [.new, .addRange 0 94 94, .addRange 0 97 99, .addRange 0 0x300 0x300] []).bind
    (fun h => h[0]?.bind fun cs => cs.print (fun c => c == 0x300)) =
    some ("#[\\^a-c\\u0300]".toList.map Char.toNat) := by decide +kernel

/-- Reading it back, with text after it. -/
example : (readLiteral ("#[\\^a-c\\u0300] x".toList.map Char.toNat)).map
    (fun x => ((List.range 0x310).filter (fun c => x.1.contains c = some true), x.2)) =
    some ([94, 97, 98, 99, 0x300], " x".toList.map Char.toNat) := by decide +kernel

/-- The printed text of the witness. -/
example : (run step threeProg []).bind (fun h => h[0]?.bind fun cs => cs.print (fun _ => false)) =
    some [35, 91, 0x3041, 0x3043, 93] := by decide +kernel

/-- A complemented literal. -/
example : (readLiteral ("#[^a-y]".toList.map Char.toNat)).map
    (fun x => (x.1.contains 97, x.1.contains 122, x.1.contains 0x3041)) =
    some (some false, some true, some true) := by decide +kernel

end Gauche.CharSet

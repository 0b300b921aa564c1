import Verif.Proof.GapBuffer
/-! C95: a gap buffer is a text with a position. -/
namespace Gauche.GapBuffer

/-- A call on a gap buffer does to its text what the call on the text does, and ends in an error when that does. -/
theorem C95_run {g : GB} (h : Made g) (op : Op) : (text (run g op).1, (run g op).2) = textRun (text g) op := by
  obtain ⟨A, B, hr⟩ := made_rep h
  obtain ⟨A', B', h1, h2⟩ := run_rep hr op
  rw [text_rep hr, text_rep h1, ← h2]

/-- The same for any history of calls, with errors in between. -/
theorem C95_history {g : GB} (h : Made g) (ops : List Op) :
    (text (runs run g ops).1, (runs run g ops).2) = runs textRun (text g) ops := by
  induction ops generalizing g with
  | nil => rfl
  | cons op ops ih =>
    have h1 := C95_run h op
    have h2 := ih (.step g op h)
    rw [runs, runs, ← h1]
    dsimp only
    rw [← h2]

/-- A new gap buffer is empty. -/
theorem C95_make (capacity : Nat) : text (make capacity) = ⟨[], 0⟩ := text_rep (make_rep capacity)

/-- A gap buffer made of a string has its characters, and the position, which is counted from the beginning, or backwards from the end. -/
theorem C95_from_string (str : List Nat) (n : Nat) (h : n ≤ str.length) :
    (∃ g, fromString str n .beginning = some g ∧ text g = ⟨str, n⟩) ∧
    (∃ g, fromString str n .fromEnd = some g ∧ text g = ⟨str, str.length - n⟩) := by
  constructor
  · obtain ⟨g, h1, h2⟩ := (fromString_rep str n .beginning n rfl).1 ⟨by omega, by omega⟩
    refine ⟨g, h1, ?_⟩
    rw [text_rep h2, List.take_append_drop, List.length_take]
    congr 1
    omega
  · obtain ⟨g, h1, h2⟩ := (fromString_rep str n .fromEnd (str.length - n) rfl).1 ⟨by omega, by omega⟩
    refine ⟨g, h1, ?_⟩
    rw [text_rep h2, List.take_append_drop, List.length_take]
    congr 1
    omega

/-- `gap-buffer-pos`, `gap-buffer-content-length` and `gap-buffer-ref` read the text; an index out of range is an error. -/
theorem C95_read {g : GB} (h : Made g) : g.gapStart = (text g).pos ∧ contentLength g = (text g).chars.length ∧ (text g).pos ≤ (text g).chars.length ∧
    ∀ i : Int, ref g i = if i < 0 then none else (text g).chars[i.toNat]? := by
  obtain ⟨A, B, hr⟩ := made_rep h
  refine ⟨rfl, ?_, ?_, fun i => ?_⟩
  · rw [text_rep hr, len_rep hr, List.length_append]
  · rw [text_rep hr, List.length_append]; exact Nat.le_add_right _ _
  · rw [text_rep hr]; exact ref_rep hr i

/-- `gap-buffer->string` gives a part of the text, up to its end; a start behind the end is an error. -/
theorem C95_string {g : GB} (h : Made g) (start : Nat) (stop : Option Nat) :
    toString g start stop =
      let last := min (text g).chars.length (stop.getD (text g).chars.length)
      if last < start then none else some (((text g).chars.drop start).take (last - start)) := by
  obtain ⟨A, B, hr⟩ := made_rep h
  rw [text_rep hr]
  exact toString_rep hr start stop

/-- Without bounds it gives the whole text. -/
theorem C95_whole_string {g : GB} (h : Made g) : toString g 0 none = some (text g).chars := by
  rw [C95_string h]
  dsimp only
  rw [Option.getD_none, Nat.min_self, if_neg (by omega), List.drop_zero, Nat.sub_zero, List.take_length]

/-- `gap-buffer-contains` gives the first position in the bounds at which the string is in the text, within the bounds; otherwise #f. -/
theorem C95_contains {g : GB} (h : Made g) (needle : List Nat) (gstart : Nat) (gend : Option Nat)
    (hg : gend.getD (text g).chars.length ≤ (text g).chars.length) (r : Nat) :
    contains g needle gstart gend = some r ↔
      gstart ≤ r ∧ r + needle.length ≤ gend.getD (text g).chars.length ∧ ((text g).chars.drop r).take needle.length = needle ∧
        ∀ j, gstart ≤ j → j < r → ((text g).chars.drop j).take needle.length ≠ needle := by
  obtain ⟨A, B, hr⟩ := made_rep h
  have hlen := len_rep hr
  rw [text_rep hr, List.length_append] at hg
  rw [text_rep hr, List.length_append, contains, hlen]
  dsimp only at hg ⊢
  generalize gend.getD (A.length + B.length) = stop at hg
  obtain ⟨G, rfl, _⟩ := hr.cases
  have hm : ∀ i, i + needle.length ≤ stop → (matchFrom ⟨A ++ G ++ B, A.length, A.length + G.length⟩ needle
      (index ⟨A ++ G ++ B, A.length, A.length + G.length⟩ i) = true ↔ ((A ++ B).drop i).take needle.length = needle) := by
    intro i hi
    rw [index_rep]
    exact match_rep needle i (by omega)
  by_cases hs : stop < needle.length
  · rw [if_pos hs]
    exact ⟨fun e => (by cases e), fun e => by omega⟩
  · rw [if_neg hs, search_spec]
    constructor
    · intro ⟨h1, h2, h3, h4⟩
      exact ⟨h1, by omega, (hm r (by omega)).1 h3, fun j hj1 hj2 e => h4 j hj1 hj2 ((hm j (by omega)).2 e)⟩
    · intro ⟨h1, h2, h3, h4⟩
      exact ⟨h1, by omega, (hm r h2).2 h3, fun j hj1 hj2 e => h4 j hj1 hj2 ((hm j (by omega)).1 e)⟩

/-- `gap-buffer-looking-at?` says whether the string is in the text at the point, which is the position by default. -/
theorem C95_looking_at {g : GB} (h : Made g) (needle : List Nat) (point : Option Nat) :
    lookingAt g needle point = true ↔
      point.getD (text g).pos + needle.length ≤ (text g).chars.length ∧ ((text g).chars.drop (point.getD (text g).pos)).take needle.length = needle := by
  obtain ⟨A, B, hr⟩ := made_rep h
  have hlen := len_rep hr
  rw [text_rep hr, List.length_append, lookingAt, hlen]
  obtain ⟨G, rfl, _⟩ := hr.cases
  dsimp only
  generalize point.getD A.length = p
  by_cases hp : p + needle.length ≤ A.length + B.length
  · rw [if_pos (by omega), index_rep, match_rep needle p hp]
    exact ⟨fun e => ⟨hp, e⟩, fun e => e.2⟩
  · rw [if_neg (by omega)]
    exact ⟨fun e => (by cases e), fun e => absurd e.1 hp⟩

/-- The command that `gap-buffer-edit!` returns undoes the change of the characters. -/
theorem C95_undo {g : GB} (h : Made g) (cmd undo : Cmd) (hu : (edit g cmd).2 = some undo) :
    ((edit (edit g cmd).1 undo).2.isSome) = true ∧ (text (edit (edit g cmd).1 undo).1).chars = (text g).chars := by
  obtain ⟨A, B, hr⟩ := made_rep h
  rw [text_rep hr]
  -- undoing a change at the position `A'`, where there is `str` now and `old` was
  have at_pos : ∀ (X Y : List Nat), textAt ⟨X ++ Y, X.length⟩ (some (X.length : Int)) = (⟨X ++ Y, X.length⟩, true) := by
    intro X Y
    rw [textAt, textMove, show textPos ⟨X ++ Y, X.length⟩ (X.length : Int) .beginning = X.length from rfl]
    dsimp only
    rw [if_pos (by rw [List.length_append]; omega), Int.toNat_natCast]
  have undo_at : ∀ (g' : GB) (A' str old R : List Nat) (c : Cmd), Rep g' (A' ++ str) R → A' ++ (old ++ R) = A ++ B →
      textEdit ⟨(A' ++ str) ++ R, (A' ++ str).length⟩ c = textReplace ⟨A' ++ (str ++ R), A'.length⟩ str.length old →
      (edit g' c).2.isSome = true ∧ (text (edit g' c).1).chars = A ++ B := by
    intro g' A' str old R c hr' he hc
    obtain ⟨A2, B2, h1, h2⟩ := run_rep hr' (.edit c)
    rw [textRun, hc, text_replace, if_pos (by rw [List.length_append]; omega), List.drop_left, List.append_assoc A' old R, he] at h2
    have e1 := congrArg Prod.snd h2
    have e2 := congrArg (fun x => x.1.chars) h2
    dsimp only at e1 e2
    refine ⟨e1, ?_⟩
    rw [show (edit g' c).1 = (run g' (.edit c)).1 from rfl, text_rep h1]
    exact e2
  have at_len : ∀ (A' str R : List Nat), textAt ⟨(A' ++ str) ++ R, (A' ++ str).length⟩ (some (A'.length : Int)) =
      (⟨A' ++ (str ++ R), A'.length⟩, true) := by
    intro A' str R
    rw [textAt, textMove, show textPos ⟨(A' ++ str) ++ R, (A' ++ str).length⟩ (A'.length : Int) .beginning = A'.length from rfl]
    dsimp only
    rw [if_pos (by simp only [List.length_append]; omega), Int.toNat_natCast, List.append_assoc]
  cases cmd with
  | i pos str =>
    obtain ⟨A', B', h1, _, h3, h4⟩ := edit_rep hr pos 0 str
    cases hm : (mov g pos).2 with
    | false => rw [(h3 hm).1] at hu; cases hu
    | true =>
      obtain ⟨e, hr'⟩ := (h4 hm).1
      rw [e] at hu
      cases hu
      refine undo_at _ A' str [] B' _ hr' h1 ?_
      rw [textEdit, at_len]; rfl
  | d pos n =>
    obtain ⟨A', B', h1, _, h3, h4⟩ := edit_rep hr pos n []
    cases hm : (mov g pos).2 with
    | false => rw [(h3 hm).2.1] at hu; cases hu
    | true =>
      by_cases hn : n ≤ B'.length
      · obtain ⟨e, hr'⟩ := (h4 hm).2.1 hn
        rw [e] at hu
        cases hu
        refine undo_at _ A' [] (B'.take n) (B'.drop n) _ (by rw [List.append_nil]; exact hr') (by rw [List.take_append_drop]; exact h1) ?_
        rw [textEdit, at_len]; rfl
      · rw [((h4 hm).2.2.1 hn).1] at hu; cases hu
  | c pos n str =>
    obtain ⟨A', B', h1, _, h3, h4⟩ := edit_rep hr pos n str
    cases hm : (mov g pos).2 with
    | false => rw [(h3 hm).2.2.1] at hu; cases hu
    | true =>
      by_cases hn : n ≤ B'.length
      · obtain ⟨e, hr'⟩ := (h4 hm).2.2.2.1 hn
        rw [e] at hu
        cases hu
        refine undo_at _ A' str (B'.take n) (B'.drop n) _ hr' (by rw [List.take_append_drop]; exact h1) ?_
        rw [textEdit, at_len]; rfl
      · rw [((h4 hm).2.2.2.2 hn).1] at hu; cases hu

/-! ## Disagreements -/

/-- A position before the end, written as the manual says, with a negative number, is always an error. -/
theorem C95_bug_from_end (str : List Nat) (pos : Int) (h : pos < 0) : fromString str pos .fromEnd = none :=
  (fromString_rep str pos .fromEnd _ rfl).2 (fun e => by have := e.2; dsimp only at this; omega)

/-- A deletion of a negative number of characters is not an error, and brings deleted characters back. -/
theorem C95_bug_negative_delete : ∃ g, fromString [97, 98] 0 .beginning = some g ∧
    text (delete g 1).1 = ⟨[98], 0⟩ ∧ (delete (delete g 1).1 (-1)).2 = true ∧ text (delete (delete g 1).1 (-1)).1 = ⟨[97, 98], 0⟩ :=
  ⟨⟨[0, 0, 97, 98], 0, 2⟩, rfl, by decide +kernel, by decide +kernel, by decide +kernel⟩

/-! ## Examples -/

/-- "hello" with the position after "he", and a history with an insertion that makes the buffer grow, errors and edits. -/
def sample : GB := ⟨[104, 101, 0, 0, 0, 108, 108, 111], 2, 5⟩
def sampleOps : List Op := [.insert [1, 2, 3, 4, 5], .delete 9, .move 1 .current, .delete 1, .move (-1) .beginning, .move (-2) .fromEnd,
  .replace 1 [7, 7], .edit (.c (some 0) 2 [9]), .edit (.d none 100), .edit (.i (some 3) [])]

example : fromString [104, 101, 108, 108, 111] 2 .beginning = some sample := rfl
example : Made sample := .fromString [104, 101, 108, 108, 111] 2 .beginning sample rfl
example : runs textRun ⟨[104, 101, 108, 108, 111], 2⟩ sampleOps = 
    (⟨[9, 1, 2, 3, 4, 5, 7, 7, 111], 3⟩, [true, false, true, true, false, true, true, true, false, true]) := by decide +kernel
example : (runs run sample sampleOps).2 = (runs textRun (text sample) sampleOps).2 ∧ text (runs run sample sampleOps).1 ≠ text sample := by decide +kernel
example : contains sample [108, 111] 0 none = some 3 ∧ contains sample [101, 108] 0 none = some 1 ∧ contains sample [108, 108, 108] 0 none = none ∧
    contains sample [101, 108] 0 (some 2) = none := by decide +kernel
example : lookingAt sample [108, 108] none = true ∧ lookingAt sample [101, 108] (some 1) = true ∧ lookingAt sample [111, 0] (some 4) = false := by
  decide +kernel
example : ((edit sample (.c (some 1) 3 [5])).2.isSome) = true ∧ text (edit sample (.c (some 1) 3 [5])).1 = ⟨[104, 5, 111], 2⟩ := by decide +kernel
example : (some 2 : Option Nat).getD (text sample).chars.length ≤ (text sample).chars.length := by decide +kernel

end Gauche.GapBuffer

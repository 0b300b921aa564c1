import Verif.Proof.InPort
/-
Proofs about input ports: the functions of src/portapi.c do not see more of a port than `Raw` gives them.
-/
namespace Gauche.InPort

open Utf8

variable {S T : Type}

/-- Both undefined, or the same answer and related states. -/
def ORel {A S T : Type} (rel : S → T → Prop) : Option (A × S) → Option (A × T) → Prop
  | none, none => True
  | some (a, s), some (b, t) => a = b ∧ rel s t
  | _, _ => False

theorem ORel.elim {A : Type} {rel : S → T → Prop} {x : Option (A × S)} {y : Option (A × T)} (h : ORel rel x y) :
    (x = none ∧ y = none) ∨ ∃ a s t, x = some (a, s) ∧ y = some (a, t) ∧ rel s t := by
  cases x with
  | none =>
    cases y with
    | none => exact Or.inl ⟨rfl, rfl⟩
    | some y => exact False.elim h
  | some x =>
    cases y with
    | none => exact False.elim h
    | some y =>
      obtain ⟨a, s⟩ := x
      obtain ⟨b, t⟩ := y
      obtain ⟨h1, h2⟩ := h
      subst h1
      exact Or.inr ⟨a, s, t, rfl, rfl, h2⟩

theorem ORel.mk {A : Type} {rel : S → T → Prop} {s : S} {t : T} (a : A) (h : rel s t) : ORel rel (some (a, s)) (some (a, t)) := ⟨rfl, h⟩

theorem ORel.map {A B : Type} {rel : S → T → Prop} {x : Option (A × S)} {y : Option (A × T)} (h : ORel rel x y) (f : A → B) :
    ORel rel (x.map fun x => (f x.1, x.2)) (y.map fun x => (f x.1, x.2)) := by
  rcases h.elim with ⟨e1, e2⟩ | ⟨a, s, t, e1, e2, e3⟩
  · rw [e1, e2]; trivial
  · rw [e1, e2]; exact ⟨rfl, e3⟩

structure Sim (R : Raw S) (R' : Raw T) (rel : S → T → Prop) (cOK zOK : Prop) : Prop where
  getb : ∀ s t, rel s t → ORel rel (R.getb s) (R'.getb t)
  getc : cOK → ∀ s t, rel s t → ORel rel (R.getc s) (R'.getc t)
  getz : zOK → ∀ s t, rel s t → ∀ n, ORel rel (R.getz s n) (R'.getz t n)

structure PRel (rel : S → T → Prop) (p : Port S) (q : Port T) : Prop where
  src : rel p.src q.src
  scratch : p.scratch = q.scratch
  ungotten : p.ungotten = q.ungotten
  line : p.line = q.line

section
variable {R : Raw S} {R' : Raw T} {rel : S → T → Prop} {cOK zOK : Prop} (sim : Sim R R' rel cOK zOK)
include sim

theorem getb_sim {p : Port S} {q : Port T} (h : PRel rel p q) : ORel (PRel rel) (getb R p) (getb R' q) := by
  obtain ⟨s, scr, ung, ln⟩ := p
  obtain ⟨t, scr', ung', ln'⟩ := q
  obtain ⟨h1, h2, h3, h4⟩ := h
  dsimp only at h1 h2 h3 h4
  subst h2 h3 h4
  unfold getb
  dsimp only
  cases scr with
  | cons b l => exact ORel.mk _ ⟨h1, rfl, rfl, rfl⟩
  | nil =>
    cases ung with
    | eof => exact ORel.mk _ ⟨h1, rfl, rfl, rfl⟩
    | char c =>
      dsimp only
      cases charPut c with
      | nil => trivial
      | cons b l => exact ORel.mk _ ⟨h1, rfl, rfl, rfl⟩
    | none =>
      dsimp only
      rcases (sim.getb s t h1).elim with ⟨e1, e2⟩ | ⟨a, s', t', e1, e2, e3⟩
      · rw [e1, e2]; trivial
      · rw [e1, e2]
        cases a with
        | none => exact ORel.mk _ ⟨e3, rfl, rfl, rfl⟩
        | some b => exact ORel.mk _ ⟨e3, rfl, rfl, rfl⟩

theorem getMore_sim (n : Nat) : ∀ {p : Port S} {q : Port T}, PRel rel p q → ORel (PRel rel) (getMore R n p) (getMore R' n q) := by
  induction n with
  | zero => intro p q h; exact ORel.mk _ h
  | succ n ih =>
    intro p q h
    unfold getMore
    rcases (getb_sim sim h).elim with ⟨e1, e2⟩ | ⟨a, s', t', e1, e2, e3⟩
    · rw [e1, e2]; trivial
    · rw [e1, e2]
      cases a with
      | none => exact ORel.mk _ e3
      | some b =>
        dsimp only
        rcases (ih e3).elim with ⟨e1, e2⟩ | ⟨a, s', t', e1, e2, e3⟩
        · rw [e1, e2]; trivial
        · rw [e1, e2]
          cases a with
          | none => exact ORel.mk _ e3
          | some b => exact ORel.mk _ e3

theorem getcScratch_sim {p : Port S} {q : Port T} (h : PRel rel p q) : ORel (PRel rel) (getcScratch R p) (getcScratch R' q) := by
  unfold getcScratch
  dsimp only
  have h0 : PRel rel { p with scratch := [] } { q with scratch := [] } := ⟨h.src, rfl, h.ungotten, h.line⟩
  rw [h.scratch]
  rcases (getMore_sim sim (nfollows (q.scratch.headD 0) + 1 - q.scratch.length) h0).elim with ⟨e1, e2⟩ | ⟨a, s', t', e1, e2, e3⟩
  · rw [e1, e2]; trivial
  · rw [e1, e2]
    cases a with
    | none => exact ORel.mk _ e3
    | some b =>
      dsimp only
      cases charGet (memOf (q.scratch ++ b)) with
      | none => exact ORel.mk _ ⟨e3.src, rfl, e3.ungotten, e3.line⟩
      | some c => exact ORel.mk _ e3

theorem getc_sim (hc : cOK) {p : Port S} {q : Port T} (h : PRel rel p q) : ORel (PRel rel) (getc R p) (getc R' q) := by
  unfold getc
  by_cases h0 : p.scratch ≠ []
  · rw [if_pos h0, if_pos (by rw [← h.scratch]; exact h0)]
    exact getcScratch_sim sim h
  · rw [if_neg h0, if_neg (by rw [← h.scratch]; exact h0)]
    obtain ⟨s, scr, ung, ln⟩ := p
    obtain ⟨t, scr', ung', ln'⟩ := q
    obtain ⟨h1, h2, h3, h4⟩ := h
    dsimp only at h1 h2 h3 h4
    subst h2 h3 h4
    dsimp only
    cases ung with
    | eof => exact ORel.mk _ ⟨h1, rfl, rfl, rfl⟩
    | char c => exact ORel.mk _ ⟨h1, rfl, rfl, rfl⟩
    | none =>
      dsimp only
      rcases (sim.getc hc s t h1).elim with ⟨e1, e2⟩ | ⟨a, s', t', e1, e2, e3⟩
      · rw [e1, e2]; trivial
      · rw [e1, e2]
        cases a with
        | eof => exact ORel.mk _ ⟨e3, rfl, rfl, rfl⟩
        | cut l => exact ORel.mk _ ⟨e3, rfl, rfl, rfl⟩
        | got c n =>
          cases c with
          | none => exact ORel.mk _ ⟨e3, rfl, rfl, rfl⟩
          | some c => exact ORel.mk _ ⟨e3, rfl, rfl, rfl⟩

theorem peekc_sim (hc : cOK) {p : Port S} {q : Port T} (h : PRel rel p q) : ORel (PRel rel) (peekc R p) (peekc R' q) := by
  unfold peekc
  rw [h.ungotten]
  cases q.ungotten with
  | eof => exact ORel.mk _ h
  | char c => exact ORel.mk _ h
  | none =>
    dsimp only
    rcases (getc_sim sim hc h).elim with ⟨e1, e2⟩ | ⟨a, s', t', e1, e2, e3⟩
    · rw [e1, e2]; trivial
    · rw [e1, e2]
      cases a with
      | eof => exact ORel.mk _ ⟨e3.src, e3.scratch, rfl, e3.line⟩
      | error => exact ORel.mk _ e3
      | bad => exact ORel.mk _ ⟨e3.src, e3.scratch, rfl, e3.line⟩
      | char c => exact ORel.mk _ ⟨e3.src, e3.scratch, rfl, e3.line⟩

theorem peekb_sim {p : Port S} {q : Port T} (h : PRel rel p q) : ORel (PRel rel) (peekb R p) (peekb R' q) := by
  unfold peekb
  rw [h.scratch]
  cases q.scratch with
  | cons b l => exact ORel.mk _ h
  | nil =>
    dsimp only
    rcases (getb_sim sim h).elim with ⟨e1, e2⟩ | ⟨a, s', t', e1, e2, e3⟩
    · rw [e1, e2]; trivial
    · rw [e1, e2]
      cases a with
      | none => exact ORel.mk _ ⟨e3.src, e3.scratch, rfl, e3.line⟩
      | some b => exact ORel.mk _ ⟨e3.src, by dsimp only; rw [e3.scratch], e3.ungotten, e3.line⟩

theorem getz_sim (hz : zOK) (fuel : Nat) : ∀ (n : Nat) {p : Port S} {q : Port T}, PRel rel p q →
    ORel (PRel rel) (getz R fuel p n) (getz R' fuel q n) := by
  induction fuel with
  | zero => intro n p q h; trivial
  | succ fuel ih =>
    intro n p q h
    obtain ⟨s, scr, ung, ln⟩ := p
    obtain ⟨t, scr', ung', ln'⟩ := q
    obtain ⟨h1, h2, h3, h4⟩ := h
    dsimp only at h1 h2 h3 h4
    subst h2 h3 h4
    unfold getz
    dsimp only
    by_cases h0 : scr ≠ [] ∨ ung ≠ .none
    · rw [if_pos h0, if_pos h0]
      by_cases hn : (if scr ≠ [] then scr else ungottenBytes ung).length ≥ n
      · rw [if_pos hn, if_pos hn]; exact ORel.mk _ ⟨h1, rfl, rfl, rfl⟩
      · rw [if_neg hn, if_neg hn]
        rcases (ih (n - (if scr ≠ [] then scr else ungottenBytes ung).length)
          (p := { src := s, scratch := [], ungotten := if scr ≠ [] then ung else .none, line := ln })
          (q := { src := t, scratch := [], ungotten := if scr ≠ [] then ung else .none, line := ln }) ⟨h1, rfl, rfl, rfl⟩).elim
          with ⟨e1, e2⟩ | ⟨a, s', t', e1, e2, e3⟩
        · rw [e1, e2]; trivial
        · rw [e1, e2]
          cases a with
          | none => exact ORel.mk _ e3
          | some b => exact ORel.mk _ e3
    · rw [if_neg h0, if_neg h0]
      rcases (sim.getz hz s t h1 n).elim with ⟨e1, e2⟩ | ⟨a, s', t', e1, e2, e3⟩
      · rw [e1, e2]; trivial
      · rw [e1, e2]; exact ORel.mk _ ⟨e3, rfl, rfl, rfl⟩

omit sim in
theorem ungetb_sim {p : Port S} {q : Port T} (h : PRel rel p q) (b : Nat) :
    (ungetb p b = none ∧ ungetb q b = none) ∨ ∃ p' q', ungetb p b = some p' ∧ ungetb q b = some q' ∧ PRel rel p' q' := by
  unfold ungetb
  rw [h.scratch, h.ungotten]
  by_cases h0 : q.ungotten ≠ .none ∨ q.scratch.length ≥ 6
  · left; rw [if_pos h0, if_pos h0]; exact ⟨rfl, rfl⟩
  · right; rw [if_neg h0, if_neg h0]; exact ⟨_, _, rfl, rfl, ⟨h.src, rfl, rfl, h.line⟩⟩

theorem lineLoop_sim (fuel : Nat) : ∀ (b1 : Option Nat) (ds : List Nat) {p : Port S} {q : Port T}, PRel rel p q →
    ORel (PRel rel) (lineLoop R fuel p b1 ds) (lineLoop R' fuel q b1 ds) := by
  induction fuel with
  | zero => intro b1 ds p q h; trivial
  | succ fuel ih =>
    intro b1 ds p q h
    unfold lineLoop
    have hup : ∀ {p : Port S} {q : Port T}, PRel rel p q → PRel rel { p with line := p.line + 1 } { q with line := q.line + 1 } :=
      fun h => ⟨h.src, h.scratch, h.ungotten, by dsimp only; rw [h.line]⟩
    cases b1 with
    | none => exact ORel.mk _ h
    | some b1 =>
      dsimp only
      by_cases h1 : b1 = 10
      · rw [if_pos h1, if_pos h1]; exact ORel.mk _ (hup h)
      · rw [if_neg h1, if_neg h1]
        by_cases h2 : b1 = 13
        · rw [if_pos h2, if_pos h2]
          rcases (getb_sim sim h).elim with ⟨e1, e2⟩ | ⟨a, s', t', e1, e2, e3⟩
          · rw [e1, e2]; trivial
          · rw [e1, e2]
            cases a with
            | none => exact ORel.mk _ (hup e3)
            | some b2 =>
              dsimp only
              by_cases h3 : b2 = 10
              · rw [if_pos h3, if_pos h3]; exact ORel.mk _ (hup e3)
              · rw [if_neg h3, if_neg h3]
                rcases ungetb_sim e3 b2 with ⟨e1, e2⟩ | ⟨p', q', e1, e2, e4⟩
                · rw [e1, e2]; exact ORel.mk _ e3
                · rw [e1, e2]; exact ORel.mk _ (hup e4)
        · rw [if_neg h2, if_neg h2]
          rcases (getb_sim sim h).elim with ⟨e1, e2⟩ | ⟨a, s', t', e1, e2, e3⟩
          · rw [e1, e2]; trivial
          · rw [e1, e2]; exact ih _ _ e3

theorem readLine_sim (fuel : Nat) {p : Port S} {q : Port T} (h : PRel rel p q) : ORel (PRel rel) (readLine R fuel p) (readLine R' fuel q) := by
  unfold readLine
  rcases (getb_sim sim h).elim with ⟨e1, e2⟩ | ⟨a, s', t', e1, e2, e3⟩
  · rw [e1, e2]; trivial
  · rw [e1, e2]
    cases a with
    | none => exact ORel.mk _ e3
    | some b => exact lineLoop_sim sim fuel _ _ e3

theorem readString_sim (hc : cOK) (n : Nat) : ∀ {p : Port S} {q : Port T}, PRel rel p q → ORel (PRel rel) (readString R n p) (readString R' n q) := by
  induction n with
  | zero => intro p q h; exact ORel.mk _ h
  | succ n ih =>
    intro p q h
    unfold readString
    rcases (getc_sim sim hc h).elim with ⟨e1, e2⟩ | ⟨a, s', t', e1, e2, e3⟩
    · rw [e1, e2]; trivial
    · rw [e1, e2]
      cases a with
      | eof => exact ORel.mk _ e3
      | error => exact ORel.mk _ e3
      | bad =>
        dsimp only
        rcases (ih e3).elim with ⟨e1, e2⟩ | ⟨a, s', t', e1, e2, e3⟩
        · rw [e1, e2]; trivial
        · rw [e1, e2]; exact ORel.mk _ e3
      | char c =>
        dsimp only
        rcases (ih e3).elim with ⟨e1, e2⟩ | ⟨a, s', t', e1, e2, e3⟩
        · rw [e1, e2]; trivial
        · rw [e1, e2]; exact ORel.mk _ e3

omit sim in
/-- What an operation needs of a port. -/
def Op.needs (cOK zOK : Prop) : Op → Prop
  | .readChar | .peekChar | .readString _ => cOK
  | .readBlock _ => zOK
  | _ => True

theorem exec_sim (fuel : Nat) (op : Op) (ho : op.needs cOK zOK) {p : Port S} {q : Port T} (h : PRel rel p q) :
    ORel (PRel rel) (exec R fuel p op) (exec R' fuel q op) := by
  cases op with
  | readByte => exact (getb_sim sim h).map _
  | peekByte => exact (peekb_sim sim h).map _
  | readChar => exact (getc_sim sim ho h).map _
  | peekChar => exact (peekc_sim sim ho h).map _
  | readLine => exact (readLine_sim sim fuel h).map _
  | readBlock n => exact (getz_sim sim ho 3 n h).map _
  | readString n => exact (readString_sim sim ho n h).map _

theorem run_sim (fuel : Nat) (ops : List Op) : (∀ op ∈ ops, op.needs cOK zOK) → ∀ {p : Port S} {q : Port T}, PRel rel p q →
    ORel (PRel rel) (run R fuel p ops) (run R' fuel q ops) := by
  induction ops with
  | nil => intro _ p q h; exact ORel.mk _ h
  | cons op ops ih =>
    intro ho p q h
    unfold run
    rcases (exec_sim sim fuel op (ho op List.mem_cons_self) h).elim with ⟨e1, e2⟩ | ⟨a, s', t', e1, e2, e3⟩
    · rw [e1, e2]; trivial
    · rw [e1, e2]
      dsimp only
      rcases (ih (fun o h => ho o (List.mem_cons_of_mem _ h)) e3).elim with ⟨e1, e2⟩ | ⟨a, s'', t'', e1, e2, e4⟩
      · rw [e1, e2]; trivial
      · rw [e1, e2, e3.line]; exact ORel.mk _ e4

end

/-- A buffered port holds the bytes `l`. -/
def BufHolds (size : Nat) (mode : Mode) (filler : Filler) (b : Buf) (l : List Nat) : Prop :=
  WF b ∧ b.size = size ∧ b.mode = mode ∧ b.filler = filler ∧ b.flat = l ∧ ∀ x ∈ l, x < 256

theorem buf_sim (size : Nat) (mode : Mode) (filler : Filler) :
    Sim bufRaw flatRaw (BufHolds size mode filler) (filler = .file ∧ (mode ≠ .none ∨ 5 ≤ size)) (mode = .full) where
  getb := by
    rintro s t ⟨h1, h2, h3, h4, h5, h6⟩
    obtain ⟨b', g1, g2, g3, g4⟩ := bufGetb_spec s h1
    show ORel _ (bufGetb s) (some (t.head?, t.tail))
    rw [g4, h5]
    refine ORel.mk _ ⟨g1, g2.1.trans h2, g2.2.1.trans h3, g2.2.2.trans h4, by rw [g3, h5], fun x hx => h6 x (List.mem_of_mem_tail hx)⟩
  getc := by
    rintro ⟨hf, hm⟩ s t ⟨h1, h2, h3, h4, h5, h6⟩
    subst h2 h3 h4 h5
    obtain ⟨b', r, g1, g2, g3, g4⟩ := bufGetc_spec s h1 hf hm h6
    show ORel _ (bufGetc s) _
    rw [g3, g4]
    refine ORel.mk _ ⟨g1, g2.1, g2.2.1, g2.2.2, rfl, ?_⟩
    have : ∀ x ∈ b'.flat, x ∈ s.flat := by
      intro x hx
      have h2 := g4
      unfold flatRaw at h2
      dsimp only at h2
      cases hs : s.flat with
      | nil => rw [hs] at h2; dsimp only at h2; injection h2 with h2; injection h2 with _ h2; rw [← h2] at hx; exact hx
      | cons a l =>
        rw [hs] at h2
        dsimp only at h2
        split at h2
        · split at h2
          · injection h2 with h2; injection h2 with _ h2; rw [← h2] at hx; exact absurd hx (by simp)
          · injection h2 with h2; injection h2 with _ h2; rw [← h2] at hx; exact List.mem_cons_of_mem _ (List.mem_of_mem_drop hx)
        · injection h2 with h2; injection h2 with _ h2; rw [← h2] at hx; exact List.mem_cons_of_mem _ hx
    exact fun x hx => h6 x (this x hx)
  getz := by
    rintro hz s t ⟨h1, h2, h3, h4, h5, h6⟩ n
    subst h5
    obtain ⟨b', k, g1, g2, g3, g4, g5, g6, g7, g8⟩ := bufGetz_spec s h1 n
    have hk := g6 (by rw [h3]; exact hz)
    have e1 : s.flat.take k = s.flat.take n := by
      rw [hk]
      by_cases hn : n ≤ s.flat.length
      · rw [Nat.min_eq_left hn]
      · rw [Nat.min_eq_right (by omega), List.take_length, List.take_of_length_le (by omega)]
    have e2 : s.flat.drop k = s.flat.drop n := by
      rw [hk]
      by_cases hn : n ≤ s.flat.length
      · rw [Nat.min_eq_left hn]
      · rw [Nat.min_eq_right (by omega), List.drop_length, List.drop_of_length_le (by omega)]
    show ORel _ (bufGetz s n) (if s.flat = [] ∧ n ≠ 0 then some (none, []) else some (some (s.flat.take n), s.flat.drop n))
    rw [g8, e1]
    have hh : ∀ l, b'.flat = l → BufHolds size mode filler b' l := fun l hl =>
      ⟨g1, g2.1.trans h2, g2.2.1.trans h3, g2.2.2.trans h4, hl, fun x hx => h6 x (by rw [← hl, g5] at hx; exact List.mem_of_mem_drop hx)⟩
    by_cases h0 : s.flat = [] ∧ n ≠ 0
    · rw [if_pos h0, if_pos h0]
      exact ORel.mk _ (hh _ (by rw [g5, h0.1]; simp))
    · rw [if_neg h0, if_neg h0]
      exact ORel.mk _ (hh _ (by rw [g5, e2]))

theorem make_holds (size : Nat) (hs : 1 ≤ size) (mode : Mode) (filler : Filler) (chunk : Nat → Nat) (ready : Nat → Bool) (src : List Nat)
    (hb : ∀ x ∈ src, x < 256) : PRel (BufHolds size mode filler) (make (makeBuf size mode filler chunk ready src)) (make src) :=
  ⟨⟨⟨by simp [make, makeBuf], le_refl _, Nat.zero_le _, hs⟩, rfl, rfl, rfl, by simp [make, makeBuf, Buf.flat], hb⟩, rfl, rfl, rfl⟩

end Gauche.InPort

import Verif.Proof.InPortSim
/-
Proofs about input ports: every read has a result.
-/
namespace Gauche.InPort

open Utf8

structure Total (R : Raw (List Nat)) : Prop where
  getb : ∀ l, ∃ b l', R.getb l = some (b, l') ∧ l'.length + (if b = none then 0 else 1) ≤ l.length
  getc : ∀ l, ∃ c l', R.getc l = some (c, l') ∧ l'.length ≤ l.length ∧ ∀ s, c = .cut s → s.length ≤ 6
  getz : ∀ l n, ∃ z l', R.getz l n = some (z, l') ∧ l'.length ≤ l.length

theorem charPut_len (c : Nat) : 1 ≤ (charPut c).length ∧ (charPut c).length ≤ 6 := by
  unfold charPut utf8Putc
  split_ifs <;> simp

theorem flat_total : Total flatRaw where
  getb := by
    intro l
    refine ⟨_, _, rfl, ?_⟩
    cases l <;> simp
  getc := by
    intro l
    cases l with
    | nil => exact ⟨_, _, rfl, le_refl _, by simp⟩
    | cons b t =>
      have hb := nfollows_le b
      show ∃ c l', (if nfollows b > 0 then
        if nfollows b > t.length then some (CRes.cut (b :: t), [])
        else some (.got (charGet (memOf ((b :: t).take (nfollows b + 1)))) (nfollows b), t.drop (nfollows b))
      else some (.got (some b) 0, t)) = some (c, l') ∧ _
      by_cases h0 : nfollows b > 0
      · rw [if_pos h0]
        by_cases h1 : nfollows b > t.length
        · rw [if_pos h1]
          refine ⟨_, _, rfl, by simp, ?_⟩
          intro s hs
          injection hs with hs
          rw [← hs, List.length_cons]; omega
        · rw [if_neg h1]
          exact ⟨_, _, rfl, by simp; omega, by simp⟩
      · rw [if_neg h0]
        exact ⟨_, _, rfl, by simp, by simp⟩
  getz := by
    intro l n
    show ∃ z l', (if l = [] ∧ n ≠ 0 then some (none, []) else some (some (l.take n), l.drop n)) = some (z, l') ∧ _
    by_cases h : l = [] ∧ n ≠ 0
    · rw [if_pos h]; exact ⟨_, _, rfl, by simp⟩
    · rw [if_neg h]; exact ⟨_, _, rfl, by simp⟩

theorem str_total : Total strRaw where
  getb := by
    intro l
    cases l with
    | nil => exact ⟨_, _, rfl, by simp⟩
    | cons b t => exact ⟨_, _, rfl, by simp⟩
  getc := by
    intro l
    cases l with
    | nil => exact ⟨_, _, rfl, le_refl _, by simp⟩
    | cons b t =>
      show ∃ c l', (if nfollows b > 0 then
        if nfollows b > t.length then some (CRes.cut [], t)
        else some (.got (charGet (memOf (b :: t))) (nfollows b), t.drop (nfollows b))
      else some (.got (some b) 0, t)) = some (c, l') ∧ _
      by_cases h0 : nfollows b > 0
      · rw [if_pos h0]
        by_cases h1 : nfollows b > t.length
        · rw [if_pos h1]
          refine ⟨_, _, rfl, by simp, ?_⟩
          intro s hs
          injection hs with hs
          rw [← hs]; simp
        · rw [if_neg h1]
          exact ⟨_, _, rfl, by simp; omega, by simp⟩
      · rw [if_neg h0]
        exact ⟨_, _, rfl, by simp, by simp⟩
  getz := by
    intro l n
    show ∃ z l', (if n ≥ l.length then (if l = [] then some (none, []) else some (some l, [])) else some (some (l.take n), l.drop n)) = some (z, l') ∧ _
    by_cases h : n ≥ l.length
    · rw [if_pos h]
      by_cases h' : l = []
      · rw [if_pos h']; exact ⟨_, _, rfl, by simp⟩
      · rw [if_neg h']; exact ⟨_, _, rfl, by simp⟩
    · rw [if_neg h]; exact ⟨_, _, rfl, by simp⟩

/-- The number of bytes at hand. -/
def size (p : Port (List Nat)) : Nat := p.scratch.length + (ungottenBytes p.ungotten).length + p.src.length

def Fits (N : Nat) (p : Port (List Nat)) : Prop := p.scratch.length ≤ 6 ∧ p.src.length ≤ N

theorem ung_len (u : Ungotten) : (ungottenBytes u).length ≤ 6 := by
  cases u with
  | none => simp [ungottenBytes]
  | eof => simp [ungottenBytes]
  | char c => exact (charPut_len c).2

section
variable {R : Raw (List Nat)} (tot : Total R) {N : Nat}
include tot

theorem getb_total (p : Port (List Nat)) (h : Fits N p) :
    ∃ b p', getb R p = some (b, p') ∧ Fits N p' ∧ size p' + (if b = none then 0 else 1) ≤ size p ∧ (p.scratch = [] → p'.scratch.length ≤ 5) := by
  obtain ⟨src, scr, ung, ln⟩ := p
  obtain ⟨h1, h2⟩ := h
  unfold getb size
  dsimp only at *
  cases scr with
  | cons b t => exact ⟨_, _, rfl, ⟨by simp at h1 ⊢; omega, h2⟩, by simp; omega, by simp⟩
  | nil =>
    cases ung with
    | eof => exact ⟨_, _, rfl, ⟨by simp, h2⟩, by simp [ungottenBytes], by simp⟩
    | char c =>
      dsimp only
      have hl := charPut_len c
      cases hc : charPut c with
      | nil => rw [hc] at hl; simp at hl
      | cons b t =>
        rw [hc] at hl
        simp at hl
        exact ⟨_, _, rfl, ⟨by dsimp only; omega, h2⟩, by simp [ungottenBytes, hc]; omega, by intro _; exact hl⟩
    | none =>
      obtain ⟨b, l', e, hl⟩ := tot.getb src
      dsimp only
      rw [e]
      cases b with
      | none => exact ⟨_, _, rfl, ⟨by simp, by dsimp only; omega⟩, by simpa using hl, by simp⟩
      | some b => exact ⟨_, _, rfl, ⟨by simp, by simp at hl; dsimp only; omega⟩, by simp at hl ⊢; omega, by simp⟩

theorem getMore_total (n : Nat) : ∀ p : Port (List Nat), Fits N p → ∃ r p', getMore R n p = some (r, p') ∧ Fits N p' := by
  induction n with
  | zero => intro p h; exact ⟨_, p, rfl, h⟩
  | succ n ih =>
    intro p h
    unfold getMore
    obtain ⟨b, p', e, h', _⟩ := getb_total tot p h
    rw [e]
    cases b with
    | none => exact ⟨_, _, rfl, h'⟩
    | some b =>
      dsimp only
      obtain ⟨r, p'', e', h''⟩ := ih p' h'
      rw [e']
      cases r with
      | none => exact ⟨_, _, rfl, h''⟩
      | some t => exact ⟨_, _, rfl, h''⟩

theorem getc_total (p : Port (List Nat)) (h : Fits N p) : ∃ r p', getc R p = some (r, p') ∧ Fits N p' := by
  unfold getc
  by_cases h0 : p.scratch ≠ []
  · rw [if_pos h0]
    unfold getcScratch
    dsimp only
    obtain ⟨r, p', e, h'⟩ := getMore_total tot (N := N) (nfollows (p.scratch.headD 0) + 1 - p.scratch.length) { p with scratch := [] } ⟨by simp, h.2⟩
    rw [e]
    cases r with
    | none => exact ⟨_, _, rfl, h'⟩
    | some more =>
      dsimp only
      cases charGet (memOf (p.scratch ++ more)) with
      | none =>
        refine ⟨_, _, rfl, ?_, h'.2⟩
        have := nfollows_le (p.scratch.headD 0)
        simp only [List.length_take]
        omega
      | some c => exact ⟨_, _, rfl, h'⟩
  · rw [if_neg h0]
    obtain ⟨src, scr, ung, ln⟩ := p
    obtain ⟨h1, h2⟩ := h
    dsimp only at *
    cases ung with
    | eof => exact ⟨_, _, rfl, ⟨h1, h2⟩⟩
    | char c => exact ⟨_, _, rfl, ⟨h1, h2⟩⟩
    | none =>
      obtain ⟨c, l', e, hl, hs⟩ := tot.getc src
      dsimp only
      rw [e]
      cases c with
      | eof => exact ⟨_, _, rfl, ⟨h1, by dsimp only; omega⟩⟩
      | cut s => exact ⟨_, _, rfl, ⟨hs s rfl, by dsimp only; omega⟩⟩
      | got c n =>
        cases c with
        | none => exact ⟨_, _, rfl, ⟨h1, by dsimp only; omega⟩⟩
        | some c => exact ⟨_, _, rfl, ⟨h1, by dsimp only; omega⟩⟩

theorem peekc_total (p : Port (List Nat)) (h : Fits N p) : ∃ r p', peekc R p = some (r, p') ∧ Fits N p' := by
  unfold peekc
  cases p.ungotten with
  | eof => exact ⟨_, _, rfl, h⟩
  | char c => exact ⟨_, _, rfl, h⟩
  | none =>
    obtain ⟨r, p', e, h'⟩ := getc_total tot p h
    dsimp only
    rw [e]
    cases r with
    | eof => exact ⟨_, _, rfl, h'⟩
    | error => exact ⟨_, _, rfl, h'⟩
    | bad => exact ⟨_, _, rfl, h'⟩
    | char c => exact ⟨_, _, rfl, h'⟩

theorem peekb_total (p : Port (List Nat)) (h : Fits N p) : ∃ r p', peekb R p = some (r, p') ∧ Fits N p' := by
  unfold peekb
  cases hs : p.scratch with
  | cons b t => exact ⟨_, _, rfl, h⟩
  | nil =>
    obtain ⟨b, p', e, h', _, h5⟩ := getb_total tot p h
    have h5 := h5 hs
    dsimp only
    rw [e]
    cases b with
    | none => exact ⟨_, _, rfl, h'⟩
    | some b => exact ⟨_, _, rfl, ⟨by simp; omega, h'.2⟩⟩

theorem lineLoop_total (fuel : Nat) : ∀ (p : Port (List Nat)) (b1 : Option Nat) (ds : List Nat), Fits N p → size p + (if b1 = none then 1 else 2) ≤ fuel →
    ∃ r p', lineLoop R fuel p b1 ds = some (r, p') ∧ Fits N p' := by
  induction fuel with
  | zero => intro p b1 ds _ hf; split at hf <;> omega
  | succ fuel ih =>
    intro p b1 ds h hf
    unfold lineLoop
    cases b1 with
    | none => exact ⟨_, _, rfl, h⟩
    | some b1 =>
      dsimp only
      by_cases h1 : b1 = 10
      · rw [if_pos h1]; exact ⟨_, _, rfl, h⟩
      · rw [if_neg h1]
        obtain ⟨b, p', e, h', hs, _⟩ := getb_total tot p h
        by_cases h2 : b1 = 13
        · rw [if_pos h2, e]
          cases b with
          | none => exact ⟨_, _, rfl, h'⟩
          | some b =>
            dsimp only
            by_cases h3 : b = 10
            · rw [if_pos h3]; exact ⟨_, _, rfl, h'⟩
            · rw [if_neg h3]
              unfold ungetb
              by_cases h4 : p'.ungotten ≠ .none ∨ p'.scratch.length ≥ 6
              · rw [if_pos h4]; exact ⟨_, _, rfl, h'⟩
              · rw [if_neg h4]
                refine ⟨_, _, rfl, ⟨?_, h'.2⟩⟩
                simp only [List.length_append, List.length_singleton]
                omega
        · rw [if_neg h2, e]
          dsimp only
          refine ih p' b _ h' ?_
          rw [if_neg (by simp)] at hf
          by_cases hb : b = none
          · rw [if_pos hb] at hs ⊢; omega
          · rw [if_neg hb] at hs ⊢; omega

theorem getz_total (fuel : Nat) : ∀ (p : Port (List Nat)) (n : Nat), Fits N p →
    (if p.scratch ≠ [] then 1 else 0) + (if p.ungotten ≠ .none then 1 else 0) + 1 ≤ fuel →
    ∃ r p', getz R fuel p n = some (r, p') ∧ Fits N p' := by
  induction fuel with
  | zero => intro p n _ h; omega
  | succ fuel ih =>
    intro p n h hf
    unfold getz
    by_cases h0 : p.scratch ≠ [] ∨ p.ungotten ≠ .none
    · rw [if_pos h0]
      dsimp only
      have hlen : (if p.scratch ≠ [] then p.scratch else ungottenBytes p.ungotten).length ≤ 6 := by
        split
        · exact h.1
        · exact ung_len _
      generalize (if p.scratch ≠ [] then p.scratch else ungottenBytes p.ungotten) = scr at *
      by_cases hn : scr.length ≥ n
      · rw [if_pos hn]
        exact ⟨_, _, rfl, ⟨by simp only [List.length_drop]; omega, h.2⟩⟩
      · rw [if_neg hn]
        obtain ⟨r, p', e, h'⟩ := ih { p with scratch := [], ungotten := if p.scratch ≠ [] then p.ungotten else .none } (n - scr.length) ⟨by simp, h.2⟩ (by
          dsimp only
          rw [if_neg (by simp)]
          by_cases hs : p.scratch ≠ []
          · rw [if_pos hs] at hf ⊢; omega
          · rw [if_neg hs] at hf ⊢
            rw [if_pos (by rcases h0 with h0 | h0; · exact absurd h0 hs
                           · exact h0)] at hf
            rw [if_neg (by simp)]; omega)
        rw [e]
        cases r with
        | none => exact ⟨_, _, rfl, h'⟩
        | some l => exact ⟨_, _, rfl, h'⟩
    · rw [if_neg h0]
      obtain ⟨z, l', e, hl⟩ := tot.getz p.src n
      rw [e]
      exact ⟨_, _, rfl, ⟨h.1, by have := h.2; dsimp only; omega⟩⟩

theorem readString_total (n : Nat) : ∀ p : Port (List Nat), Fits N p → ∃ r p', readString R n p = some (r, p') ∧ Fits N p' := by
  induction n with
  | zero => intro p h; exact ⟨_, p, rfl, h⟩
  | succ n ih =>
    intro p h
    unfold readString
    obtain ⟨r, p', e, h'⟩ := getc_total tot p h
    rw [e]
    cases r with
    | eof => exact ⟨_, _, rfl, h'⟩
    | error => exact ⟨_, _, rfl, h'⟩
    | bad =>
      obtain ⟨r, p'', e', h''⟩ := ih p' h'
      dsimp only
      rw [e']
      exact ⟨_, _, rfl, h''⟩
    | char c =>
      obtain ⟨r, p'', e', h''⟩ := ih p' h'
      dsimp only
      rw [e']
      exact ⟨_, _, rfl, h''⟩

theorem exec_total (fuel : Nat) (hf : N + 14 ≤ fuel) (op : Op) (p : Port (List Nat)) (h : Fits N p) :
    ∃ r p', exec R fuel p op = some (r, p') ∧ Fits N p' := by
  cases op with
  | readByte => obtain ⟨r, p', e, h', _⟩ := getb_total tot p h; exact ⟨_, p', by show (getb R p).map _ = _; rw [e]; rfl, h'⟩
  | peekByte => obtain ⟨r, p', e, h'⟩ := peekb_total tot p h; exact ⟨_, p', by show (peekb R p).map _ = _; rw [e]; rfl, h'⟩
  | readChar => obtain ⟨r, p', e, h'⟩ := getc_total tot p h; exact ⟨_, p', by show (getc R p).map _ = _; rw [e]; rfl, h'⟩
  | peekChar => obtain ⟨r, p', e, h'⟩ := peekc_total tot p h; exact ⟨_, p', by show (peekc R p).map _ = _; rw [e]; rfl, h'⟩
  | readLine =>
    have : ∃ r p', readLine R fuel p = some (r, p') ∧ Fits N p' := by
      unfold readLine
      obtain ⟨b, p', e, h', hs, _⟩ := getb_total tot p h
      rw [e]
      cases b with
      | none => exact ⟨_, _, rfl, h'⟩
      | some b =>
        refine lineLoop_total tot fuel p' (some b) [] h' ?_
        rw [if_neg (by simp)]
        have h1 := h'.1
        have h2 := h'.2
        have h3 := ung_len p'.ungotten
        unfold size
        omega
    obtain ⟨r, p', e, h'⟩ := this
    exact ⟨_, p', by show (readLine R fuel p).map _ = _; rw [e]; rfl, h'⟩
  | readBlock n =>
    obtain ⟨r, p', e, h'⟩ := getz_total tot 3 p n h (by split <;> split <;> omega)
    exact ⟨_, p', by show (getz R 3 p n).map _ = _; rw [e]; rfl, h'⟩
  | readString n => obtain ⟨r, p', e, h'⟩ := readString_total tot n p h; exact ⟨_, p', by show (readString R n p).map _ = _; rw [e]; rfl, h'⟩

theorem run_total (fuel : Nat) (hf : N + 14 ≤ fuel) (ops : List Op) : ∀ p : Port (List Nat), Fits N p →
    ∃ rs p', run R fuel p ops = some (rs, p') ∧ rs.length = ops.length := by
  induction ops with
  | nil => intro p h; exact ⟨[], p, rfl, rfl⟩
  | cons op ops ih =>
    intro p h
    obtain ⟨r, p', e, h'⟩ := exec_total tot fuel hf op p h
    obtain ⟨rs, p'', e', hl⟩ := ih p' h'
    refine ⟨_, p'', by unfold run; rw [e]; dsimp only; rw [e'], by rw [List.length_cons, List.length_cons, hl]⟩

end

end Gauche.InPort

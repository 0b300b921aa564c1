import Verif.Model.InPort
import Verif.Proof.Utf8
import Mathlib.Tactic.Linarith
/-
Proofs about input ports: a buffered port behaves like one that has all its bytes at hand.
-/
namespace Gauche.InPort

open Utf8

structure WF (b : Buf) : Prop where
  mem : b.mem.length = b.size
  cur : b.cur ≤ b.fin
  fin : b.fin ≤ b.size
  pos : 1 ≤ b.size

/-- The bytes still to come. -/
def Buf.flat (b : Buf) : List Nat := (b.mem.drop b.cur).take (b.fin - b.cur) ++ b.src

def Conf (b c : Buf) : Prop := c.size = b.size ∧ c.mode = b.mode ∧ c.filler = b.filler

theorem Conf.trans {a b c : Buf} (h : Conf a b) (h' : Conf b c) : Conf a c :=
  ⟨h'.1.trans h.1, h'.2.1.trans h.2.1, h'.2.2.trans h.2.2⟩

theorem store_at (m : List Nat) (off : Nat) (data : List Nat) (h : off + data.length ≤ m.length) :
    ∃ m', store m off data = some m' ∧ m'.length = m.length ∧ m'.take (off + data.length) = m.take off ++ data := by
  unfold store
  rw [if_pos h]
  refine ⟨_, rfl, ?_, ?_⟩
  · rw [List.length_append, List.length_append, List.length_take, List.length_drop]; omega
  · rw [List.take_append_of_le_length (by rw [List.length_append, List.length_take]; omega),
      List.take_of_length_le (by rw [List.length_append, List.length_take]; omega)]

theorem fillLoop_spec (toread mn : Nat) (al : Bool) (orig : List Nat) (fuel : Nat) : ∀ (nread : Nat) (b : Buf),
    b.mem.length = b.size → b.cur = 0 → b.fin = nread → nread ≤ toread → toread ≤ b.size → (nread = 0 → 1 ≤ toread ∧ 1 ≤ fuel) →
    b.mem.take nread ++ b.src = orig → (b.filler = .file ∨ (nread = 0 ∧ (al = true ∨ mn ≤ 1))) →
    ∃ r b', fillLoop toread mn al fuel nread b = some (r, b') ∧ b'.mem.length = b'.size ∧ b'.cur = 0 ∧ b'.fin = r ∧ r ≤ toread ∧
      b'.mem.take r ++ b'.src = orig ∧ nread ≤ r ∧ (r = 0 → b.src = []) ∧ Conf b b' := by
  induction fuel with
  | zero =>
    intro nread b h1 h2 h3 h4 h5 h6 h7 h8
    refine ⟨nread, b, rfl, h1, h2, h3, h4, h7, le_refl _, ?_, ⟨rfl, rfl, rfl⟩⟩
    intro h; have := (h6 h).2; omega
  | succ fuel ih =>
    intro nread b h1 h2 h3 h4 h5 h6 h7 h8
    unfold fillLoop callFiller
    dsimp only
    generalize hN : min (max 1 (b.chunk b.calls)) (min (toread - nread) b.src.length) = N
    have hN1 : N ≤ b.src.length := by omega
    have hN2 : N ≤ toread - nread := by omega
    have hN3 : N = 0 → toread - nread = 0 ∨ b.src.length = 0 := by omega
    have hlen : (b.src.take N).length = N := by rw [List.length_take]; omega
    have hoff : (if b.filler = .file then b.fin else 0) = nread := by
      rcases h8 with h8 | h8
      · rw [if_pos h8, h3]
      · split
        · exact h3
        · exact h8.1.symm
    rw [hoff]
    obtain ⟨m, e, hm1, hm2⟩ := store_at b.mem nread (b.src.take N) (by rw [hlen]; omega)
    rw [e]
    dsimp only
    rw [hlen] at hm2
    have horig : m.take (nread + N) ++ b.src.drop N = orig := by
      rw [hm2, List.append_assoc, List.take_append_drop, h7]
    by_cases h0 : N = 0
    · rw [if_pos h0]
      refine ⟨nread, _, rfl, by dsimp only; omega, h2, h3, h4, ?_, le_refl _, ?_, ⟨rfl, rfl, rfl⟩⟩
      · rw [h0] at horig ⊢; simpa using horig
      · intro hr
        rcases hN3 h0 with h | h
        · have := (h6 hr).1; omega
        · exact List.length_eq_zero_iff.1 h
    · rw [if_neg h0]
      by_cases hc : (!al && decide (nread + N < mn)) = true
      · rw [if_pos hc]
        have hfile : b.filler = .file := by
          rcases h8 with h8 | ⟨_, h8⟩
          · exact h8
          · simp at hc
            rcases h8 with h8 | h8
            · rw [h8] at hc; exact absurd hc.1 (by simp)
            · omega
        obtain ⟨r, b', e', g1, g2, g3, g4, g5, g6, g7, g8⟩ := ih (nread + N)
          { b with mem := m, src := b.src.drop N, calls := b.calls + 1, fin := b.fin + N } (by dsimp only; omega) h2 (by dsimp only; omega)
          (by omega) h5 (by omega) horig (Or.inl hfile)
        refine ⟨r, b', by rw [← h3] at e' ⊢; exact e', g1, g2, g3, g4, g5, by omega, by omega, g8⟩
      · rw [if_neg hc]
        exact ⟨nread + N, _, rfl, by dsimp only; omega, h2, by dsimp only; omega, by omega, horig, by omega, by omega, ⟨rfl, rfl, rfl⟩⟩

/-- Filling an empty buffer. -/
theorem fill_spec (b : Buf) (h : WF b) (he : b.cur = b.fin) (mn : Nat) (hmn : 1 ≤ mn) (al : Bool)
    (hf : b.filler = .file ∨ al = true ∨ mn ≤ 1) (hm : b.mode ≠ .none ∨ mn ≤ b.size) :
    ∃ r b', fill b mn al = some (r, b') ∧ WF b' ∧ b'.cur = 0 ∧ b'.fin = r ∧ b'.mem.take r ++ b'.src = b.src ∧ (r = 0 → b.src = []) ∧ Conf b b' := by
  unfold fill
  dsimp only
  have h0 : ¬ (b.fin - b.cur > 0) := by omega
  rw [if_neg h0]
  dsimp only
  rw [if_neg (show ¬ mn = 0 by omega)]
  have hp := h.pos
  obtain ⟨r, b', e, g1, g2, g3, g4, g5, g6, g7, g8⟩ := fillLoop_spec (if b.mode ≠ .none then b.size - 0 else mn) mn al b.src (mn + 1) 0
    { b with cur := 0, fin := 0 } h.mem rfl rfl (Nat.zero_le _) (by split <;> dsimp only <;> first | omega | skip
                                                                    rcases hm with hm | hm
                                                                    · contradiction
                                                                    · exact hm)
    (by intro _; refine ⟨?_, by omega⟩; split <;> omega) (by simp)
    (by rcases hf with hf | hf
        · exact Or.inl hf
        · exact Or.inr ⟨rfl, hf⟩)
  refine ⟨r, b', e, ⟨g1, by omega, ?_, by rw [g8.1]; exact hp⟩, g2, g3, g5, g7, g8⟩
  rw [g3, g8.1]
  dsimp only
  refine le_trans g4 ?_
  split
  · omega
  · rcases hm with hm | hm
    · contradiction
    · exact hm

theorem flat_fill {b : Buf} {r : Nat} (hc : b.cur = 0) (hf : b.fin = r) : b.flat = b.mem.take r ++ b.src := by
  unfold Buf.flat; rw [hc, hf]; simp

theorem flat_empty {b : Buf} (hc : b.cur = b.fin) : b.flat = b.src := by
  unfold Buf.flat; rw [hc]; simp

/-- Taking `k` bytes out of the buffer. -/
theorem flat_advance (b : Buf) (h : WF b) (k : Nat) (hk : b.cur + k ≤ b.fin) :
    (b.mem.drop b.cur).take k = b.flat.take k ∧ ({ b with cur := b.cur + k } : Buf).flat = b.flat.drop k ∧ WF { b with cur := b.cur + k } := by
  have h1 := h.mem
  have h2 := h.fin
  have hl : ((b.mem.drop b.cur).take (b.fin - b.cur)).length = b.fin - b.cur := by rw [List.length_take, List.length_drop]; omega
  refine ⟨?_, ?_, ⟨h.mem, hk, h.fin, h.pos⟩⟩
  · unfold Buf.flat
    rw [List.take_append_of_le_length (by omega), List.take_take, Nat.min_eq_left (by omega)]
  · unfold Buf.flat
    dsimp only
    rw [List.drop_append_of_le_length (by omega), List.drop_take, List.drop_drop]
    congr 2
    omega

theorem flat_head (b : Buf) (h : WF b) (hk : b.cur < b.fin) : ∃ t, b.flat = b.mem.getD b.cur 0 :: t := by
  have h1 := h.mem
  have h2 := h.fin
  obtain ⟨e, _, _⟩ := flat_advance b h 1 (by omega)
  have hd : b.mem.drop b.cur = b.mem.getD b.cur 0 :: b.mem.drop (b.cur + 1) := by
    rw [List.drop_eq_getElem_cons (by omega)]
    congr 1
    rw [List.getD_eq_getElem?_getD, List.getElem?_eq_getElem (by omega)]; rfl
  rw [hd] at e
  cases hf : b.flat with
  | nil => rw [hf] at e; simp at e
  | cons x t => rw [hf] at e; exact ⟨t, by rw [(List.cons.inj e).1]⟩

theorem bufGetb_spec (b : Buf) (h : WF b) : ∃ b', WF b' ∧ Conf b b' ∧ b'.flat = b.flat.tail ∧ bufGetb b = some (b.flat.head?, b') := by
  have key : ∀ c : Buf, WF c → c.cur < c.fin → ∃ b', WF b' ∧ Conf c b' ∧ b'.flat = c.flat.tail ∧
      some (some (c.mem.getD c.cur 0), { c with cur := c.cur + 1 }) = some (c.flat.head?, b') := by
    intro c hc hlt
    obtain ⟨_, e2, e3⟩ := flat_advance c hc 1 (by omega)
    obtain ⟨t, ht⟩ := flat_head c hc hlt
    exact ⟨_, e3, ⟨rfl, rfl, rfl⟩, by rw [e2, ht]; rfl, by rw [ht]; rfl⟩
  unfold bufGetb
  by_cases hge : b.cur ≥ b.fin
  · rw [if_pos hge]
    have he : b.cur = b.fin := by have := h.cur; omega
    obtain ⟨r, c, e, g1, g2, g3, g4, g5, g6⟩ := fill_spec b h he 1 (le_refl _) false (Or.inr (Or.inr (le_refl _))) (Or.inr h.pos)
    rw [e]
    dsimp only
    have hfl : c.flat = b.flat := by rw [flat_fill g2 g3, g4, flat_empty he]
    by_cases hr : r = 0
    · rw [if_pos hr]
      have hb : b.flat = [] := by rw [flat_empty he]; exact g5 hr
      exact ⟨c, g1, g6, by rw [hfl, hb]; rfl, by rw [hb]; rfl⟩
    · rw [if_neg hr]
      obtain ⟨b', k1, k2, k3, k4⟩ := key c g1 (by omega)
      exact ⟨b', k1, g6.trans k2, by rw [k3, hfl], by rw [k4, hfl]⟩
  · rw [if_neg hge]
    exact key b h (by omega)

theorem bufRest_spec (fuel : Nat) : ∀ (b : Buf) (rest : Nat) (scr : List Nat), WF b → b.cur = b.fin → 1 ≤ rest → rest ≤ fuel → b.filler = .file →
    (b.mode ≠ .none ∨ rest ≤ b.size) →
    ∃ b', WF b' ∧ Conf b b' ∧ ((rest ≤ b.src.length ∧ b'.flat = b.src.drop rest ∧ ∃ s, bufRest fuel b rest scr = some (some (scr ++ b.src.take rest), s, b')) ∨
      (b.src.length < rest ∧ b'.flat = [] ∧ bufRest fuel b rest scr = some (none, scr ++ b.src, b'))) := by
  induction fuel with
  | zero => intro b rest scr _ _ h1 h2; omega
  | succ fuel ih =>
    intro b rest scr h he h1 h2 hfl hm
    unfold bufRest
    obtain ⟨r, c, e, g1, g2, g3, g4, g5, g6⟩ := fill_spec b h he rest h1 false (Or.inl hfl) hm
    rw [e]
    dsimp only
    have hflat : c.flat = b.src := by rw [flat_fill g2 g3, g4]
    have hlen : r ≤ b.src.length := by
      rw [← g4, List.length_append, List.length_take, g1.mem]
      have := g1.fin
      omega
    by_cases hr : r = 0
    · rw [if_pos hr]
      have hb := g5 hr
      exact ⟨c, g1, g6, Or.inr ⟨by rw [hb]; exact h1, by rw [hflat, hb], by rw [hb]; simp⟩⟩
    · rw [if_neg hr]
      by_cases hge : r ≥ rest
      · rw [if_pos hge]
        obtain ⟨a1, a2, a3⟩ := flat_advance c g1 rest (by omega)
        exact ⟨_, a3, g6, Or.inl ⟨by omega, by rw [a2, hflat], ⟨_, by rw [a1, hflat]⟩⟩⟩
      · rw [if_neg hge]
        obtain ⟨a1, a2, a3⟩ := flat_advance c g1 r (by omega)
        rw [show c.cur + r = c.fin by omega] at a2 a3
        have hcs : c.src = b.src.drop r := by
          rw [← hflat, ← a2]; unfold Buf.flat; simp
        rw [a1, hflat]
        obtain ⟨b', k1, k2, k3⟩ := ih { c with cur := c.fin } (rest - r) (scr ++ b.src.take r) a3 rfl (by omega) (by omega) (by rw [← hfl]; exact g6.2.2)
          (by rcases hm with hm | hm
              · left; show c.mode ≠ _; rw [g6.2.1]; exact hm
              · right; show _ ≤ c.size; rw [g6.1]; omega)
        have hk2 : Conf b b' := Conf.trans g6 k2
        refine ⟨b', k1, hk2, ?_⟩
        rcases k3 with ⟨q1, q2, s, q3⟩ | ⟨q1, q2, q3⟩
        · left
          have q1' : rest - r ≤ c.src.length := q1
          rw [hcs, List.length_drop] at q1'
          refine ⟨by omega, ?_, s, ?_⟩
          · refine q2.trans ?_
            show c.src.drop _ = _
            rw [hcs, List.drop_drop]; congr 1; omega
          · refine q3.trans ?_
            have : scr ++ b.src.take r ++ c.src.take (rest - r) = scr ++ b.src.take rest := by
              rw [hcs, List.append_assoc, ← List.take_add]; congr 2; omega
            show some (some (scr ++ b.src.take r ++ c.src.take (rest - r)), s, b') = _
            rw [this]
        · right
          have q1' : c.src.length < rest - r := q1
          rw [hcs, List.length_drop] at q1'
          refine ⟨by omega, q2, q3.trans ?_⟩
          show some (none, scr ++ b.src.take r ++ c.src, b') = _
          rw [hcs, List.append_assoc, List.take_append_drop]

/-- The reference: all bytes at hand. -/
def flatRaw : Raw (List Nat) where
  getb := fun l => some (l.head?, l.tail)
  getc := fun l => match l with
    | [] => some (.eof, [])
    | first :: l' =>
      let nb := nfollows first
      if nb > 0 then
        if nb > l'.length then some (.cut l, [])
        else some (.got (charGet (memOf (l.take (nb + 1)))) nb, l'.drop nb)
      else some (.got (some first) 0, l')
  getz := fun l n => if l = [] ∧ n ≠ 0 then some (none, []) else some (some (l.take n), l.drop n)

theorem nfollows_le (b : Nat) : nfollows b ≤ 5 := by
  unfold nfollows
  have : ∀ x ∈ sizeTable, x ≤ 5 := by decide +kernel
  rw [List.getD_eq_getElem?_getD]
  cases h : sizeTable[b % 256]? with
  | none => simp
  | some x => exact this x (List.mem_of_getElem? h)

theorem charGet_take (l : List Nat) (hb : memOf l 0 < 256) (n : Nat) (hn : nfollows (memOf l 0) < n) : charGet (memOf l) = charGet (memOf (l.take n)) := by
  refine charGet_local _ _ hb ?_
  intro i hi
  unfold memOf at *
  rw [List.getD_eq_getElem?_getD, List.getD_eq_getElem?_getD, List.getElem?_take_of_lt (by omega)]

theorem bufGetcFrom_spec (b : Buf) (h : WF b) (hlt : b.cur < b.fin) (hfl : b.filler = .file) (hm : b.mode ≠ .none ∨ 5 ≤ b.size)
    (hbyte : ∀ x ∈ b.flat, x < 256) :
    ∃ b' r, WF b' ∧ Conf b b' ∧ bufGetcFrom b = some (r, b') ∧ flatRaw.getc b.flat = some (r, b'.flat) := by
  obtain ⟨t, ht⟩ := flat_head b h hlt
  obtain ⟨a1, a2, a3⟩ := flat_advance b h 1 (by omega)
  unfold bufGetcFrom
  dsimp only
  have hcurfin := h.fin
  have hmem := h.mem
  have hfirst : b.mem.getD b.cur 0 < 256 := hbyte _ (by rw [ht]; exact List.mem_cons_self)
  generalize hF : b.mem.getD b.cur 0 = first at *
  have hnf := nfollows_le first
  have hflat : flatRaw.getc b.flat = if nfollows first > 0 then
        if nfollows first > t.length then some (.cut (first :: t), [])
        else some (.got (charGet (memOf ((first :: t).take (nfollows first + 1)))) (nfollows first), t.drop (nfollows first))
      else some (.got (some first) 0, t) := by rw [ht]; rfl
  rw [ht, List.drop_one, List.tail_cons] at a2
  by_cases h0 : nfollows first > 0
  · rw [if_pos h0]
    rw [if_pos h0] at hflat
    have hflen : b.flat.length = (b.fin - b.cur) + b.src.length := by
      unfold Buf.flat; rw [List.length_append, List.length_take, List.length_drop]; omega
    rw [ht, List.length_cons] at hflen
    by_cases hov : b.cur + 1 + nfollows first > b.fin
    · rw [if_pos hov]
      obtain ⟨c1, c2, c3⟩ := flat_advance b h (b.fin - b.cur) (by omega)
      rw [show b.cur + (b.fin - b.cur) = b.fin by omega] at c2 c3
      have hsl : ((b.mem.drop (b.cur + 1 - 1)).take (b.fin - (b.cur + 1) + 1)) = b.flat.take (b.fin - b.cur) := by
        rw [← c1, Nat.add_sub_cancel]; congr 1; omega
      have hsrc : b.src = b.flat.drop (b.fin - b.cur) := by
        rw [← c2]; unfold Buf.flat; simp
      have hscr : (b.flat.take (b.fin - b.cur)).length = b.fin - b.cur := by rw [List.length_take, ht, List.length_cons]; omega
      rw [hsl, hscr]
      obtain ⟨b', k1, k2, k3⟩ := bufRest_spec (nfollows first + 1) { b with cur := b.fin } (nfollows first + 1 - (b.fin - b.cur))
        (b.flat.take (b.fin - b.cur)) c3 rfl (by omega) (by omega) hfl (by
          rcases hm with hm | hm
          · exact Or.inl hm
          · right; show _ ≤ b.size; omega)
      dsimp only at k3
      rcases k3 with ⟨q1, q2, s, q3⟩ | ⟨q1, q2, q3⟩
      · rw [q3]
        dsimp only
        refine ⟨b', _, k1, k2, rfl, ?_⟩
        rw [hflat, if_neg (by omega)]
        have e1 : b.flat.take (b.fin - b.cur) ++ b.src.take (nfollows first + 1 - (b.fin - b.cur)) = (first :: t).take (nfollows first + 1) := by
          rw [hsrc, ← ht, ← List.take_add]; congr 1; omega
        have e2 : b'.flat = t.drop (nfollows first) := by
          rw [q2, hsrc, List.drop_drop, ht, show (b.fin - b.cur) + (nfollows first + 1 - (b.fin - b.cur)) = nfollows first + 1 by omega]
          rfl
        rw [e1, e2]
      · rw [q3]
        dsimp only
        refine ⟨b', _, k1, k2, rfl, ?_⟩
        rw [hflat, if_pos (by omega), q2]
        congr 3
        rw [hsrc, List.take_append_drop, ht]
    · rw [if_neg hov]
      obtain ⟨c1, c2, c3⟩ := flat_advance b h (1 + nfollows first) (by omega)
      rw [show b.cur + (1 + nfollows first) = b.cur + 1 + nfollows first by omega] at c2 c3
      refine ⟨_, _, c3, ⟨rfl, rfl, rfl⟩, rfl, ?_⟩
      rw [hflat, if_neg (by omega)]
      have e2 : ({ b with cur := b.cur + 1 + nfollows first } : Buf).flat = t.drop (nfollows first) := by
        rw [c2, ht, Nat.add_comm 1]; rfl
      have hd : b.mem.drop b.cur = first :: b.mem.drop (b.cur + 1) := by
        rw [List.drop_eq_getElem_cons (by omega)]
        congr 1
        simpa [List.getD_eq_getElem?_getD, List.getElem?_eq_getElem (show b.cur < b.mem.length by omega)] using hF
      have h00 : memOf (b.mem.drop b.cur) 0 = first := by rw [hd]; rfl
      rw [e2, Nat.add_sub_cancel, charGet_take (b.mem.drop b.cur) (by rw [h00]; exact hfirst) (nfollows first + 1) (by rw [h00]; omega), ← ht,
        Nat.add_comm (nfollows first), c1]
  · rw [if_neg h0]
    rw [if_neg h0] at hflat
    exact ⟨_, _, a3, ⟨rfl, rfl, rfl⟩, rfl, by rw [hflat, a2]⟩

theorem bufGetc_spec (b : Buf) (h : WF b) (hfl : b.filler = .file) (hm : b.mode ≠ .none ∨ 5 ≤ b.size) (hbyte : ∀ x ∈ b.flat, x < 256) :
    ∃ b' r, WF b' ∧ Conf b b' ∧ bufGetc b = some (r, b') ∧ flatRaw.getc b.flat = some (r, b'.flat) := by
  unfold bufGetc
  by_cases hge : b.cur ≥ b.fin
  · rw [if_pos hge]
    have he : b.cur = b.fin := by have := h.cur; omega
    obtain ⟨r, c, e, g1, g2, g3, g4, g5, g6⟩ := fill_spec b h he 1 (le_refl _) false (Or.inr (Or.inr (le_refl _))) (Or.inr h.pos)
    rw [e]
    dsimp only
    have hflat : c.flat = b.flat := by rw [flat_fill g2 g3, g4, flat_empty he]
    by_cases hr : r = 0
    · rw [if_pos hr]
      have hb : b.flat = [] := by rw [flat_empty he]; exact g5 hr
      exact ⟨c, _, g1, g6, rfl, by rw [hflat, hb]; rfl⟩
    · rw [if_neg hr]
      obtain ⟨b', r', k1, k2, k3, k4⟩ := bufGetcFrom_spec c g1 (by omega) (by rw [g6.2.2]; exact hfl) (by rw [g6.2.1, g6.1]; exact hm) (by rw [hflat]; exact hbyte)
      exact ⟨b', r', k1, g6.trans k2, k3, by rw [← hflat]; exact k4⟩
  · rw [if_neg hge]
    exact bufGetcFrom_spec b h (by omega) hfl hm hbyte

theorem readLoop_spec (fuel : Nat) : ∀ (b : Buf) (siz : Nat) (got : List Nat), WF b → (siz = 0 ∨ b.cur = b.fin) → siz ≤ fuel →
    ∃ b' k, WF b' ∧ Conf b b' ∧ k ≤ siz ∧ k ≤ b.flat.length ∧ readLoop fuel b siz got = some (got ++ b.flat.take k, b') ∧ b'.flat = b.flat.drop k ∧
      (b.mode = .full → k = min siz b.flat.length) ∧ (got = [] → 1 ≤ siz → b.flat ≠ [] → 1 ≤ k) := by
  induction fuel with
  | zero =>
    intro b siz got h _ hs
    exact ⟨b, 0, h, ⟨rfl, rfl, rfl⟩, Nat.zero_le _, Nat.zero_le _, by simp [readLoop], by simp, by intro _; omega, by omega⟩
  | succ fuel ih =>
    intro b siz got h he hs
    unfold readLoop
    by_cases h0 : siz = 0
    · rw [if_pos h0]
      exact ⟨b, 0, h, ⟨rfl, rfl, rfl⟩, Nat.zero_le _, Nat.zero_le _, by simp, by simp, by intro _; omega, by omega⟩
    · rw [if_neg h0]
      by_cases hb : got ≠ [] ∧ b.mode ≠ .full ∧ b.ready b.calls = false
      · rw [if_pos hb]
        exact ⟨b, 0, h, ⟨rfl, rfl, rfl⟩, Nat.zero_le _, Nat.zero_le _, by simp, by simp, fun hf => absurd hf hb.2.1, fun hg => absurd hg hb.1⟩
      · rw [if_neg hb]
        have he : b.cur = b.fin := by rcases he with he | he; · exact absurd he h0
                                      · exact he
        have hp := h.pos
        obtain ⟨r, c, e, g1, g2, g3, g4, g5, g6⟩ := fill_spec b h he (min siz b.size) (by omega) true (Or.inr (Or.inl rfl)) (Or.inr (by omega))
        rw [e]
        dsimp only
        have hflat : c.flat = b.flat := by rw [flat_fill g2 g3, g4, flat_empty he]
        have hlen : r ≤ b.flat.length := by
          rw [flat_empty he, ← g4, List.length_append, List.length_take, g1.mem]
          have := g1.fin
          omega
        by_cases hr : r = 0
        · rw [if_pos hr]
          have hb : b.flat = [] := by rw [flat_empty he]; exact g5 hr
          exact ⟨c, 0, g1, g6, Nat.zero_le _, Nat.zero_le _, by simp, by rw [hflat]; simp, by intro _; rw [hb]; simp, fun _ _ hne => absurd hb hne⟩
        · rw [if_neg hr]
          by_cases hge : r ≥ siz
          · rw [if_pos hge]
            obtain ⟨a1, a2, a3⟩ := flat_advance c g1 siz (by omega)
            exact ⟨_, siz, a3, g6, le_refl _, by omega, by rw [a1, hflat], by rw [a2, hflat], by intro _; omega, by omega⟩
          · rw [if_neg hge]
            obtain ⟨a1, a2, a3⟩ := flat_advance c g1 r (by omega)
            obtain ⟨b', k, k1, k2, k3, k4, k5, k6, k7, k8⟩ := ih { c with cur := c.cur + r } (siz - r) (got ++ (c.mem.drop c.cur).take r) a3
              (Or.inr (by dsimp only; omega)) (by omega)
            rw [a2, hflat, List.length_drop] at k4
            refine ⟨b', r + k, k1, g6.trans k2, by omega, by omega, ?_, ?_, ?_, by omega⟩
            · rw [k5, a1, a2, hflat, List.append_assoc, ← List.take_add]
            · rw [k6, a2, hflat, List.drop_drop]
            · intro hf
              have := k7 (by show c.mode = _; rw [g6.2.1]; exact hf)
              rw [a2, hflat, List.length_drop] at this
              omega

theorem bufGetz_spec (b : Buf) (h : WF b) (n : Nat) :
    ∃ b' k, WF b' ∧ Conf b b' ∧ k ≤ n ∧ k ≤ b.flat.length ∧ b'.flat = b.flat.drop k ∧
      (b.mode = .full → k = min n b.flat.length) ∧ (1 ≤ n → b.flat ≠ [] → 1 ≤ k) ∧
      bufGetz b n = some (if b.flat = [] ∧ n ≠ 0 then none else some (b.flat.take k), b') := by
  unfold bufGetz readBuf
  dsimp only
  have hc := h.cur
  have hlen : b.fin - b.cur ≤ b.flat.length := by
    unfold Buf.flat; rw [List.length_append, List.length_take, List.length_drop]; have := h.mem; have := h.fin; omega
  obtain ⟨a1, a2, a3⟩ := flat_advance b h (min n (b.fin - b.cur)) (by omega)
  obtain ⟨b', k, k1, k2, k3, k4, k5, k6, k7, k8⟩ := readLoop_spec (n + 1) { b with cur := b.cur + min n (b.fin - b.cur) } (n - min n (b.fin - b.cur))
    ((b.mem.drop b.cur).take (min n (b.fin - b.cur))) a3 (by dsimp only; omega) (by omega)
  rw [k5, a1, a2, ← List.take_add]
  dsimp only
  rw [a2, List.length_drop] at k4
  have hkk : 1 ≤ n → b.flat ≠ [] → 1 ≤ min n (b.fin - b.cur) + k := by
    intro hn hne
    by_cases hz : min n (b.fin - b.cur) = 0
    · rw [hz] at k8 a2
      have := k8 (by simp) (by omega) (by
        intro hh
        have h2 : ({ b with cur := b.cur + min n (b.fin - b.cur) } : Buf).flat = b.flat := by
          rw [hz] ; simpa using a2
        apply hne; rw [← h2]; rw [hz]; exact hh)
      omega
    · omega
  refine ⟨b', min n (b.fin - b.cur) + k, k1, k2, by omega, by omega, ?_, ?_, hkk, ?_⟩
  · rw [k6, a2, List.drop_drop]
  · intro hf
    have := k7 hf
    rw [a2, List.length_drop] at this
    omega
  · by_cases hb : b.flat = [] ∧ n ≠ 0
    · rw [if_pos hb, if_pos ⟨by rw [hb.1]; simp, hb.2⟩]
    · rw [if_neg hb, if_neg]
      rintro ⟨h1, h2⟩
      apply hb
      refine ⟨?_, h2⟩
      by_contra hne
      have := hkk (by omega) hne
      rw [List.length_take] at h1
      omega

end Gauche.InPort

import Verif.Spec.OutPort
import Verif.Proof.Utf8
import Mathlib.Tactic.Linarith
/-
Proofs about output to buffered ports.
-/
namespace Gauche.OutPort

open Utf8 Spec.OutPort

structure WF (p : Port) : Prop where
  mem : p.mem.length = p.size
  cur : p.cur ≤ p.size
  pos : 1 ≤ p.size
  flushed : p.flushed = true → p.cur = 0
  closed : p.closed = true → p.cur = 0
  noerr : p.error = false
  write : ∀ k, p.write k ≠ none

/-- Everything given so far. -/
def Port.all (p : Port) : List Nat := p.sink ++ p.mem.take p.cur

/-- The same port, apart from buffer and sink. -/
def Same (p q : Port) : Prop := q.size = p.size ∧ q.mode = p.mode ∧ q.flushed = p.flushed ∧ q.closed = p.closed ∧ q.write = p.write

theorem Same.refl (p : Port) : Same p p := ⟨rfl, rfl, rfl, rfl, rfl⟩

theorem Same.trans {p q r : Port} (h : Same p q) (h' : Same q r) : Same p r := by
  obtain ⟨a1, a2, a3, a4, a5⟩ := h
  obtain ⟨b1, b2, b3, b4, b5⟩ := h'
  exact ⟨b1.trans a1, b2.trans a2, b3.trans a3, b4.trans a4, b5.trans a5⟩

theorem flusherLoop_spec (cnt : Nat) (force : Bool) (datsiz : Nat) (hc : cnt ≤ datsiz) (fuel : Nat) : ∀ (nwrote : Nat) (p : Port),
    (∀ k, p.write k ≠ none) → nwrote ≤ datsiz → datsiz ≤ p.mem.length → 0 < datsiz → datsiz < nwrote + fuel →
    ∃ n q, flusherLoop cnt force datsiz fuel nwrote p = (some n, q) ∧ nwrote ≤ n ∧ n ≤ datsiz ∧ (force = true → cnt ≤ n) ∧ (force = false → 1 ≤ n) ∧
      q.sink = p.sink ++ (p.mem.drop nwrote).take (n - nwrote) ∧ q.mem = p.mem ∧ q.cur = p.cur ∧ q.error = p.error ∧ Same p q ∧
      ((∀ k n, p.write k = some n → datsiz ≤ n) → nwrote = 0 → (force = true → 0 < cnt) → n = datsiz) := by
  induction fuel with
  | zero => intro nwrote p _ _ _ _ h; omega
  | succ fuel ih =>
    intro nwrote p hw hn hm hd hf
    unfold flusherLoop
    by_cases hcond : ((!force && nwrote == 0) || (force && decide (nwrote < cnt))) = true
    · rw [if_pos hcond]
      cases hwr : p.write p.calls with
      | none => exact absurd hwr (hw _)
      | some n0 =>
        dsimp only
        have hlt : nwrote < datsiz := by
          cases force <;> simp at hcond <;> omega
        obtain ⟨n, q, e, h1, h2, h3, h4, h5, h6, h7, h8, h9, h10⟩ := ih (nwrote + min (max 1 n0) (datsiz - nwrote))
          { p with calls := p.calls + 1, sink := p.sink ++ (p.mem.drop nwrote).take (min (max 1 n0) (datsiz - nwrote)) }
          hw (by omega) hm hd (by omega)
        refine ⟨n, q, e, by omega, h2, h3, h4, ?_, h6, h7, h8, h9, ?_⟩
        · rw [h5]
          dsimp only
          rw [List.append_assoc]
          congr 1
          have : n - nwrote = min (max 1 n0) (datsiz - nwrote) + (n - (nwrote + min (max 1 n0) (datsiz - nwrote))) := by omega
          rw [this, List.take_add, List.drop_drop]
        · intro hall h0 hpos
          have := hall _ _ hwr
          omega
    · rw [if_neg hcond]
      refine ⟨nwrote, p, rfl, le_refl _, hn, ?_, ?_, by simp, rfl, rfl, rfl, Same.refl p, ?_⟩
      · intro hf; rw [hf] at hcond; simpa using hcond
      · intro hf; rw [hf] at hcond; simp at hcond; omega
      · intro _ h0 hpos
        subst h0
        cases force <;> simp at hcond hpos <;> omega

theorem take_shift (l : List Nat) (n c : Nat) (hn : n ≤ c) (hc : c ≤ l.length) :
    ((l.drop n).take (c - n) ++ l.drop (c - n)).take (c - n) = (l.drop n).take (c - n) := by
  rw [List.take_append_of_le_length (by rw [List.length_take, List.length_drop]; omega), List.take_take, Nat.min_self]

theorem take_split (l : List Nat) (n c : Nat) (hn : n ≤ c) : l.take n ++ (l.drop n).take (c - n) = l.take c := by
  have : c = n + (c - n) := by omega
  rw [this, List.take_add]
  congr 2
  omega

theorem flush_spec (p : Port) (h : WF p) (cnt : Nat) (force : Bool) (hc : cnt ≤ p.cur) :
    ∃ q, flush p cnt force = (.ok, q) ∧ WF q ∧ q.all = p.all ∧ Same p q ∧ q.cur ≤ p.cur ∧ (0 < p.cur → q.cur < p.cur ∨ (force = true)) ∧
      (force = true → cnt = 0 → q.cur = 0) ∧ ((∀ k n, p.write k = some n → p.size ≤ n) → q.cur = 0) := by
  unfold flush
  dsimp only
  by_cases h0 : p.cur = 0
  · rw [if_pos h0]
    exact ⟨p, rfl, h, rfl, Same.refl p, le_refl _, by omega, fun _ _ => h0, fun _ => h0⟩
  · rw [if_neg h0]
    have hcc : (if cnt = 0 then p.cur else cnt) ≤ p.cur := by split <;> omega
    have hlen : p.cur ≤ p.mem.length := by rw [h.mem]; exact h.cur
    obtain ⟨n, q, e, h1, h2, h3, h4, h5, h6, h7, h8, h9, h10⟩ :=
      flusherLoop_spec (if cnt = 0 then p.cur else cnt) force p.cur hcc (p.cur + 1) 0 p h.write (by omega) hlen (by omega) (by omega)
    unfold fileFlusher
    rw [e]
    dsimp only
    obtain ⟨s1, s2, s3, s4, s5⟩ := h9
    rw [List.drop_zero, Nat.sub_zero] at h5
    have hcur := h.cur
    have hmem := h.mem
    by_cases hn : n < p.cur
    · rw [if_pos hn]
      refine ⟨_, rfl, ⟨?_, ?_, ?_, ?_, ?_, ?_, ?_⟩, ?_, ⟨s1, s2, s3, s4, s5⟩, ?_, ?_, ?_, ?_⟩
      · dsimp only; rw [h6, s1, List.length_append, List.length_take, List.length_drop, List.length_drop]; omega
      · dsimp only; rw [s1, h7]; omega
      · dsimp only; rw [s1]; exact h.pos
      · dsimp only; rw [s3]; intro hf; exact absurd (h.flushed hf) h0
      · dsimp only; rw [s4]; intro hf; exact absurd (h.closed hf) h0
      · dsimp only; rw [h8]; exact h.noerr
      · dsimp only; rw [s5]; exact h.write
      · unfold Port.all
        dsimp only
        rw [h6, h7, h5, take_shift _ _ _ (le_of_lt hn) hlen, List.append_assoc, take_split _ _ _ (le_of_lt hn)]
      · dsimp only; rw [h7]; omega
      · intro _
        dsimp only
        rw [h7]
        cases force with
        | true => exact Or.inr rfl
        | false => exact Or.inl (by have := h4 rfl; omega)
      · intro hf hz
        have := h3 hf
        rw [if_pos hz] at this
        omega
      · intro hall
        have := h10 (fun k n hk => le_trans hcur (hall k n hk)) rfl (by intro _; split <;> omega)
        omega
    · rw [if_neg hn]
      have hne : n = p.cur := by omega
      refine ⟨_, rfl, ⟨?_, ?_, ?_, ?_, ?_, ?_, ?_⟩, ?_, ⟨s1, s2, s3, s4, s5⟩, Nat.zero_le _, ?_, fun _ _ => rfl, fun _ => rfl⟩
      · dsimp only; rw [h6, s1]; exact hmem
      · exact Nat.zero_le _
      · dsimp only; rw [s1]; exact h.pos
      · intro _; rfl
      · intro _; rfl
      · dsimp only; rw [h8]; exact h.noerr
      · dsimp only; rw [s5]; exact h.write
      · unfold Port.all
        dsimp only
        rw [h5, hne]; simp
      · intro hp; exact Or.inl hp

theorem store_spec (p : Port) (h : WF p) (hf : p.flushed = false) (hcl : p.closed = false) (data : List Nat) (hd : p.cur + data.length ≤ p.size) :
    ∃ m, store p.mem p.cur data = some m ∧ WF { p with mem := m, cur := p.cur + data.length } ∧
      ({ p with mem := m, cur := p.cur + data.length } : Port).all = p.all ++ data := by
  have hm := h.mem
  unfold store
  rw [if_pos (by rw [hm]; exact hd)]
  refine ⟨_, rfl, ⟨?_, hd, h.pos, ?_, ?_, h.noerr, h.write⟩, ?_⟩
  · dsimp only; rw [List.length_append, List.length_append, List.length_take, List.length_drop]; omega
  · intro hc; rw [show p.flushed = true from hc] at hf; exact absurd hf (by simp)
  · intro hc; rw [show p.closed = true from hc] at hcl; exact absurd hcl (by simp)
  · unfold Port.all
    dsimp only
    rw [List.take_append_of_le_length (by rw [List.length_append, List.length_take]; omega), List.take_of_length_le (by rw [List.length_append, List.length_take]; omega),
      List.append_assoc]

theorem writeLoop_spec (fuel : Nat) : ∀ (p : Port) (src : List Nat), WF p → p.flushed = false → p.closed = false →
    (src.length + 1 < fuel ∨ (src.length < fuel ∧ p.cur < p.size)) →
    ∃ q, writeLoop fuel p src = (.ok, q) ∧ WF q ∧ q.all = p.all ++ src ∧ Same p q := by
  induction fuel with
  | zero => intro p src _ _ _ h; omega
  | succ fuel ih =>
    intro p src h hf hcl hfu
    unfold writeLoop
    dsimp only
    have hcur := h.cur
    by_cases hr : p.size - p.cur ≥ src.length
    · rw [if_pos hr]
      obtain ⟨m, e, hw, ha⟩ := store_spec p h hf hcl src (by omega)
      rw [e]
      exact ⟨_, rfl, hw, ha, Same.refl p⟩
    · rw [if_neg hr]
      have hl : (src.take (p.size - p.cur)).length = p.size - p.cur := by rw [List.length_take]; omega
      obtain ⟨m, e, hw, ha⟩ := store_spec p h hf hcl (src.take (p.size - p.cur)) (by omega)
      rw [e]
      dsimp only
      rw [hl] at hw ha
      obtain ⟨q, e2, hq, ha2, hs, _, hlt, _⟩ := flush_spec _ hw 0 false (Nat.zero_le _)
      rw [e2]
      dsimp only
      obtain ⟨s1, s2, s3, s4, s5⟩ := hs
      dsimp only at s1 s2 s3 s4 s5 hlt
      have hpos := h.pos
      have hq' : q.cur < q.size := by
        rcases hlt (by omega) with hl | hl
        · rw [s1]; omega
        · exact absurd hl (by simp)
      obtain ⟨r, e3, hr3, ha3, hs3⟩ := ih q (src.drop (p.size - p.cur)) hq (by rw [s3]; exact hf) (by rw [s4]; exact hcl)
        (Or.inr ⟨by rw [List.length_drop]; omega, hq'⟩)
      refine ⟨r, e3, hr3, ?_, Same.trans ⟨s1, s2, s3, s4, s5⟩ hs3⟩
      rw [ha3, ha2, ha, List.append_assoc, List.take_append_drop]

theorem WF.unflush {p : Port} (h : WF p) : WF { p with flushed := false } :=
  ⟨h.mem, h.cur, h.pos, fun hc => absurd hc (by simp), h.closed, h.noerr, h.write⟩

/-- The unchanging parts of a port. -/
def Kin (p q : Port) : Prop := q.size = p.size ∧ q.mode = p.mode ∧ q.write = p.write

theorem Same.kin {p q : Port} (h : Same p q) : Kin p q := ⟨h.1, h.2.1, h.2.2.2.2⟩

theorem putb_spec (p : Port) (h : WF p) (b : Nat) :
    ∃ q, WF q ∧ Kin p q ∧ ((p.closed = true ∧ putb p b = (.closedError, q) ∧ q = p) ∨
      (p.closed = false ∧ q.closed = false ∧ putb p b = (.ok, q) ∧ q.all = p.all ++ [b] ∧
        ((∀ k n, p.write k = some n → p.size ≤ n) → p.mode = .none → q.cur = 0))) := by
  unfold putb
  by_cases hcl' : p.closed = true
  · rw [if_pos hcl']
    exact ⟨p, h, ⟨rfl, rfl, rfl⟩, Or.inl ⟨hcl', rfl, rfl⟩⟩
  · rw [if_neg hcl']
    have hcl : p.closed = false := by simpa using hcl'
    dsimp only
    obtain ⟨p1, e1, hw1, ha1, hs1, hlt⟩ : ∃ p1, (if p.cur ≥ p.size then flush { p with flushed := false } p.cur false
        else (Outcome.ok, { p with flushed := false })) = (.ok, p1) ∧ WF p1 ∧ p1.all = p.all ∧ Same { p with flushed := false } p1 ∧ p1.cur < p1.size := by
      by_cases hge : p.cur ≥ p.size
      · rw [if_pos hge]
        obtain ⟨q, e, hq, ha, hs, _, hlt, _⟩ := flush_spec _ h.unflush p.cur false (le_refl _)
        have hp := h.pos
        refine ⟨q, e, hq, ha, hs, ?_⟩
        rcases hlt (by dsimp only; omega) with hl | hl
        · rw [hs.1]; dsimp only at hl ⊢; have := h.cur; omega
        · exact absurd hl (by simp)
      · rw [if_neg hge]
        exact ⟨_, rfl, h.unflush, rfl, Same.refl _, by dsimp only; omega⟩
    rw [e1]
    dsimp only
    rw [if_pos hlt]
    have hs1' := hs1
    obtain ⟨s1, s2, s3, s4, s5⟩ := hs1
    dsimp only at s1 s2 s3 s4 s5
    obtain ⟨m, e2, hw2, ha2⟩ := store_spec p1 hw1 s3 (by rw [s4]; exact hcl) [b] hlt
    rw [e2]
    dsimp only
    simp only [List.length_singleton] at hw2 ha2
    by_cases hm : p1.mode = .none
    · rw [if_pos hm]
      obtain ⟨q, e, hq, ha, hs, _, _, _, h0⟩ := flush_spec _ hw2 1 false (by dsimp only; omega)
      obtain ⟨t1, t2, t3, t4, t5⟩ := hs
      refine ⟨q, hq, ⟨t1.trans s1, t2.trans s2, t5.trans s5⟩, Or.inr ⟨hcl, by rw [t4]; exact s4.trans hcl, e, by rw [ha, ha2, ha1], ?_⟩⟩
      intro hall _
      exact h0 (by dsimp only; rw [s5, s1]; exact hall)
    · rw [if_neg hm]
      refine ⟨_, hw2, ⟨s1, s2, s5⟩, Or.inr ⟨hcl, s4.trans hcl, rfl, by rw [ha2, ha1], ?_⟩⟩
      intro _ hn
      exact absurd (s2.trans hn) hm

theorem nbytes_le (c : Nat) : 1 ≤ nbytes c ∧ nbytes c ≤ 6 := by
  unfold nbytes; split_ifs <;> omega

theorem putc_spec (p : Port) (h : WF p) (c : Nat) (hc : Spec.Utf8.IsCode c) :
    ∃ q, WF q ∧ Kin p q ∧ ((p.closed = true ∧ putc p c = (.closedError, q) ∧ q = p) ∨
      (p.closed = false ∧ q.closed = false ∧ putc p c = (.ok, q) ∧ q.all = p.all ++ Spec.Utf8.encode c ∧
        ((∀ k n, p.write k = some n → p.size ≤ n) → (p.mode = .none ∨ p.mode = .line ∧ c = 10) → q.cur = 0)) ∨
      (p.closed = false ∧ q.closed = false ∧ putc p c = (.assertion, q) ∧ q.all = p.all ∧ p.size - q.cur < nbytes c ∧ p.size < p.cur + nbytes c ∧
        ¬ ((∀ k n, p.write k = some n → p.size ≤ n) ∧ nbytes c ≤ p.size))) := by
  unfold putc
  by_cases hcl' : p.closed = true
  · rw [if_pos hcl']
    exact ⟨p, h, ⟨rfl, rfl, rfl⟩, Or.inl ⟨hcl', rfl, rfl⟩⟩
  · rw [if_neg hcl']
    have hcl : p.closed = false := by simpa using hcl'
    dsimp only
    obtain ⟨p1, e1, hw1, ha1, hs1, hlt⟩ : ∃ p1, (if p.cur + nbytes c > p.size then flush { p with flushed := false } p.cur false
        else (Outcome.ok, { p with flushed := false })) = (.ok, p1) ∧ WF p1 ∧ p1.all = p.all ∧ Same { p with flushed := false } p1 ∧
        (p1.cur + nbytes c ≤ p.size ∨ (p.size < p.cur + nbytes c ∧ ((∀ k n, p.write k = some n → p.size ≤ n) → p1.cur = 0))) := by
      by_cases hge : p.cur + nbytes c > p.size
      · rw [if_pos hge]
        obtain ⟨q, e, hq, ha, hs, _, hlt, _, h0⟩ := flush_spec _ h.unflush p.cur false (le_refl _)
        exact ⟨q, e, hq, ha, hs, Or.inr ⟨hge, h0⟩⟩
      · rw [if_neg hge]
        exact ⟨_, rfl, h.unflush, rfl, Same.refl _, Or.inl (by dsimp only; omega)⟩
    rw [e1]
    dsimp only
    obtain ⟨s1, s2, s3, s4, s5⟩ := hs1
    dsimp only at s1 s2 s3 s4 s5
    have hnb : (charPut c).length = nbytes c := by rw [charPut_eq c hc]; exact encode_length c
    by_cases hle : p1.cur + nbytes c ≤ p1.size
    · rw [if_pos hle]
      obtain ⟨m, e2, hw2, ha2⟩ := store_spec p1 hw1 s3 (by rw [s4]; exact hcl) (charPut c) (by rw [hnb]; exact hle)
      rw [e2]
      dsimp only
      rw [hnb] at hw2 ha2
      rw [charPut_eq c hc] at ha2
      have fin : ∃ q, flush { p1 with mem := m, cur := p1.cur + nbytes c } (nbytes c) false = (.ok, q) ∧ WF q ∧ Kin p q ∧ q.closed = false ∧
          q.all = p.all ++ Spec.Utf8.encode c ∧ ((∀ k n, p.write k = some n → p.size ≤ n) → q.cur = 0) := by
        obtain ⟨q, e, hq, ha, hs, _, _, _, h0⟩ := flush_spec _ hw2 (nbytes c) false (by dsimp only; omega)
        obtain ⟨t1, t2, t3, t4, t5⟩ := hs
        refine ⟨q, e, hq, ⟨t1.trans s1, t2.trans s2, t5.trans s5⟩, t4.trans (s4.trans hcl), by rw [ha, ha2, ha1], ?_⟩
        intro hall
        exact h0 (by dsimp only; rw [s5, s1]; exact hall)
      by_cases hm : p1.mode = .line
      · rw [if_pos hm]
        by_cases h10 : c = 10
        · rw [if_pos h10]
          obtain ⟨q, e, hq, hk, hqc, ha, h0⟩ := fin
          exact ⟨q, hq, hk, Or.inr (Or.inl ⟨hcl, hqc, e, ha, fun hall _ => h0 hall⟩)⟩
        · rw [if_neg h10]
          refine ⟨_, hw2, ⟨s1, s2, s5⟩, Or.inr (Or.inl ⟨hcl, s4.trans hcl, rfl, by rw [ha2, ha1], ?_⟩)⟩
          rintro _ (hn | hn)
          · rw [s2, hn] at hm; exact absurd hm (by simp)
          · exact absurd hn.2 h10
      · rw [if_neg hm]
        by_cases hn : p1.mode = .none
        · rw [if_pos hn]
          obtain ⟨q, e, hq, hk, hqc, ha, h0⟩ := fin
          exact ⟨q, hq, hk, Or.inr (Or.inl ⟨hcl, hqc, e, ha, fun hall _ => h0 hall⟩)⟩
        · rw [if_neg hn]
          refine ⟨_, hw2, ⟨s1, s2, s5⟩, Or.inr (Or.inl ⟨hcl, s4.trans hcl, rfl, by rw [ha2, ha1], ?_⟩)⟩
          rintro _ (hh | hh)
          · exact absurd (s2.trans hh) hn
          · exact absurd (s2.trans hh.1) hm
    · rw [if_neg hle]
      rw [s1] at hle
      rcases hlt with hlt | ⟨hlt, h0⟩
      · exact absurd hlt hle
      · refine ⟨p1, hw1, ⟨s1, s2, s5⟩, Or.inr (Or.inr ⟨hcl, s4.trans hcl, rfl, ha1, by have := hw1.cur; omega, hlt, ?_⟩)⟩
        rintro ⟨hall, hsz⟩
        have := h0 hall
        omega

theorem putz_spec (p : Port) (h : WF p) (s : List Nat) :
    ∃ q, WF q ∧ Kin p q ∧ ((p.closed = true ∧ putz p s = (.closedError, q) ∧ q = p) ∨
      (p.closed = false ∧ q.closed = false ∧ putz p s = (.ok, q) ∧ q.all = p.all ++ s ∧ (p.mode = .none → q.cur = 0) ∧
        ((∀ k n, p.write k = some n → p.size ≤ n) → p.mode = .line → 10 ∉ q.mem.take q.cur))) := by
  unfold putz
  by_cases hcl' : p.closed = true
  · rw [if_pos hcl']
    exact ⟨p, h, ⟨rfl, rfl, rfl⟩, Or.inl ⟨hcl', rfl, rfl⟩⟩
  · rw [if_neg hcl']
    have hcl : p.closed = false := by simpa using hcl'
    obtain ⟨p1, e1, hw1, ha1, hs1⟩ := writeLoop_spec (s.length + 2) { p with flushed := false } s h.unflush rfl hcl (Or.inl (by omega))
    unfold write
    rw [e1]
    dsimp only
    obtain ⟨s1, s2, s3, s4, s5⟩ := hs1
    dsimp only at s1 s2 s3 s4 s5
    have ha1' : p1.all = p.all ++ s := ha1
    by_cases hm : p1.mode = .line
    · rw [if_pos hm]
      by_cases h10 : 10 ∈ p1.mem.take p1.cur
      · rw [if_pos h10]
        obtain ⟨q, e, hq, ha, hs, _, _, _, h0⟩ := flush_spec _ hw1 0 false (Nat.zero_le _)
        obtain ⟨t1, t2, t3, t4, t5⟩ := hs
        refine ⟨q, hq, ⟨t1.trans s1, t2.trans s2, t5.trans s5⟩, Or.inr ⟨hcl, t4.trans (s4.trans hcl), e, by rw [ha, ha1'], ?_, ?_⟩⟩
        · intro hn; rw [← s2, hm] at hn; exact absurd hn (by simp)
        · intro hall _
          rw [h0 (by rw [s5, s1]; exact hall)]
          simp
      · rw [if_neg h10]
        refine ⟨p1, hw1, ⟨s1, s2, s5⟩, Or.inr ⟨hcl, s4.trans hcl, rfl, ha1', ?_, fun _ _ => h10⟩⟩
        intro hn; rw [← s2, hm] at hn; exact absurd hn (by simp)
    · rw [if_neg hm]
      by_cases hn : p1.mode = .none
      · rw [if_pos hn]
        obtain ⟨q, e, hq, ha, hs, _, _, h0, _⟩ := flush_spec _ hw1 0 true (Nat.zero_le _)
        obtain ⟨t1, t2, t3, t4, t5⟩ := hs
        refine ⟨q, hq, ⟨t1.trans s1, t2.trans s2, t5.trans s5⟩, Or.inr ⟨hcl, t4.trans (s4.trans hcl), e, by rw [ha, ha1'], fun _ => h0 rfl rfl, ?_⟩⟩
        intro _ hl
        exact absurd (s2.trans hl) hm
      · rw [if_neg hn]
        refine ⟨p1, hw1, ⟨s1, s2, s5⟩, Or.inr ⟨hcl, s4.trans hcl, rfl, ha1', fun hh => absurd (s2.trans hh) hn, fun _ hl => absurd (s2.trans hl) hm⟩⟩

theorem flushPort_spec (p : Port) (h : WF p) : ∃ q, WF q ∧ Kin p q ∧ q.all = p.all ∧ q.cur = 0 ∧ q.closed = p.closed ∧
    (flushPort p = (.ok, q) ∨ (p.closed = true ∧ flushPort p = (.closedError, q))) := by
  unfold flushPort
  cases hf : p.flushed with
  | true => exact ⟨p, h, ⟨rfl, rfl, rfl⟩, rfl, h.flushed hf, rfl, Or.inl (by simp)⟩
  | false =>
    cases hc : p.closed with
    | true => exact ⟨p, h, ⟨rfl, rfl, rfl⟩, rfl, h.closed hc, hc, Or.inr ⟨rfl, by simp⟩⟩
    | false =>
      simp only [Bool.false_eq_true, if_false]
      obtain ⟨q, e, hq, ha, hs, _, _, h0, _⟩ := flush_spec _ h 0 true (Nat.zero_le _)
      rw [e]
      have hz := h0 rfl rfl
      refine ⟨{ q with flushed := true }, ⟨hq.mem, hq.cur, hq.pos, fun _ => hz, hq.closed, hq.noerr, hq.write⟩, hs.kin, ha, hz, hs.2.2.2.1.trans hc, Or.inl rfl⟩

theorem close_spec (p : Port) (h : WF p) : ∃ q, close p = (.ok, q) ∧ WF q ∧ Kin p q ∧ q.all = p.all ∧ q.cur = 0 ∧ q.closed = true := by
  unfold close
  cases hc : p.closed with
  | true => exact ⟨p, by simp, h, ⟨rfl, rfl, rfl⟩, rfl, h.closed hc, hc⟩
  | false =>
    simp only [Bool.false_eq_true, if_false, h.noerr]
    obtain ⟨q, e, hq, ha, hs, _, _, h0, _⟩ := flush_spec _ h 0 true (Nat.zero_le _)
    rw [e]
    have hz := h0 rfl rfl
    exact ⟨{ q with closed := true }, rfl, ⟨hq.mem, hq.cur, hq.pos, hq.flushed, fun _ => hz, hq.noerr, hq.write⟩, hs.kin, ha, hz, rfl⟩

theorem flushAll_spec (p : Port) (h : WF p) : ∃ q, flushAll p = (.ok, q) ∧ WF q ∧ Kin p q ∧ q.all = p.all ∧ q.cur = 0 ∧ q.closed = p.closed := by
  unfold flushAll
  simp only [Bool.false_eq_true, if_false, h.noerr]
  obtain ⟨q, e, hq, ha, hs, _, _, h0, _⟩ := flush_spec _ h 0 true (Nat.zero_le _)
  exact ⟨q, e, hq, hs.kin, ha, h0 rfl rfl, hs.2.2.2.1⟩

theorem exec_spec (p : Port) (h : WF p) (op : Op) (hop : Proper op) : ∃ o q, exec p op = (o, q) ∧ WF q ∧ Kin p q ∧
    q.all = p.all ++ (if o = .ok then bytesOf op else []) ∧ (o = .ok ∨ (o = .closedError ∧ p.closed = true) ∨ (o = .assertion ∧ ∃ c, op = .char c ∧
      ¬ ((∀ k n, p.write k = some n → p.size ≤ n) ∧ nbytes c ≤ p.size))) ∧
    (q.closed = p.closed ∨ op = .close) := by
  cases op with
  | byte b =>
    obtain ⟨q, hq, hk, h1 | h1⟩ := putb_spec p h b
    · obtain ⟨a1, a2, a3⟩ := h1
      exact ⟨_, q, a2, hq, hk, by rw [a3]; simp, Or.inr (Or.inl ⟨rfl, a1⟩), Or.inl (by rw [a3])⟩
    · obtain ⟨a1, a2, a3, a4, a5⟩ := h1
      exact ⟨_, q, a3, hq, hk, by rw [a4]; simp [bytesOf], Or.inl rfl, Or.inl (by rw [a1, a2])⟩
  | char c =>
    obtain ⟨q, hq, hk, h1 | h1 | h1⟩ := putc_spec p h c hop
    · obtain ⟨a1, a2, a3⟩ := h1
      exact ⟨_, q, a2, hq, hk, by rw [a3]; simp, Or.inr (Or.inl ⟨rfl, a1⟩), Or.inl (by rw [a3])⟩
    · obtain ⟨a1, a2, a3, a4, a5⟩ := h1
      exact ⟨_, q, a3, hq, hk, by rw [a4]; simp [bytesOf], Or.inl rfl, Or.inl (by rw [a1, a2])⟩
    · obtain ⟨a1, a2, a3, a4, a5, a6, a7⟩ := h1
      exact ⟨_, q, a3, hq, hk, by rw [a4]; simp, Or.inr (Or.inr ⟨rfl, c, rfl, a7⟩), Or.inl (by rw [a1, a2])⟩
  | bytes s =>
    obtain ⟨q, hq, hk, h1 | h1⟩ := putz_spec p h s
    · obtain ⟨a1, a2, a3⟩ := h1
      exact ⟨_, q, a2, hq, hk, by rw [a3]; simp, Or.inr (Or.inl ⟨rfl, a1⟩), Or.inl (by rw [a3])⟩
    · obtain ⟨a1, a2, a3, a4, a5⟩ := h1
      exact ⟨_, q, a3, hq, hk, by rw [a4]; simp [bytesOf], Or.inl rfl, Or.inl (by rw [a1, a2])⟩
  | flush =>
    obtain ⟨q, hq, hk, ha, _, hc, h1 | ⟨h0, h1⟩⟩ := flushPort_spec p h
    · exact ⟨_, q, h1, hq, hk, by rw [ha]; simp [bytesOf], Or.inl rfl, Or.inl hc⟩
    · exact ⟨_, q, h1, hq, hk, by rw [ha]; simp, Or.inr (Or.inl ⟨rfl, h0⟩), Or.inl hc⟩
  | close =>
    obtain ⟨q, h1, hq, hk, ha, _, hc⟩ := close_spec p h
    exact ⟨_, q, h1, hq, hk, by rw [ha]; simp [bytesOf], Or.inl rfl, Or.inr rfl⟩
  | flushAll =>
    obtain ⟨q, h1, hq, hk, ha, _, hc⟩ := flushAll_spec p h
    exact ⟨_, q, h1, hq, hk, by rw [ha]; simp [bytesOf], Or.inl rfl, Or.inl hc⟩

theorem run_spec (ops : List Op) : ∀ (p : Port), WF p → (∀ op ∈ ops, Proper op) →
    WF (run p ops).2 ∧ Kin p (run p ops).2 ∧ (run p ops).2.all = p.all ++ accepted ops (run p ops).1 := by
  induction ops with
  | nil => intro p h _; exact ⟨h, ⟨rfl, rfl, rfl⟩, by simp [run, accepted]⟩
  | cons op ops ih =>
    intro p h hp
    obtain ⟨o, q, e, hq, hk, ha, ho, _⟩ := exec_spec p h op (hp op List.mem_cons_self)
    obtain ⟨i1, i2, i3⟩ := ih q hq (fun op hop => hp op (List.mem_cons_of_mem _ hop))
    have hk' : Kin p (run q ops).2 := ⟨i2.1.trans hk.1, i2.2.1.trans hk.2.1, i2.2.2.trans hk.2.2⟩
    unfold run
    rw [e]
    rcases ho with ho | ⟨ho, _⟩ | ⟨ho, _⟩
    · subst ho
      dsimp only
      refine ⟨i1, hk', ?_⟩
      rw [i3, ha]; simp [accepted]
    · subst ho
      dsimp only
      refine ⟨i1, hk', ?_⟩
      rw [i3, ha]; simp [accepted]
    · subst ho
      dsimp only
      refine ⟨hq, hk, ?_⟩
      rw [ha]; simp [accepted]

theorem make_WF (size : Nat) (mode : Mode) (w : Nat → Option Nat) (hs : 1 ≤ size) (hw : ∀ k, w k ≠ none) : WF (make size mode w) :=
  ⟨by simp [make], by simp [make], hs, fun h => absurd h (by simp [make]), fun h => absurd h (by simp [make]), rfl, hw⟩

end Gauche.OutPort

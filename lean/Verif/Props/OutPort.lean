import Verif.Proof.OutPort
/-
C29: buffered output preserves bytes and order.

`accepted ops outcomes` (Spec/OutPort.lean) are the bytes of the requests that ended normally; `sink` is what has arrived in the file.
Writes do not fail (`write k ≠ none`) unless said otherwise, but may be as short as one byte.
-/
namespace Gauche.OutPort

open Utf8 Spec.OutPort

/-- At every moment the file holds a prefix of the accepted bytes and the buffer the rest: nothing is lost, doubled or reordered, whatever
the buffer size, the mode and the lengths of the writes.  Never more than the buffer's size waits. -/
theorem C29_in_order (size : Nat) (mode : Mode) (w : Nat → Option Nat) (hs : 1 ≤ size) (hw : ∀ k, w k ≠ none) (ops : List Op)
    (hops : ∀ op ∈ ops, Proper op) : let r := run (make size mode w) ops
    ∃ wait : List Nat, r.2.sink ++ wait = accepted ops r.1 ∧ wait.length ≤ size := by
  intro r
  obtain ⟨h1, h2, h3⟩ := run_spec ops (make size mode w) (make_WF size mode w hs hw) hops
  refine ⟨r.2.mem.take r.2.cur, ?_, ?_⟩
  · have : r.2.all = accepted ops r.1 := by rw [h3]; rfl
    exact this
  · rw [List.length_take]
    have := h1.cur
    rw [h2.1] at this
    exact le_trans (Nat.min_le_left _ _) this

/-- After a flush, a close or a flush of all ports everything accepted has arrived, in order. -/
theorem C29_flush (size : Nat) (mode : Mode) (w : Nat → Option Nat) (hs : 1 ≤ size) (hw : ∀ k, w k ≠ none) (ops : List Op)
    (hops : ∀ op ∈ ops, Proper op) (hdead : Outcome.assertion ∉ (run (make size mode w) ops).1)
    (op : Op) (hop : op = .flush ∨ op = .close ∨ op = .flushAll) :
    (run (make size mode w) (ops ++ [op])).2.sink = accepted ops (run (make size mode w) ops).1 := by
  have key : ∀ (ops : List Op) (p : Port), WF p → (∀ op ∈ ops, Proper op) → Outcome.assertion ∉ (run p ops).1 →
      (run p (ops ++ [op])).2.sink = p.all ++ accepted ops (run p ops).1 := by
    intro ops
    induction ops with
    | nil =>
      intro p hp _ _
      have hz : ∃ q, q.cur = 0 ∧ q.all = p.all ∧ (exec p op = (.ok, q) ∨ exec p op = (.closedError, q)) := by
        rcases hop with rfl | rfl | rfl
        · obtain ⟨q, _, _, ha, h0, _, h1 | ⟨_, h1⟩⟩ := flushPort_spec p hp
          · exact ⟨q, h0, ha, Or.inl h1⟩
          · exact ⟨q, h0, ha, Or.inr h1⟩
        · obtain ⟨q, h1, _, _, ha, h0, _⟩ := close_spec p hp
          exact ⟨q, h0, ha, Or.inl h1⟩
        · obtain ⟨q, h1, _, _, ha, h0, _⟩ := flushAll_spec p hp
          exact ⟨q, h0, ha, Or.inl h1⟩
      obtain ⟨q, h0, ha, e⟩ := hz
      have ha' : q.sink = p.all := by rw [← ha]; simp [Port.all, h0]
      rcases e with e | e <;> simp [run, e, accepted, ha']
    | cons o ops ih =>
      intro p hp hprop hdead
      obtain ⟨oc, q, e, hq, hk, ha, ho, _⟩ := exec_spec p hp o (hprop o List.mem_cons_self)
      have i3 := ih q hq (fun op hop => hprop op (List.mem_cons_of_mem _ hop))
      rcases ho with ho | ⟨ho, _⟩ | ⟨ho, _⟩
      · subst ho
        have hd : Outcome.assertion ∉ (run q ops).1 := by
          intro hm; apply hdead; unfold run; rw [e]; exact List.mem_cons_of_mem _ hm
        have i3 := i3 hd
        rw [List.cons_append]
        unfold run; rw [e]
        dsimp only
        rw [i3, ha]; simp [accepted]
      · subst ho
        have hd : Outcome.assertion ∉ (run q ops).1 := by
          intro hm; apply hdead; unfold run; rw [e]; exact List.mem_cons_of_mem _ hm
        have i3 := i3 hd
        rw [List.cons_append]
        unfold run; rw [e]
        dsimp only
        rw [i3, ha]; simp [accepted]
      · subst ho
        exact absurd (by unfold run; rw [e]; exact List.mem_singleton_self _) hdead
  have := key ops (make size mode w) (make_WF size mode w hs hw) hops hdead
  rw [this]
  rfl

/-- Every request ends, and a request to an open port is accepted, except that the assertion in write-char may fail; it does not if
every write takes all it is given and the buffer has room for a character. -/
theorem C29_outcomes (size : Nat) (mode : Mode) (w : Nat → Option Nat) (hs : 1 ≤ size) (hw : ∀ k, w k ≠ none) (ops : List Op)
    (hops : ∀ op ∈ ops, Proper op) (hopen : Op.close ∉ ops) :
    (∀ o ∈ (run (make size mode w) ops).1, o = .ok ∨ o = .assertion) ∧
      ((∀ c, Op.char c ∉ ops) ∨ (6 ≤ size ∧ ∀ k n, w k = some n → size ≤ n) →
        (run (make size mode w) ops).1 = List.replicate ops.length .ok) := by
  have key : ∀ (ops : List Op) (p : Port), WF p → p.closed = false → (∀ op ∈ ops, Proper op) → Op.close ∉ ops →
      (∀ o ∈ (run p ops).1, o = .ok ∨ o = .assertion) ∧
      ((∀ c, Op.char c ∉ ops) ∨ (6 ≤ p.size ∧ ∀ k n, p.write k = some n → p.size ≤ n) → (run p ops).1 = List.replicate ops.length .ok) := by
    intro ops
    induction ops with
    | nil => intro p _ _ _ _; exact ⟨fun o ho => absurd ho (by simp [run]), fun _ => rfl⟩
    | cons o ops ih =>
      intro p hp hpc hprop hno
      obtain ⟨oc, q, e, hq, hk, ha, ho, hc⟩ := exec_spec p hp o (hprop o List.mem_cons_self)
      have hqc : q.closed = false := by
        rcases hc with hc | hc
        · rw [hc, hpc]
        · exact absurd (by rw [hc]; exact List.mem_cons_self) hno
      obtain ⟨i1, i2⟩ := ih q hq hqc (fun op hop => hprop op (List.mem_cons_of_mem _ hop)) (fun hm => hno (List.mem_cons_of_mem _ hm))
      rcases ho with ho | ⟨ho, hcl⟩ | ⟨ho, c, hoc, hbad⟩
      · subst ho
        unfold run; rw [e]
        refine ⟨?_, ?_⟩
        · intro o ho
          rcases List.mem_cons.1 ho with ho | ho
          · exact Or.inl ho
          · exact i1 o ho
        · intro hh
          dsimp only
          rw [i2 ?_]
          · rfl
          · rcases hh with hh | hh
            · exact Or.inl (fun c hm => hh c (List.mem_cons_of_mem _ hm))
            · right; rw [hk.1, hk.2.2]; exact hh
      · rw [hpc] at hcl; exact absurd hcl (by simp)
      · subst ho
        unfold run; rw [e]
        refine ⟨?_, ?_⟩
        · intro o ho
          exact Or.inr (List.mem_singleton.1 ho)
        · rintro (hh | hh)
          · exact absurd (by rw [hoc]; exact List.mem_cons_self) (hh c)
          · exact absurd ⟨hh.2, le_trans (nbytes_le c).2 hh.1⟩ hbad
  exact key ops (make size mode w) (make_WF size mode w hs hw) rfl hops hopen

/-- With buffering mode none, nothing waits after a string has been written; with mode line and complete writes, no newline of a string
waits.  For every state of the port reached by a program. -/
theorem C29_modes (size : Nat) (mode : Mode) (w : Nat → Option Nat) (hs : 1 ≤ size) (hw : ∀ k, w k ≠ none) (ops : List Op)
    (hops : ∀ op ∈ ops, Proper op) (s : List Nat) (hopen : (run (make size mode w) ops).2.closed = false) :
    let p := (run (make size mode w) ops).2
    let q := (exec p (.bytes s)).2
    (mode = .none → q.sink = p.sink ++ p.mem.take p.cur ++ s) ∧
      (mode = .line → (∀ k n, w k = some n → size ≤ n) → ∃ wait, q.sink ++ wait = p.sink ++ p.mem.take p.cur ++ s ∧ 10 ∉ wait) := by
  intro p q
  obtain ⟨h1, h2, h3⟩ := run_spec ops (make size mode w) (make_WF size mode w hs hw) hops
  obtain ⟨q', hq, hk, h | h⟩ := putz_spec p h1 s
  · have := h.1; rw [show p.closed = false from hopen] at this; exact absurd this (by simp)
  · obtain ⟨_, _, e, ha, hn, hl⟩ := h
    have hqq : q = q' := by show (putz p s).2 = q'; rw [e]
    rw [hqq]
    refine ⟨fun hm => ?_, fun hm hall => ⟨q'.mem.take q'.cur, ha, hl ?_ (h2.2.1.trans hm)⟩⟩
    · have h0 := hn (h2.2.1.trans hm)
      have : q'.all = q'.sink := by simp [Port.all, h0]
      rw [← this]; exact ha
    · rw [h2.1, h2.2.2]; exact hall

/-- With complete writes, nothing waits after a newline character in mode line, and after any character or byte in mode none. -/
theorem C29_modes_char (size : Nat) (mode : Mode) (w : Nat → Option Nat) (hs : 6 ≤ size) (hw : ∀ k, w k ≠ none) (hall : ∀ k n, w k = some n → size ≤ n)
    (ops : List Op) (hops : ∀ op ∈ ops, Proper op) (hopen : (run (make size mode w) ops).2.closed = false) :
    let p := (run (make size mode w) ops).2
    (mode = .line → (exec p (.char 10)).2.sink = p.sink ++ p.mem.take p.cur ++ [10]) ∧
      (mode = .none → ∀ c, Spec.Utf8.IsCode c → (exec p (.char c)).2.sink = p.sink ++ p.mem.take p.cur ++ Spec.Utf8.encode c) ∧
      (mode = .none → ∀ b, (exec p (.byte b)).2.sink = p.sink ++ p.mem.take p.cur ++ [b]) := by
  intro p
  obtain ⟨h1, h2, h3⟩ := run_spec ops (make size mode w) (make_WF size mode w (by omega) hw) hops
  have hall' : ∀ k n, p.write k = some n → p.size ≤ n := by rw [h2.1, h2.2.2]; exact hall
  have hchar : ∀ c, Spec.Utf8.IsCode c → (mode = .none ∨ mode = .line ∧ c = 10) →
      (exec p (.char c)).2.sink = p.sink ++ p.mem.take p.cur ++ Spec.Utf8.encode c := by
    intro c hc hm
    obtain ⟨q', hq, hk, h | h | h⟩ := putc_spec p h1 c hc
    · have := h.1; rw [show p.closed = false from hopen] at this; exact absurd this (by simp)
    · obtain ⟨_, _, e, ha, h0⟩ := h
      have h0 := h0 hall' (by rw [show p.mode = mode from h2.2.1]; exact hm)
      show (putc p c).2.sink = _
      rw [e]
      have : q'.all = q'.sink := by simp [Port.all, h0]
      rw [← this]; exact ha
    · obtain ⟨_, _, _, _, _, _, hn⟩ := h
      exact absurd ⟨hall', by rw [show p.size = size from h2.1]; exact le_trans (nbytes_le c).2 hs⟩ hn
  refine ⟨fun hm => hchar 10 (by simp [Spec.Utf8.IsCode]) (Or.inr ⟨hm, rfl⟩), fun hm c hc => hchar c hc (Or.inl hm), fun hm b => ?_⟩
  obtain ⟨q', hq, hk, h | h⟩ := putb_spec p h1 b
  · have := h.1; rw [show p.closed = false from hopen] at this; exact absurd this (by simp)
  · obtain ⟨_, _, e, ha, h0⟩ := h
    have h0 := h0 hall' (h2.2.1.trans hm)
    show (putb p b).2.sink = _
    rw [e]
    have : q'.all = q'.sink := by simp [Port.all, h0]
    rw [← this]; exact ha

/-- A closed port takes nothing more: every further request to write is an error and the file stays as it was. -/
theorem C29_closed (size : Nat) (mode : Mode) (w : Nat → Option Nat) (hs : 1 ≤ size) (hw : ∀ k, w k ≠ none) (ops : List Op)
    (hops : ∀ op ∈ ops, Proper op) : let p := (exec (run (make size mode w) ops).2 .close).2
    ∀ op, ((∃ b, op = .byte b) ∨ (∃ c, op = .char c) ∨ (∃ s, op = .bytes s)) → exec p op = (.closedError, p) := by
  intro p op hop
  obtain ⟨h1, h2, h3⟩ := run_spec ops (make size mode w) (make_WF size mode w hs hw) hops
  obtain ⟨q, e, _, _, _, _, hc⟩ := close_spec _ h1
  have hp : p = q := by show (close _).2 = q; rw [e]
  have hpc : p.closed = true := by rw [hp]; exact hc
  rcases hop with ⟨b, rfl⟩ | ⟨b, rfl⟩ | ⟨b, rfl⟩ <;> simp [exec, putb, putc, putz, hpc]

/-- write-char asks for one (not forced) flush and then asserts that there is room: a short write ends the process, whatever the size of
the buffer. -/
theorem C29_bug_assertion (size : Nat) : (run (make (size + 3) .full (fun _ => some 1)) [.bytes (List.replicate (size + 2) 97), .char 0x3042]).1 =
    [.ok, .assertion] := by
  have e1 : exec (make (size + 3) .full (fun _ => some 1)) (.bytes (List.replicate (size + 2) 97)) =
      (.ok, { make (size + 3) .full (fun _ => some 1) with mem := List.replicate (size + 2) 97 ++ [0], cur := size + 2 }) := by
    show putz _ _ = _
    unfold putz make write writeLoop
    simp [store]
  have e2 : (exec { make (size + 3) .full (fun _ => some 1) with mem := List.replicate (size + 2) 97 ++ [0], cur := size + 2 } (.char 0x3042)).1 =
      .assertion := by
    show (putc _ _).1 = _
    unfold putc make flush fileFlusher flusherLoop flusherLoop
    simp [nbytes]
  unfold run
  rw [e1]
  dsimp only
  unfold run
  revert e2
  generalize exec _ (Op.char 0x3042) = x
  obtain ⟨o, q⟩ := x
  rintro rfl
  rfl

/-- A write error in the middle of a flush leaves the bytes already written in the buffer: when the flush is tried again they are written
again. -/
theorem C29_bug_twice : let w : Nat → Option Nat := fun k => if k = 0 then some 2 else if k = 1 then none else some 9
    let r := run (make 16 .full w) [.bytes [1, 2, 3], .flush, .flush]
    r.1 = [.ok, .ioError, .ok] ∧ r.2.sink = [1, 2, 1, 2, 3] := by
  decide +kernel

/-- After a write error, closing the port drops what waits without a word. -/
theorem C29_bug_close : let w : Nat → Option Nat := fun k => if k = 0 then none else some 9
    let r := run (make 16 .full w) [.bytes [1, 2, 3], .flush, .close]
    r.1 = [.ok, .ioError, .ok] ∧ r.2.sink = [] ∧ r.2.closed = true := by
  decide +kernel

/-! Non-vacuity. -/

def demo : List Op := [.bytes [1, 2, 3, 4, 5, 6, 7, 8, 9, 10, 11], .char 0x3042, .byte 7, .flushAll, .char 10, .byte 8, .flush, .byte 9]

def short : Nat → Option Nat := fun k => some (k % 3)

example : (run (make 8 .line short) demo).1 = List.replicate 8 .ok := by decide +kernel
example : (run (make 8 .line short) demo).2.sink = [1, 2, 3, 4, 5, 6, 7, 8, 9, 10, 11, 0xe3, 0x81, 0x82, 7, 10, 8] := by decide +kernel
example : ∀ op ∈ demo, Proper op := by simp [demo, Proper, Spec.Utf8.IsCode]
example : ∀ k, short k ≠ none := by simp [short]
example : Op.close ∉ demo := by simp [demo]
example : (run (make 8 .full (fun _ => some 100)) [.bytes [1, 2], .close, .byte 3, .flush]).1 = [.ok, .ok, .closedError, .closedError] := by decide +kernel

end Gauche.OutPort

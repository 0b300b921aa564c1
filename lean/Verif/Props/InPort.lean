import Verif.Proof.InPortSpec
import Verif.Proof.InPortTotal
/-
C28: what is read from a port does not depend on how the bytes arrive, and is what Spec/InPort.lean says.
-/
namespace Gauche.InPort

open Gauche.Spec.Utf8 Gauche.Spec.InPort

/-- A port just opened on the bytes `src`.  A read of the file gets `chunk` bytes at its i-th call, and the file would block where `ready` says so. -/
abbrev opened (size : Nat) (mode : Mode) (filler : Filler) (chunk : Nat → Nat) (ready : Nat → Bool) (src : List Nat) : Port Buf :=
  make (makeBuf size mode filler chunk ready src)

def Op.isChar : Op → Bool
  | .readChar | .peekChar | .readString _ => true
  | _ => false

def Op.isBlock : Op → Bool
  | .readBlock _ => true
  | _ => false

/-- Where a program of reads does not depend on the chunks: characters need a file (see `C28_bug_vport`), and a buffer that holds one unless
the port is buffered; blocks need full buffering, as they may be short otherwise (see `C28_blocks`). -/
def Suits (size : Nat) (mode : Mode) (filler : Filler) (ops : List Op) : Prop :=
  1 ≤ size ∧ (∀ op ∈ ops, op.isChar = true → filler = .file ∧ (mode ≠ .none ∨ 5 ≤ size)) ∧ (∀ op ∈ ops, op.isBlock = true → mode = .full)

theorem Suits.needs {size : Nat} {mode : Mode} {filler : Filler} {ops : List Op} (h : Suits size mode filler ops) :
    ∀ op ∈ ops, op.needs (filler = .file ∧ (mode ≠ .none ∨ 5 ≤ size)) (mode = .full) := by
  intro op ho
  cases op with
  | readChar => exact h.2.1 _ ho rfl
  | peekChar => exact h.2.1 _ ho rfl
  | readString n => exact h.2.1 _ ho rfl
  | readBlock n => exact h.2.2 _ ho rfl
  | readByte => trivial
  | peekByte => trivial
  | readLine => trivial

/-- Any interleaving of reads and peeks of bytes, characters, lines, strings and blocks on any bytes, well formed or not: how the bytes arrive, the
size of the buffer and the mode do not change what is read, nor the line number. -/
theorem C28_chunk_independent (src : List Nat) (hb : ∀ x ∈ src, x < 256) (ops : List Op) (fuel : Nat)
    (size size' : Nat) (mode mode' : Mode) (filler filler' : Filler) (chunk chunk' : Nat → Nat) (ready ready' : Nat → Bool)
    (h : Suits size mode filler ops) (h' : Suits size' mode' filler' ops) :
    (run bufRaw fuel (opened size mode filler chunk ready src) ops).map Prod.fst =
      (run bufRaw fuel (opened size' mode' filler' chunk' ready' src) ops).map Prod.fst := by
  have key : ∀ (size : Nat) (mode : Mode) (filler : Filler) (chunk : Nat → Nat) (ready : Nat → Bool), Suits size mode filler ops →
      (run bufRaw fuel (opened size mode filler chunk ready src) ops).map Prod.fst = (run flatRaw fuel (make src) ops).map Prod.fst := by
    intro size mode filler chunk ready h
    rcases (run_sim (buf_sim size mode filler) fuel ops h.needs (make_holds size h.1 mode filler chunk ready src hb)).elim with ⟨e1, e2⟩ | ⟨a, s, t, e1, e2, _⟩
    · rw [e1, e2]; rfl
    · rw [e1, e2]; rfl
  rw [key _ _ _ _ _ h, key _ _ _ _ _ h']

example : Suits 8192 .full .file [.peekChar, .readByte, .readLine, .readBlock 4, .readString 3] ∧ Suits 1 .line .file [.peekChar, .readByte, .readLine] ∧
    Suits 1 .none .vport [.readLine, .readByte] :=
  ⟨⟨by omega, by simp, by simp⟩, ⟨by omega, by simp, by simp [Op.isBlock]⟩, ⟨by omega, by simp [Op.isChar], by simp [Op.isBlock]⟩⟩

/-- Every read has a result: no access outside the buffer, no loop without end. -/
theorem C28_defined (src : List Nat) (hb : ∀ x ∈ src, x < 256) (ops : List Op) (fuel : Nat) (hf : src.length + 14 ≤ fuel)
    (size : Nat) (mode : Mode) (filler : Filler) (chunk : Nat → Nat) (ready : Nat → Bool) (h : Suits size mode filler ops) :
    ∃ out p, run bufRaw fuel (opened size mode filler chunk ready src) ops = some (out, p) ∧ out.length = ops.length := by
  obtain ⟨rs, q, e, hl⟩ := run_total flat_total (N := src.length) fuel hf ops (make src) ⟨by simp [make], le_refl _⟩
  rcases (run_sim (buf_sim size mode filler) fuel ops h.needs (make_holds size h.1 mode filler chunk ready src hb)).elim with ⟨e1, e2⟩ | ⟨a, s, t, e1, e2, _⟩
  · rw [e] at e2; simp at e2
  · rw [e] at e2
    injection e2 with e2
    injection e2 with e2 _
    exact ⟨a, s, e1, by rw [← e2]; exact hl⟩

theorem C28_string_defined (src : List Nat) (ops : List Op) (fuel : Nat) (hf : src.length + 14 ≤ fuel) :
    ∃ out p, run strRaw fuel (make src) ops = some (out, p) ∧ out.length = ops.length :=
  run_total str_total (N := src.length) fuel hf ops (make src) ⟨by simp [make], le_refl _⟩

/-- What is read is what the specification says, however the bytes arrive. -/
theorem C28_reads_bytes (src : List Nat) (hb : ∀ x ∈ src, x < 256) (ops : List Call) (rs : List Ans) (s' : St) (hr : Runs ⟨src, 0, false⟩ ops rs s')
    (fuel : Nat) (hf : src.length + 2 ≤ fuel) (size : Nat) (mode : Mode) (filler : Filler) (chunk : Nat → Nat) (ready : Nat → Bool)
    (h : Suits size mode filler (ops.map ofCall)) :
    ∃ out p, run bufRaw fuel (opened size mode filler chunk ready src) (ops.map ofCall) = some (out, p) ∧ out.map Prod.fst = rs.map ofAns := by
  obtain ⟨out, q, e, ho, _⟩ := run_abs flat_good hr fuel hf (make src) (make_abs src)
  rcases (run_sim (buf_sim size mode filler) fuel _ h.needs (make_holds size h.1 mode filler chunk ready src hb)).elim with ⟨e1, e2⟩ | ⟨a, s, t, e1, e2, _⟩
  · rw [e] at e2; simp at e2
  · rw [e] at e2
    injection e2 with e2
    injection e2 with e2 _
    exact ⟨a, s, e1, by rw [← e2]; exact ho⟩

/-- A string port reads the same. -/
theorem C28_string_port (src : List Nat) (ops : List Call) (rs : List Ans) (s' : St) (hr : Runs ⟨src, 0, false⟩ ops rs s')
    (fuel : Nat) (hf : src.length + 2 ≤ fuel) :
    ∃ out p, run strRaw fuel (make src) (ops.map ofCall) = some (out, p) ∧ out.map Prod.fst = rs.map ofAns := by
  obtain ⟨out, q, e, ho, _⟩ := run_abs str_good hr fuel hf (make src) (make_abs src)
  exact ⟨out, q, e, ho⟩

/-- Hiragana A, CR, LF: peek-char, read-byte, read-byte, read-byte, read-line, read-char. -/
example : Runs ⟨[0xe3, 0x81, 0x82, 13, 10], 0, false⟩ [.peekChar, .readByte, .readByte, .readByte, .readLine, .readChar]
    [.char (some 0x3042), .byte (some 0xe3), .byte (some 0x81), .byte (some 0x82), .line (some []), .char none] ⟨[], 0, false⟩ :=
  .cons (.peekChar 0x3042 [13, 10] 0 false (by unfold IsCode; omega))
    (.cons (.readByte _ _ _) (.cons (.readByte _ _ _) (.cons (.readByte _ _ _)
      (.cons (.readLine [] [13, 10] [] _ _ (by simp) ⟨by simp, Or.inr (Or.inl rfl)⟩) (.cons (.readCharEof _ _) (.nil _))))))

/-- The specification says what every program of byte and line reads gives, on any bytes. -/
theorem C28_spec_bytes (ops : List Call) (hops : ∀ op ∈ ops, op = .readByte ∨ op = .peekByte ∨ op = .readLine) :
    ∀ s : St, ∃ rs s', Runs s ops rs s' := by
  have line : ∀ l : List Nat, ∃ ds stop rest, l = ds ++ stop ++ rest ∧ IsLine ds stop rest := by
    intro l
    induction l with
    | nil => exact ⟨[], [], [], rfl, by simp, Or.inr (Or.inr (Or.inr ⟨rfl, rfl⟩))⟩
    | cons b l ih =>
      by_cases h1 : b = 10
      · exact ⟨[], [10], l, by rw [h1]; rfl, by simp, Or.inl rfl⟩
      · by_cases h2 : b = 13
        · by_cases h3 : l.head? = some 10
          · cases l with
            | nil => simp at h3
            | cons c l =>
              rw [List.head?_cons] at h3
              injection h3 with h3
              exact ⟨[], [13, 10], l, by rw [h2, h3]; rfl, by simp, Or.inr (Or.inl rfl)⟩
          · exact ⟨[], [13], l, by rw [h2]; rfl, by simp, Or.inr (Or.inr (Or.inl ⟨rfl, h3⟩))⟩
        · obtain ⟨ds, stop, rest, e, h3, h4⟩ := ih
          refine ⟨b :: ds, stop, rest, by rw [e]; rfl, ?_, h4⟩
          intro x hx
          rcases List.mem_cons.1 hx with hx | hx
          · rw [hx]; exact ⟨h1, h2⟩
          · exact h3 x hx
  induction ops with
  | nil => intro s; exact ⟨[], s, .nil s⟩
  | cons op ops ih =>
    intro s
    have : ∃ r s', Step s op r s' := by
      obtain ⟨l, k, e⟩ := s
      rcases hops op List.mem_cons_self with h | h | h
      · subst h; exact ⟨_, _, .readByte l k e⟩
      · subst h
        cases l with
        | nil => exact ⟨_, _, .peekEof k e⟩
        | cons b l => exact ⟨_, _, .peekByte b l k e⟩
      · subst h
        by_cases hl : l = []
        · subst hl; exact ⟨_, _, .readLineEof k e⟩
        · obtain ⟨ds, stop, rest, e1, e2⟩ := line l
          subst e1
          exact ⟨_, _, .readLine ds stop rest k e hl e2⟩
    obtain ⟨r, s', h⟩ := this
    obtain ⟨rs, s'', h'⟩ := ih (fun o ho => hops o (List.mem_cons_of_mem _ ho)) s'
    exact ⟨_, _, .cons h h'⟩

/-- And what every program of character reads gives, on the encoding of any characters. -/
theorem C28_spec_chars (ops : List Call) (hops : ∀ op ∈ ops, op = .readChar ∨ op = .peekChar ∨ ∃ n, 1 ≤ n ∧ op = .readString n) :
    ∀ (cs : List Nat) (k : Nat) (e : Bool), (∀ c ∈ cs, IsCode c) → ∃ rs s', Runs ⟨encodeAll cs, k, e⟩ ops rs s' := by
  induction ops with
  | nil => intro cs k e _; exact ⟨[], _, .nil _⟩
  | cons op ops ih =>
    intro cs k e hc
    have ih := ih (fun o ho => hops o (List.mem_cons_of_mem _ ho))
    have enc : ∀ c cs, encodeAll (c :: cs) = encode c ++ encodeAll cs := fun c cs => rfl
    rcases hops op List.mem_cons_self with h | h | ⟨n, hn, h⟩
    · subst h
      cases cs with
      | nil => obtain ⟨rs, s', h⟩ := ih [] 0 false hc; exact ⟨_, _, .cons (.readCharEof k e) h⟩
      | cons c cs =>
        obtain ⟨rs, s', h⟩ := ih cs 0 false (fun c h => hc c (List.mem_cons_of_mem _ h))
        rw [enc]; exact ⟨_, _, .cons (.readChar c _ k e (hc c List.mem_cons_self)) h⟩
    · subst h
      cases cs with
      | nil => obtain ⟨rs, s', h⟩ := ih [] 0 true hc; exact ⟨_, _, .cons (.peekCharEof k e) h⟩
      | cons c cs =>
        obtain ⟨rs, s', h⟩ := ih (c :: cs) (encode c).length false hc
        rw [enc] at h ⊢; exact ⟨_, _, .cons (.peekChar c _ k e (hc c List.mem_cons_self)) h⟩
    · subst h
      obtain ⟨rs, s', h⟩ := ih (cs.drop n) 0 false (fun c h => hc c (List.mem_of_mem_drop h))
      have e1 : encodeAll cs = encodeAll (cs.take n) ++ encodeAll (cs.drop n) := by
        unfold encodeAll; rw [← List.flatMap_append, List.take_append_drop]
      rw [e1]
      refine ⟨_, _, .cons (.readString (cs.take n) _ k n e hn (fun c h => hc c (List.mem_of_mem_take h)) ?_) h⟩
      by_cases hl : n ≤ cs.length
      · left; rw [List.length_take]; omega
      · right
        refine ⟨by rw [List.length_take]; omega, ?_⟩
        rw [List.drop_of_length_le (by omega)]; rfl

/-- Blocks, in any mode and for any kind of buffered port: together they are the bytes in order; none is longer than asked for; the end is answered only
at the end. -/
theorem C28_blocks (src : List Nat) (hb : ∀ x ∈ src, x < 256) (size : Nat) (hs : 1 ≤ size) (mode : Mode) (filler : Filler) (chunk : Nat → Nat)
    (ready : Nat → Bool) (fuel : Nat) (ns : List Nat) (hn : ∀ n ∈ ns, 1 ≤ n) :
    ∃ (parts : List (List Nat)) (out : List (Res × Nat)) (p : Port Buf) (rest : List Nat),
      run bufRaw fuel (opened size mode filler chunk ready src) (ns.map .readBlock) = some (out, p) ∧
      out.map Prod.fst = parts.map (fun l => .block (if l = [] then none else some l)) ∧
      parts.flatten ++ rest = src ∧ List.Forall₂ (fun l n => l.length ≤ n ∧ (l = [] → rest = [])) parts ns := by
  have key : ∀ (ns : List Nat) (b : Buf) (ln : Nat), (∀ n ∈ ns, 1 ≤ n) → WF b →
      ∃ (parts : List (List Nat)) (out : List (Res × Nat)) (p : Port Buf) (rest : List Nat),
      run bufRaw fuel { src := b, scratch := [], ungotten := .none, line := ln } (ns.map .readBlock) = some (out, p) ∧
      out.map Prod.fst = parts.map (fun l => .block (if l = [] then none else some l)) ∧
      parts.flatten ++ rest = b.flat ∧ List.Forall₂ (fun l n => l.length ≤ n ∧ (l = [] → rest = [])) parts ns := by
    intro ns
    induction ns with
    | nil => intro b ln _ _; exact ⟨[], [], _, b.flat, rfl, rfl, rfl, .nil⟩
    | cons n ns ih =>
      intro b ln hn hw
      obtain ⟨b', k, g1, g2, g3, g4, g5, g6, g7, g8⟩ := bufGetz_spec b hw n
      obtain ⟨parts, out, p, rest, e1, e2, e3, e4⟩ := ih b' ln (fun n h => hn n (List.mem_cons_of_mem _ h)) g1
      have hn1 := hn n List.mem_cons_self
      have hif : (if b.flat = [] ∧ n ≠ 0 then none else some (b.flat.take k)) = if b.flat.take k = [] then none else some (b.flat.take k) := by
        by_cases h0 : b.flat = []
        · rw [if_pos ⟨h0, by omega⟩, if_pos (by rw [h0]; simp)]
        · rw [if_neg (fun h => h0 h.1), if_neg]
          have := g7 hn1 h0
          intro h
          rcases List.take_eq_nil_iff.1 h with h | h
          · omega
          · exact h0 h
      have hex : exec bufRaw fuel { src := b, scratch := [], ungotten := .none, line := ln } (.readBlock n) =
          some (.block (if b.flat.take k = [] then none else some (b.flat.take k)), { src := b', scratch := [], ungotten := .none, line := ln }) := by
        show (getz bufRaw 3 _ n).map _ = _
        unfold getz
        rw [if_neg (by simp)]
        have hg : bufRaw.getz b n = _ := g8
        dsimp only
        rw [hg, hif]; rfl
      refine ⟨b.flat.take k :: parts, (.block (if b.flat.take k = [] then none else some (b.flat.take k)), ln) :: out, p, rest, ?_, ?_, ?_, ?_⟩
      · rw [List.map_cons]
        unfold run
        rw [hex]
        dsimp only
        rw [e1]
      · rw [List.map_cons, List.map_cons, e2]
      · rw [List.flatten_cons, List.append_assoc, e3, g5, List.take_append_drop]
      · refine .cons ⟨by rw [List.length_take]; omega, ?_⟩ e4
        intro h
        have hfl : b.flat = [] := by
          by_contra h0
          have := g7 hn1 h0
          rcases List.take_eq_nil_iff.1 h with h | h
          · omega
          · exact h0 h
        rw [g5, hfl, List.drop_nil] at e3
        exact (List.append_eq_nil_iff.1 e3).2
  have hh := make_holds size hs mode filler chunk ready src hb
  obtain ⟨parts, out, p, rest, e1, e2, e3, e4⟩ := key ns (makeBuf size mode filler chunk ready src) 1 hn hh.src.1
  exact ⟨parts, out, p, rest, e1, e2, e3.trans hh.src.2.2.2.2.1, e4⟩

/-! ### Where the code departs from the specification -/


/-- The results of a program. -/
abbrev results (p : Port Buf) (ops : List Op) : Option (List Res) := (run bufRaw 40 p ops).map fun x => x.1.map Prod.fst

/-- The file is read in one piece. -/
abbrev whole (src : List Nat) : Port Buf := opened 16 .full .file (fun _ => 8192) (fun _ => true) src

/-- The last byte of a file is lost if it was peeked at before a block read: `getz_scratch` adds EOF, which is -1, to the number of bytes. -/
theorem C28_bug_last_byte : results (whole [97]) [.peekByte, .readBlock 5, .readByte] = some [.byte (some 97), .block (some []), .byte none] ∧
    results (whole [0xe3, 0x81, 0x82]) [.peekChar, .readBlock 5, .readByte] = some [.char (.char 0x3042), .block (some [0xe3, 0x81]), .byte none] := by
  decide +kernel

/-- The same without a peek: `read-line` looks at the byte after a carriage return. -/
theorem C28_bug_line_then_block : results (whole [97, 13, 98]) [.readLine, .readBlock 5, .readByte] =
    some [.line (.line [97]), .block (some []), .byte none] := by decide +kernel

/-- After a peek at the end, a block read of one byte returns a byte that is not in the file. -/
theorem C28_bug_eof_byte : results (whole []) [.peekByte, .readBlock 1] = some [.byte none, .block (some [255])] := by decide +kernel

/-- A buffered port with a fill procedure: the result depends on the chunks, as `bport_fill` stores each at the start of the buffer. -/
theorem C28_bug_vport :
    results (opened 16 .full .vport (fun _ => 1) (fun _ => true) [0xe3, 0x81, 0x82, 97]) [.readChar, .readChar] = some [.char .bad, .char (.char 97)] ∧
    results (opened 16 .full .vport (fun _ => 9) (fun _ => true) [0xe3, 0x81, 0x82, 97]) [.readChar, .readChar] = some [.char (.char 0x3042), .char (.char 97)] := by
  decide +kernel

/-- The line number: `read-line` counts a line feed twice, reading it character by character once. -/
theorem C28_bug_line_number : (run bufRaw 40 (whole [97, 10]) [.readLine]).map (fun x => x.1.map Prod.snd) = some [3] ∧
    (run bufRaw 40 (whole [97, 10]) [.readChar, .readChar]).map (fun x => x.1.map Prod.snd) = some [1, 2] := by decide +kernel

/-- A peek at bytes that are not a character consumes them. -/
theorem C28_bug_peek_invalid : results (whole [0xe3, 97, 98, 99]) [.peekChar, .readByte] = some [.char .bad, .byte (some 99)] := by decide +kernel

/-- Bytes are lost where a character is read from the middle of a peeked one. -/
theorem C28_bug_lost : results (whole [0xe3, 0x81, 0x82, 97]) [.peekChar, .readByte, .readChar, .readChar] =
    some [.char (.char 0x3042), .byte (some 0xe3), .char (.char 0x81), .char (.char 97)] := by decide +kernel

/-- A file that ends inside a character: the bytes can still be read from a file, the first is gone from a string port. -/
theorem C28_bug_cut : results (whole [0xe3, 97]) [.readChar, .readByte] = some [.char .error, .byte (some 0xe3)] ∧
    ((run strRaw 40 (make [0xe3, 97]) [.readChar, .readByte]).map fun x => x.1.map Prod.fst) = some [.char .error, .byte (some 97)] := by decide +kernel

end Gauche.InPort

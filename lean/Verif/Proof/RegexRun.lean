import Verif.Spec.Regex
import Verif.Proof.Utf8

/-!
# Running the matcher: fuel, and the text in memory
-/

namespace Gauche.Regex

open Gauche.Utf8 Gauche.Spec.Utf8 Spec

/-! ## fuel -/

/-- `r2` answers like `r1` where `r1` answers. -/
def Ext (r1 r2 : Nat → Nat → Caps → Res) : Prop :=
  ∀ pc pos c, r1 pc pos c ≠ .out → r2 pc pos c = r1 pc pos c

theorem exec_ext {r1 r2 : Nat → Nat → Caps → Res} (h : Ext r1 r2) (cx : Ctx) (op : Op)
    (pc pos : Nat) (cap : Caps) (hn : exec r1 cx op pc pos cap ≠ .out) :
    exec r2 cx op pc pos cap = exec r1 cx op pc pos cap := by
  cases op <;> simp only [exec] at hn ⊢ <;> try rfl
  case try_ =>
    cases h1 : r1 (pc + 2) pos cap with
    | out => rw [h1] at hn; exact absurd rfl hn
    | err => rw [h _ _ _ (by rw [h1]; intro h'; cases h'), h1]
    | done l c => rw [h _ _ _ (by rw [h1]; intro h'; cases h'), h1]
    | fail c =>
      rw [h _ _ _ (by rw [h1]; intro h'; cases h'), h1]
      rw [h1] at hn
      exact h _ _ _ hn
  case begin_ =>
    cases h1 : r1 (pc + 1) pos (cap.setSt (cx.at pc) (some pos)) with
    | out => rw [h1] at hn; exact absurd rfl hn
    | err => rw [h _ _ _ (by rw [h1]; intro h'; cases h'), h1]
    | done l c => rw [h _ _ _ (by rw [h1]; intro h'; cases h'), h1]
    | fail c => rw [h _ _ _ (by rw [h1]; intro h'; cases h'), h1]
  case once =>
    cases h1 : r1 (pc + 2) pos cap with
    | out => rw [h1] at hn; exact absurd rfl hn
    | err => rw [h _ _ _ (by rw [h1]; intro h'; cases h'), h1]
    | fail c => rw [h _ _ _ (by rw [h1]; intro h'; cases h'), h1]
    | done l c =>
      rw [h _ _ _ (by rw [h1]; intro h'; cases h'), h1]
      rw [h1] at hn
      exact h _ _ _ hn
  case assert =>
    cases h1 : r1 (pc + 2) pos cap with
    | out => rw [h1] at hn; exact absurd rfl hn
    | err => rw [h _ _ _ (by rw [h1]; intro h'; cases h'), h1]
    | fail c => rw [h _ _ _ (by rw [h1]; intro h'; cases h'), h1]
    | done l c =>
      rw [h _ _ _ (by rw [h1]; intro h'; cases h'), h1]
      rw [h1] at hn
      exact h _ _ _ hn
  case nassert =>
    cases h1 : r1 (pc + 2) pos cap with
    | out => rw [h1] at hn; exact absurd rfl hn
    | err => rw [h _ _ _ (by rw [h1]; intro h'; cases h'), h1]
    | done l c => rw [h _ _ _ (by rw [h1]; intro h'; cases h'), h1]
    | fail c =>
      rw [h _ _ _ (by rw [h1]; intro h'; cases h'), h1]
      rw [h1] at hn
      exact h _ _ _ hn
  all_goals
    first
    | exact h _ _ _ hn
    | (unfold Ext at h; grind)

theorem rexRec_ext (cx : Ctx) (f : Nat) : Ext (rexRec cx f) (rexRec cx (f + 1)) := by
  induction f with
  | zero => intro pc pos c h; exact absurd rfl h
  | succ f ih =>
    intro pc pos c h
    simp only [rexRec] at h ⊢
    cases ho : opTable[cx.at pc]? with
    | none => rfl
    | some op =>
      rw [ho] at h
      exact exec_ext ih cx op (pc + 1) pos c h

theorem rexRec_mono {cx : Ctx} {f f' pc pos : Nat} {c : Caps} (hf : f ≤ f')
    (h : rexRec cx f pc pos c ≠ .out) : rexRec cx f' pc pos c = rexRec cx f pc pos c := by
  induction hf with
  | refl => rfl
  | step _ ih => rw [← ih]; exact rexRec_ext cx _ pc pos c (by rw [ih]; exact h)

/-- The matcher, started there, answers `r`. -/
def Runs (cx : Ctx) (pc pos : Nat) (c : Caps) (r : Res) : Prop :=
  r ≠ .out ∧ ∃ f, rexRec cx f pc pos c = r

theorem Runs.unique {cx : Ctx} {pc pos : Nat} {c : Caps} {r : Res} (h : Runs cx pc pos c r)
    {f : Nat} (hf : rexRec cx f pc pos c ≠ .out) : rexRec cx f pc pos c = r := by
  obtain ⟨h1, g, h2⟩ := h
  rcases Nat.le_total f g with hl | hl
  · rw [← h2, rexRec_mono hl hf]
  · rw [← h2, rexRec_mono hl (by rw [h2]; exact h1)]

theorem Runs.det {cx : Ctx} {pc pos : Nat} {c : Caps} {r r' : Res} (h : Runs cx pc pos c r)
    (h' : Runs cx pc pos c r') : r = r' := by
  obtain ⟨h1, g, h2⟩ := h'
  rw [← h2]
  exact (h.unique (by rw [h2]; exact h1)).symm

/-- `Runs` as a function that never runs out: what `exec` needs from one round. -/
theorem Runs.step {cx : Ctx} {pc pos : Nat} {c : Caps} {op : Op} {r : Res}
    (ho : opTable[cx.at pc]? = some op) (hr : r ≠ .out)
    (h : ∃ f, ∀ f' ≥ f, exec (rexRec cx f') cx op (pc + 1) pos c = r) : Runs cx pc pos c r := by
  obtain ⟨f, h⟩ := h
  refine ⟨hr, f + 1, ?_⟩
  simp only [rexRec, ho]
  exact h f (Nat.le_refl _)

theorem Runs.eventually {cx : Ctx} {pc pos : Nat} {c : Caps} {r : Res} (h : Runs cx pc pos c r) :
    ∃ f, ∀ f' ≥ f, rexRec cx f' pc pos c = r := by
  obtain ⟨h1, f, h2⟩ := h
  exact ⟨f, fun f' hf => by rw [rexRec_mono hf (by rw [h2]; exact h1), h2]⟩

/-! ## the code in memory -/

/-- The code has the bytes `bs` at address `p`. -/
def At (cx : Ctx) (p : Nat) (bs : List Nat) : Prop :=
  ∀ k (h : k < bs.length), cx.at (p + k) = bs[k]

theorem at_append {cx : Ctx} {p : Nat} {a b : List Nat} :
    At cx p (a ++ b) ↔ At cx p a ∧ At cx (p + a.length) b := by
  constructor
  · intro h
    refine ⟨fun k hk => ?_, fun k hk => ?_⟩
    · rw [h k (by simp; omega), List.getElem_append_left hk]
    · rw [Nat.add_assoc, h (a.length + k) (by simp; omega),
        List.getElem_append_right (by omega)]
      simp
  · rintro ⟨h1, h2⟩ k hk
    by_cases hl : k < a.length
    · rw [h1 k hl, List.getElem_append_left hl]
    · have := h2 (k - a.length) (by simp at hk; omega)
      rw [List.getElem_append_right (by omega), ← this]
      congr 1; omega

theorem at_cons {cx : Ctx} {p x : Nat} {l : List Nat} :
    At cx p (x :: l) ↔ cx.at p = x ∧ At cx (p + 1) l := by
  have := at_append (cx := cx) (p := p) (a := [x]) (b := l)
  rw [List.singleton_append] at this
  rw [this]
  refine and_congr ⟨fun h => h 0 (by simp), fun h k hk => ?_⟩ Iff.rfl
  have : k = 0 := by simp at hk; exact hk
  subst this; exact h

theorem at_nil {cx : Ctx} {p : Nat} : At cx p [] := fun k hk => absurd hk (by simp)

theorem op_byte (o : Op) : opTable[o.byte]? = some o := by cases o <;> rfl

theorem op_at {cx : Ctx} {p : Nat} {o : Op} {l : List Nat} (h : At cx p (o.byte :: l)) :
    opTable[cx.at p]? = some o := by rw [(at_cons.1 h).1]; exact op_byte o

theorem off_length (n : Nat) : (off n).length = 2 := by unfold off; split <;> rfl

/-- There are only bytes in the code: no offset was too large. -/
def Bytes (cx : Ctx) : Prop := ∀ p, cx.at p ≠ 256

theorem at_off {cx : Ctx} {p n : Nat} (hb : Bytes cx) (h : At cx p (off n)) :
    cx.target p = n := by
  unfold off at h
  by_cases hn : n > 65535
  · rw [if_pos hn] at h
    exact absurd (at_cons.1 h).1 (hb p)
  · rw [if_neg hn, at_cons, at_cons] at h
    unfold Ctx.target
    rw [h.1, h.2.1]; omega

/-! ## the text in memory -/

/-- The matcher's context shows the text of the specification.  `ci` and `br` say what
patterns may use. -/
structure Shows (cx : Ctx) (cfg : Cfg) (ci br : Bool) : Prop where
  codes : ∀ x ∈ cfg.text, IsCode x
  holds : Holds cx.mem (encodeAll cfg.text)
  stop : cx.stop = (encodeAll cfg.text).length
  multi : cx.multi = cfg.multi
  down : cx.down = cfg.down
  /-- what follows the text is not part of a word (a string ends with a zero byte) -/
  after : wordConstituent (cx.mem cx.stop) = false
  /-- lower case characters take as many bytes -/
  ci : ci = true → ∀ x ∈ cfg.text, nbytes (cfg.down x) = nbytes x ∧ IsCode (cfg.down x)
  /-- the byte that follows the text does not occur in it -/
  br : br = true → ∀ b ∈ encodeAll cfg.text, b ≠ cx.mem cx.stop

section
variable {cx : Ctx} {cfg : Cfg} {ci br : Bool}

theorem boff_zero : boff cfg 0 = 0 := by simp [boff, encodeAll]

theorem boff_succ {i c : Nat} (h : cfg.text[i]? = some c) :
    boff cfg (i + 1) = boff cfg i + nbytes c := by
  unfold boff
  rw [List.take_succ, h]
  simp [encodeAll, encode_length]

theorem boff_mono {i j : Nat} (h : i ≤ j) : boff cfg i ≤ boff cfg j := by
  unfold boff
  have : cfg.text.take j = cfg.text.take i ++ (cfg.text.take j).drop i := by
    have h1 := List.take_append_drop i (cfg.text.take j)
    rw [List.take_take, Nat.min_eq_left h] at h1
    exact h1.symm
  rw [this, encodeAll_append]
  simp

theorem boff_lt {i j : Nat} (h : i < j) (hj : j ≤ cfg.text.length) : boff cfg i < boff cfg j := by
  have hi : i < cfg.text.length := by omega
  have h1 := boff_succ (cfg := cfg) (List.getElem?_eq_getElem hi)
  have h2 := boff_mono (cfg := cfg) (show i + 1 ≤ j by omega)
  have := (nbytes_pos (cfg.text[i])).1
  omega

theorem boff_inj {i j : Nat} (hi : i ≤ cfg.text.length) (hj : j ≤ cfg.text.length)
    (h : boff cfg i = boff cfg j) : i = j := by
  rcases Nat.lt_trichotomy i j with hl | hl | hl
  · have := boff_lt hl hj; omega
  · exact hl
  · have := boff_lt hl hi; omega

theorem boff_le_iff {i j : Nat} (hi : i ≤ cfg.text.length) :
    boff cfg i ≤ boff cfg j ↔ i ≤ j := by
  constructor
  · intro h
    rcases Nat.lt_or_ge j i with hl | hl
    · have := boff_lt hl hi; omega
    · exact hl
  · exact boff_mono

theorem boff_length : boff cfg cfg.text.length = (encodeAll cfg.text).length := by
  unfold boff; rw [List.take_length]

theorem Shows.boff_stop (S : Shows cx cfg ci br) {i : Nat} (hi : i ≤ cfg.text.length) :
    boff cfg i = cx.stop ↔ i = cfg.text.length := by
  rw [S.stop, ← boff_length]
  exact ⟨boff_inj hi (Nat.le_refl _), fun h => by rw [h]⟩

theorem Shows.boff_le (S : Shows cx cfg ci br) (i : Nat) : boff cfg i ≤ cx.stop := by
  rw [S.stop]
  unfold boff
  have := congrArg (fun l => (encodeAll l).length) (List.take_append_drop i cfg.text)
  simp only [encodeAll_append, List.length_append] at this
  omega

theorem Shows.holdsFrom (S : Shows cx cfg ci br) (i : Nat) :
    Holds (fun k => cx.mem (boff cfg i + k)) (encodeAll (cfg.text.drop i)) := by
  have := S.holds
  rw [← List.take_append_drop i cfg.text, encodeAll_append, holds_append] at this
  exact this.2

theorem Shows.holdsChar (S : Shows cx cfg ci br) {i c : Nat} (h : cfg.text[i]? = some c) :
    Holds (fun k => cx.mem (boff cfg i + k)) (encode c) := by
  have hi : i < cfg.text.length := by
    rcases Nat.lt_or_ge i cfg.text.length with h' | h'
    · exact h'
    · rw [List.getElem?_eq_none h'] at h; cases h
  have := S.holdsFrom i
  rw [List.drop_eq_getElem_cons hi, encodeAll_cons, holds_append] at this
  rw [List.getElem?_eq_getElem hi] at h
  injection h with h
  rw [← h]; exact this.1

theorem Shows.code (S : Shows cx cfg ci br) {i c : Nat} (h : cfg.text[i]? = some c) : IsCode c :=
  S.codes c (List.mem_of_getElem? h)

theorem Shows.getc (S : Shows cx cfg ci br) {i c : Nat} (h : cfg.text[i]? = some c) :
    cx.getc (boff cfg i) = some c :=
  charGet_encode c _ (S.code h) (S.holdsChar h)

theorem Shows.nfollows (S : Shows cx cfg ci br) {i c : Nat} (h : cfg.text[i]? = some c) :
    Utf8.nfollows (cx.mem (boff cfg i)) + 1 = nbytes c := by
  have := lead_len c (S.code h) _ (S.holdsChar h)
  simpa using this

theorem encode_head {c : Nat} (hc : IsCode c) {m : Mem} (h : Holds m (encode c)) :
    (c < 128 → m 0 = c) ∧ (128 ≤ c → 192 ≤ m 0) := by
  have h0 := h 0 (by have := encode_ne_nil c; cases he : encode c with
    | nil => exact absurd he this
    | cons a l => simp)
  rw [h0]
  unfold encode IsCode at *
  constructor
  · intro hl; simp [hl]
  · intro hl
    have : ∃ a l, (if c < 0x80 then [c]
      else if c < 0x800 then [0xc0 + c / 64, 0x80 + c % 64]
      else if c < 0x10000 then [0xe0 + c / 4096, 0x80 + c / 64 % 64, 0x80 + c % 64]
      else if c < 0x200000 then
        [0xf0 + c / 262144, 0x80 + c / 4096 % 64, 0x80 + c / 64 % 64, 0x80 + c % 64]
      else if c < 0x4000000 then
        [0xf8 + c / 16777216, 0x80 + c / 262144 % 64, 0x80 + c / 4096 % 64, 0x80 + c / 64 % 64,
          0x80 + c % 64]
      else
        [0xfc + c / 1073741824, 0x80 + c / 16777216 % 64, 0x80 + c / 262144 % 64,
          0x80 + c / 4096 % 64, 0x80 + c / 64 % 64, 0x80 + c % 64]) = a :: l ∧ 192 ≤ a := by
      rw [if_neg (by omega)]
      repeat' split
      all_goals exact ⟨_, _, rfl, by omega⟩
    obtain ⟨a, l, e, ha⟩ := this
    simp only [e, List.getElem_cons_zero]
    exact ha

theorem Shows.byte (S : Shows cx cfg ci br) {i c : Nat} (h : cfg.text[i]? = some c) :
    (c < 128 → cx.mem (boff cfg i) = c) ∧ (128 ≤ c → 192 ≤ cx.mem (boff cfg i)) := by
  have := encode_head (S.code h) (S.holdsChar h)
  simpa using this

theorem Shows.backward (S : Shows cx cfg ci br) {i c : Nat} (h : cfg.text[i]? = some c) :
    Utf8.backward cx.mem (boff cfg (i + 1)) = some (boff cfg i) := by
  have hi : i < cfg.text.length := by
    rcases Nat.lt_or_ge i cfg.text.length with h' | h'
    · exact h'
    · rw [List.getElem?_eq_none h'] at h; cases h
  have ht : cfg.text.take (i + 1) = cfg.text.take i ++ [c] := by
    rw [List.take_succ, h]; rfl
  have hh := S.holds
  rw [← List.take_append_drop (i + 1) cfg.text, encodeAll_append, holds_append, ht] at hh
  have := backward_encodeAll (cfg.text.take i) c
    (fun x hx => S.codes x (List.mem_of_mem_take hx)) (S.code h) cx.mem hh.1
  unfold boff
  rw [ht]
  exact this
end

end Gauche.Regex

import Verif.Proof.InPortSim
import Verif.Spec.InPort
/-
Proofs about input ports: reading is reading from the sequence of bytes (Spec/InPort.lean).
-/
namespace Gauche.InPort

open Utf8 Gauche.Spec.Utf8 Gauche.Spec.InPort

/-- The kinds of ports that have all their bytes at hand. -/
structure Good (R : Raw (List Nat)) : Prop where
  getb : ∀ l, R.getb l = some (l.head?, l.tail)
  getc0 : R.getc [] = some (.eof, [])
  getc : ∀ c l, IsCode c → ∃ n, R.getc (encode c ++ l) = some (.got (some c) n, l)
  getz : ∀ l n, 1 ≤ n → R.getz l n = some (if l = [] then none else some (l.take n), l.drop n)

theorem holds_memOf (l t : List Nat) : Holds (memOf (l ++ t)) l := by
  intro i hi
  unfold memOf
  rw [List.getD_eq_getElem?_getD, List.getElem?_append_left hi, List.getElem?_eq_getElem hi]; rfl

theorem charGet_memOf (c : Nat) (h : IsCode c) (t : List Nat) : charGet (memOf (encode c ++ t)) = some c :=
  charGet_encode c _ h (holds_memOf _ _)

theorem flat_good : Good flatRaw where
  getb := fun l => rfl
  getc0 := rfl
  getc := by
    intro c l h
    obtain ⟨b, t, e, hn, hr, _, _⟩ := encode_cons c h
    have hg := charGet_memOf c h []
    rw [List.append_nil, e] at hg
    rw [e]
    show ∃ n, (if nfollows b > 0 then
        if nfollows b > (t ++ l).length then some (CRes.cut (b :: (t ++ l)), [])
        else some (.got (charGet (memOf ((b :: (t ++ l)).take (nfollows b + 1)))) (nfollows b), (t ++ l).drop (nfollows b))
      else some (.got (some b) 0, t ++ l)) = _
    by_cases h0 : nfollows b > 0
    · refine ⟨nfollows b, ?_⟩
      rw [if_pos h0, if_neg (by rw [List.length_append]; omega), List.take_succ_cons, hn, List.take_left, List.drop_left, hg]
    · refine ⟨0, ?_⟩
      have ht : t = [] := List.length_eq_zero_iff.1 (by omega)
      subst ht
      have hb : b = c := by
        have hlt : b < 0x80 := by
          rcases hr with hr | hr
          · exact hr
          · rw [nfollows_eq b (by omega)] at h0
            split_ifs at h0 <;> omega
        have h1 : charGet (memOf [b]) = some b := by
          unfold charGet
          rw [if_neg (by show ¬ b ≥ 0x80; omega)]; rfl
        rw [h1] at hg
        exact Option.some.inj hg
      rw [if_neg h0, hb]; rfl
  getz := by
    intro l n hn
    show (if l = [] ∧ n ≠ 0 then some (none, []) else some (some (l.take n), l.drop n)) = _
    by_cases h0 : l = []
    · rw [if_pos ⟨h0, by omega⟩, if_pos h0, h0]; simp
    · rw [if_neg (fun h => h0 h.1), if_neg h0]

theorem str_good : Good strRaw where
  getb := fun l => by cases l <;> rfl
  getc0 := rfl
  getc := by
    intro c l h
    obtain ⟨b, t, e, hn, hr, _, _⟩ := encode_cons c h
    have hg := charGet_memOf c h l
    obtain ⟨n, hf⟩ := flat_good.getc c l h
    refine ⟨n, ?_⟩
    rw [e] at hg hf ⊢
    rw [← hf]
    show (if nfollows b > 0 then
        if nfollows b > (t ++ l).length then some (CRes.cut [], t ++ l)
        else some (.got (charGet (memOf (b :: (t ++ l)))) (nfollows b), (t ++ l).drop (nfollows b))
      else some (.got (some b) 0, t ++ l)) = (if nfollows b > 0 then
        if nfollows b > (t ++ l).length then some (CRes.cut (b :: (t ++ l)), [])
        else some (.got (charGet (memOf ((b :: (t ++ l)).take (nfollows b + 1)))) (nfollows b), (t ++ l).drop (nfollows b))
      else some (.got (some b) 0, t ++ l))
    by_cases h0 : nfollows b > 0
    · have hlt : ¬ nfollows b > (t ++ l).length := by rw [List.length_append]; omega
      have hg2 := charGet_memOf c h []
      rw [List.append_nil, e] at hg2
      rw [if_pos h0, if_pos h0, if_neg hlt, if_neg hlt, List.take_succ_cons, hn, List.take_left, hg2]
      rw [List.cons_append] at hg
      rw [hg]
    · rw [if_neg h0, if_neg h0]
  getz := by
    intro l n hn
    show (if n ≥ l.length then (if l = [] then some (none, []) else some (some l, [])) else some (some (l.take n), l.drop n)) = _
    by_cases h0 : l = []
    · rw [if_pos (by rw [h0]; exact Nat.zero_le _), if_pos h0, if_pos h0, h0]; simp
    · rw [if_neg h0, if_neg h0]
      by_cases h1 : n ≥ l.length
      · rw [if_pos h1, List.take_of_length_le h1, List.drop_of_length_le h1]
      · rw [if_neg h1]

/-- The bytes of the ungotten character. -/
def ungB : Ungotten → List Nat
  | .char c => encode c
  | _ => []

def held (p : Port (List Nat)) : List Nat := p.scratch ++ ungB p.ungotten

structure Abs (p : Port (List Nat)) (s : St) : Prop where
  bytes : s.bytes = held p ++ p.src
  seen : s.seen = (held p).length
  eof : s.eof = true ↔ p.ungotten = .eof
  shape : (p.ungotten = .none ∧ (p.scratch.length ≤ 1 ∨ ∃ c, IsCode c ∧ p.scratch <:+ encode c)) ∨
    (p.scratch = [] ∧ ∃ c, IsCode c ∧ p.ungotten = .char c) ∨ (p.scratch = [] ∧ p.ungotten = .eof ∧ p.src = [])

section
variable {R : Raw (List Nat)} (good : Good R)
include good

theorem getb_abs (p : Port (List Nat)) (s : St) (h : Abs p s) :
    ∃ p', getb R p = some (s.bytes.head?, p') ∧ Abs p' ⟨s.bytes.tail, s.seen - 1, false⟩ := by
  obtain ⟨src, scr, ung, ln⟩ := p
  obtain ⟨l, k, e⟩ := s
  obtain ⟨h1, h2, h3, h4⟩ := h
  unfold held at h1 h2
  dsimp only at *
  unfold getb
  dsimp only
  rcases h4 with ⟨hu, hs⟩ | ⟨hs, c, hc, hu⟩ | ⟨hs, hu, hsrc⟩
  · subst hu
    cases scr with
    | cons b t =>
      refine ⟨_, by rw [h1]; rfl, ⟨by rw [h1]; rfl, by rw [h2]; rfl, by simp, Or.inl ⟨rfl, ?_⟩⟩⟩
      dsimp only
      rcases hs with hs | ⟨c, hc, hs⟩
      · left; rw [List.length_cons] at hs; omega
      · right; exact ⟨c, hc, (List.suffix_cons b t).trans hs⟩
    | nil =>
      rw [good.getb]
      have hl : l = src := by rw [h1]; rfl
      subst hl
      cases l with
      | nil => exact ⟨_, rfl, ⟨rfl, by dsimp only [held]; rw [h2]; rfl, by simp, Or.inl ⟨rfl, Or.inl (Nat.zero_le _)⟩⟩⟩
      | cons b t => exact ⟨_, rfl, ⟨rfl, by dsimp only [held]; rw [h2]; rfl, by simp, Or.inl ⟨rfl, Or.inl (Nat.zero_le _)⟩⟩⟩
  · subst hs hu
    dsimp only
    rw [charPut_eq c hc]
    obtain ⟨b, t, e1, _, _⟩ := encode_cons c hc
    rw [e1]
    have h1' : l = b :: (t ++ src) := by rw [h1]; show encode c ++ src = _; rw [e1]; rfl
    have h2' : k = t.length + 1 := by rw [h2]; show (encode c).length = _; rw [e1]; rfl
    refine ⟨_, by rw [h1']; rfl, ⟨by rw [h1']; simp [held, ungB], by rw [h2']; simp [held, ungB], by simp, Or.inl ⟨rfl, Or.inr ⟨c, hc, ?_⟩⟩⟩⟩
    rw [e1]; exact List.suffix_cons b t
  · subst hs hu hsrc
    have hl : l = [] := by rw [h1]; rfl
    subst hl
    exact ⟨_, rfl, ⟨rfl, by rw [h2]; rfl, by simp, Or.inl ⟨rfl, Or.inl (Nat.zero_le _)⟩⟩⟩

theorem getMore_abs (n : Nat) : ∀ (p : Port (List Nat)) (l : List Nat), Abs p ⟨l, 0, false⟩ → n ≤ l.length →
    ∃ p', getMore R n p = some (some (l.take n), p') ∧ Abs p' ⟨l.drop n, 0, false⟩ := by
  induction n with
  | zero => intro p l h _; exact ⟨p, rfl, h⟩
  | succ n ih =>
    intro p l h hn
    unfold getMore
    obtain ⟨p', e, h'⟩ := getb_abs good p _ h
    dsimp only at e h'
    rw [e]
    cases l with
    | nil => simp at hn
    | cons b t =>
      dsimp only [List.head?]
      obtain ⟨p'', e2, h2⟩ := ih p' t h' (by simpa using hn)
      rw [e2]
      exact ⟨p'', rfl, h2⟩

omit good in
/-- The bytes held. -/
theorem held_cases {p : Port (List Nat)} {s : St} (h : Abs p s) : (held p).length ≤ 1 ∨ ∃ c, IsCode c ∧ held p <:+ encode c := by
  obtain ⟨h1, h2, h3, h4⟩ := h
  unfold held
  rcases h4 with ⟨hu, hs⟩ | ⟨hs, c, hc, hu⟩ | ⟨hs, hu, hsrc⟩
  · rw [hu]; show (p.scratch ++ []).length ≤ 1 ∨ ∃ c, IsCode c ∧ p.scratch ++ [] <:+ encode c; rw [List.append_nil]; exact hs
  · right; refine ⟨c, hc, ?_⟩; rw [hs, hu]; exact List.suffix_refl _
  · left; rw [hs, hu]; exact Nat.zero_le _

omit good in
/-- The bytes held are no more than the character at the front. -/
theorem held_le {p : Port (List Nat)} {c : Nat} {l : List Nat} {k : Nat} {e : Bool} (hc : IsCode c) (h : Abs p ⟨encode c ++ l, k, e⟩) :
    (held p).length ≤ (encode c).length := by
  have hne := encode_ne_nil c
  have hpos : 1 ≤ (encode c).length := List.length_pos_iff.2 hne
  rcases held_cases h with hs | ⟨d, hd, hs⟩
  · omega
  · obtain ⟨pre, hp⟩ := hs
    have hb : encode c ++ l = held p ++ p.src := h.bytes
    obtain ⟨b, t, e1, _, e3, _, _⟩ := encode_cons c hc
    obtain ⟨b', t', e1', _, e3', _, e4'⟩ := encode_cons d hd
    cases pre with
    | nil =>
      rw [List.nil_append] at hp
      rw [hp] at hb
      have := encode_prefix hc hd hb
      rw [hp, this]
    | cons x pre =>
      cases hh : held p with
      | nil => exact Nat.zero_le _
      | cons y t2 =>
        rw [hh, e1] at hb
        have hby : b = y := (List.cons.inj hb).1
        rw [e1', hh] at hp
        have hmem : y ∈ t' := by rw [← (List.cons.inj hp).2]; simp
        have := e4' y hmem
        omega

theorem getc_abs (p : Port (List Nat)) (c : Nat) (l : List Nat) (k : Nat) (e : Bool) (hc : IsCode c) (h : Abs p ⟨encode c ++ l, k, e⟩) :
    ∃ p', getc R p = some (.char c, p') ∧ Abs p' ⟨l, 0, false⟩ := by
  have hle := held_le hc h
  obtain ⟨src, scr, ung, ln⟩ := p
  obtain ⟨h1, h2, h3, h4⟩ := h
  unfold held at h1 h2 hle
  dsimp only at *
  unfold getc
  dsimp only
  have clean : ∀ (ln : Nat), Abs { src := l, scratch := [], ungotten := .none, line := ln } ⟨l, 0, false⟩ :=
    fun ln => ⟨rfl, rfl, by simp, Or.inl ⟨rfl, Or.inl (Nat.zero_le _)⟩⟩
  rcases h4 with ⟨hu, hs⟩ | ⟨hs, c', hc', hu⟩ | ⟨hs, hu, hsrc⟩
  · subst hu
    rw [show ungB .none = [] from rfl, List.append_nil] at h1 hle
    by_cases hne : scr ≠ []
    · rw [if_pos hne]
      unfold getcScratch
      dsimp only
      obtain ⟨b, t, e1, e2, _⟩ := encode_cons c hc
      have hhead : scr.headD 0 = b := by
        cases scr with
        | nil => exact absurd rfl hne
        | cons x u => rw [e1] at h1; exact (List.cons.inj h1).1.symm
      have hlen : (encode c).length = nfollows b + 1 := by rw [e1, e2]; rfl
      rw [hhead]
      have hpre : scr = (encode c).take scr.length := by
        have := congrArg (List.take scr.length) h1
        rw [List.take_left, List.take_append_of_le_length hle] at this
        exact this.symm
      have hsrc : src = (encode c).drop scr.length ++ l := by
        have := congrArg (List.drop scr.length) h1
        rw [List.drop_left, List.drop_append_of_le_length hle] at this
        exact this.symm
      have hA : Abs { src := src, scratch := [], ungotten := .none, line := ln } ⟨src, 0, false⟩ :=
        ⟨rfl, rfl, by simp, Or.inl ⟨rfl, Or.inl (Nat.zero_le _)⟩⟩
      obtain ⟨p', e3, e4⟩ := getMore_abs good (nfollows b + 1 - scr.length) _ src hA (by rw [hsrc, List.length_append, List.length_drop]; omega)
      rw [e3]
      dsimp only
      have htk : src.take (nfollows b + 1 - scr.length) = (encode c).drop scr.length := by
        rw [hsrc, List.take_append_of_le_length (by rw [List.length_drop]; omega), List.take_of_length_le (by rw [List.length_drop]; omega)]
      have hdr : src.drop (nfollows b + 1 - scr.length) = l := by
        rw [hsrc, List.drop_append, List.length_drop, List.drop_of_length_le (by rw [List.length_drop]; omega), List.nil_append]
        rw [show nfollows b + 1 - scr.length - ((encode c).length - scr.length) = 0 by omega]; rfl
      have hfull : scr ++ src.take (nfollows b + 1 - scr.length) = encode c := by
        rw [htk]; conv_lhs => rw [hpre]
        rw [List.length_take, Nat.min_eq_left hle, List.take_append_drop]
      have hg := charGet_memOf c hc []
      rw [List.append_nil] at hg
      rw [hfull, hg]
      rw [hdr] at e4
      exact ⟨p', rfl, e4⟩
    · rw [if_neg hne]
      have hs0 : scr = [] := by simpa using hne
      subst hs0
      rw [List.nil_append] at h1
      subst h1
      obtain ⟨n, hg⟩ := good.getc c l hc
      dsimp only
      rw [hg]
      exact ⟨_, rfl, clean _⟩
  · subst hs hu
    rw [if_neg (by simp)]
    have he : encode c' ++ src = encode c ++ l := h1.symm
    have hcc := encode_prefix hc' hc he
    subst hcc
    have := List.append_cancel_left he
    subst this
    exact ⟨_, rfl, clean _⟩
  · subst hs hu hsrc
    have : encode c ++ l = [] := h1
    exact absurd (List.append_eq_nil_iff.1 this).1 (encode_ne_nil c)

omit good in
theorem abs_empty {p : Port (List Nat)} {k : Nat} {e : Bool} (h : Abs p ⟨[], k, e⟩) :
    p.scratch = [] ∧ p.src = [] ∧ (p.ungotten = .none ∨ p.ungotten = .eof) := by
  have hb : [] = p.scratch ++ ungB p.ungotten ++ p.src := h.bytes
  have hb := List.append_eq_nil_iff.1 hb.symm
  have hb1 := List.append_eq_nil_iff.1 hb.1
  refine ⟨hb1.1, hb.2, ?_⟩
  cases hu : p.ungotten with
  | none => left; rfl
  | eof => right; rfl
  | char c => rw [hu] at hb1; exact absurd hb1.2 (encode_ne_nil c)

theorem getc_eof (p : Port (List Nat)) (k : Nat) (e : Bool) (h : Abs p ⟨[], k, e⟩) :
    ∃ p', getc R p = some (.eof, p') ∧ Abs p' ⟨[], 0, false⟩ := by
  obtain ⟨h1, h2, h3⟩ := abs_empty h
  obtain ⟨src, scr, ung, ln⟩ := p
  dsimp only at h1 h2 h3
  subst h1 h2
  unfold getc
  dsimp only
  rw [if_neg (by simp)]
  have clean : Abs { src := [], scratch := [], ungotten := .none, line := ln } ⟨[], 0, false⟩ :=
    ⟨rfl, rfl, by simp, Or.inl ⟨rfl, Or.inl (Nat.zero_le _)⟩⟩
  rcases h3 with h3 | h3
  · subst h3
    dsimp only
    rw [good.getc0]
    exact ⟨_, rfl, clean⟩
  · subst h3
    exact ⟨_, rfl, clean⟩

omit good in
theorem clean_of {p : Port (List Nat)} {l : List Nat} (h : Abs p ⟨l, 0, false⟩) : p.scratch = [] ∧ p.ungotten = .none ∧ p.src = l := by
  have hs := h.seen
  unfold held at hs
  dsimp only at hs
  rw [List.length_append] at hs
  have h1 : p.scratch = [] := List.length_eq_zero_iff.1 (by omega)
  have h2 : p.ungotten = .none := by
    cases hu : p.ungotten with
    | none => rfl
    | eof => have := h.eof.2 hu; simp at this
    | char c =>
      rw [hu] at hs
      have : (encode c).length = 0 := by change 0 = p.scratch.length + (encode c).length at hs; omega
      exact absurd (List.length_eq_zero_iff.1 this) (encode_ne_nil c)
  refine ⟨h1, h2, ?_⟩
  have := h.bytes
  unfold held at this
  rw [h1, h2] at this
  exact this.symm

theorem peekc_abs (p : Port (List Nat)) (c : Nat) (l : List Nat) (k : Nat) (e : Bool) (hc : IsCode c) (h : Abs p ⟨encode c ++ l, k, e⟩) :
    ∃ p', peekc R p = some (.char c, p') ∧ Abs p' ⟨encode c ++ l, (encode c).length, false⟩ := by
  have key : p.ungotten = .none → ∃ p', peekc R p = some (.char c, p') ∧ Abs p' ⟨encode c ++ l, (encode c).length, false⟩ := by
    intro hu
    unfold peekc
    rw [hu]
    dsimp only
    obtain ⟨p', e1, e2⟩ := getc_abs good p c l k e hc h
    rw [e1]
    obtain ⟨q1, q2, q3⟩ := clean_of e2
    refine ⟨_, rfl, ⟨?_, ?_, by simp, Or.inr (Or.inl ⟨q1, c, hc, rfl⟩)⟩⟩
    · show encode c ++ l = (p'.scratch ++ encode c) ++ p'.src; rw [q1, q3]; rfl
    · show _ = (p'.scratch ++ encode c).length; rw [q1]; rfl
  rcases h.shape with ⟨hu, hs⟩ | ⟨hs, c', hc', hu⟩ | ⟨hs, hu, hsrc⟩
  · exact key hu
  · have hb : encode c ++ l = p.scratch ++ ungB p.ungotten ++ p.src := h.bytes
    rw [hs, hu] at hb
    have hcc : c = c' := encode_prefix hc hc' hb
    subst hcc
    refine ⟨p, by unfold peekc; rw [hu], ⟨h.bytes, ?_, ?_, h.shape⟩⟩
    · unfold held; rw [hs, hu]; rfl
    · rw [hu]; simp
  · have hb : encode c ++ l = p.scratch ++ ungB p.ungotten ++ p.src := h.bytes
    rw [hs, hu, hsrc] at hb
    exact absurd (List.append_eq_nil_iff.1 hb).1 (encode_ne_nil c)

omit good in
theorem abs_eof {p : Port (List Nat)} (h1 : p.scratch = []) (h2 : p.src = []) (h3 : p.ungotten = .eof) : Abs p ⟨[], 0, true⟩ :=
  ⟨by unfold held; rw [h1, h2, h3]; rfl, by unfold held; rw [h1, h3]; rfl, by rw [h3]; simp, Or.inr (Or.inr ⟨h1, h3, h2⟩)⟩

theorem peekc_eof (p : Port (List Nat)) (k : Nat) (e : Bool) (h : Abs p ⟨[], k, e⟩) :
    ∃ p', peekc R p = some (.eof, p') ∧ Abs p' ⟨[], 0, true⟩ := by
  obtain ⟨h1, h2, h3⟩ := abs_empty h
  unfold peekc
  rcases h3 with h3 | h3
  · rw [h3]
    dsimp only
    obtain ⟨p', e1, e2⟩ := getc_eof good p k e h
    rw [e1]
    obtain ⟨q1, q2, q3⟩ := clean_of e2
    exact ⟨_, rfl, abs_eof q1 q3 rfl⟩
  · rw [h3]
    exact ⟨p, rfl, abs_eof h1 h2 h3⟩

theorem peekb_abs (p : Port (List Nat)) (b : Nat) (l : List Nat) (k : Nat) (e : Bool) (h : Abs p ⟨b :: l, k, e⟩) :
    ∃ p', peekb R p = some (some b, p') ∧ Abs p' ⟨b :: l, max k 1, false⟩ := by
  unfold peekb
  have hb : b :: l = p.scratch ++ ungB p.ungotten ++ p.src := h.bytes
  have hk : k = (p.scratch ++ ungB p.ungotten).length := h.seen
  cases hs : p.scratch with
  | cons x t =>
    rw [hs] at hb
    have hx : b = x := (List.cons.inj hb).1
    subst hx
    refine ⟨p, rfl, ⟨h.bytes, ?_, ?_, h.shape⟩⟩
    · show max k 1 = (p.scratch ++ ungB p.ungotten).length
      rw [hk, hs, List.cons_append, List.length_cons]; omega
    · rcases h.shape with ⟨hu, _⟩ | ⟨hs', _⟩ | ⟨hs', _⟩
      · rw [hu]; simp
      · rw [hs] at hs'; simp at hs'
      · rw [hs] at hs'; simp at hs'
  | nil =>
    dsimp only
    obtain ⟨p', e1, e2⟩ := getb_abs good p _ h
    dsimp only [List.head?, List.tail] at e1 e2
    rw [e1]
    rw [hs, List.nil_append] at hk hb
    have hb2 : l = p'.scratch ++ ungB p'.ungotten ++ p'.src := e2.bytes
    have hk2 : k - 1 = (p'.scratch ++ ungB p'.ungotten).length := e2.seen
    refine ⟨_, rfl, ⟨?_, ?_, ?_, ?_⟩⟩
    · show b :: l = b :: p'.scratch ++ ungB p'.ungotten ++ p'.src; rw [hb2]; rfl
    · show max k 1 = (b :: p'.scratch ++ ungB p'.ungotten).length
      rw [List.cons_append, List.length_cons, ← hk2]; omega
    · exact e2.eof
    · left
      rcases h.shape with ⟨hu, _⟩ | ⟨_, c, hc, hu⟩ | ⟨_, hu, hsrc⟩
      · rw [hu] at hk
        have : k = 0 := hk
        subst this
        obtain ⟨q1, q2, q3⟩ := clean_of e2
        exact ⟨q2, Or.inl (by show (b :: p'.scratch).length ≤ 1; rw [q1]; exact le_refl _)⟩
      · -- the character's bytes are now all in the scratch area
        have hp' : p'.ungotten = .none ∧ p'.scratch = (encode c).tail := by
          have e1' := e1
          unfold getb at e1'
          rw [hs, hu] at e1'
          dsimp only at e1'
          rw [charPut_eq c hc] at e1'
          cases hec : encode c with
          | nil => exact absurd hec (encode_ne_nil c)
          | cons y t =>
            rw [hec] at e1'
            dsimp only at e1'
            injection e1' with e1'
            injection e1' with _ e1'
            rw [← e1']
            exact ⟨rfl, rfl⟩
        refine ⟨hp'.1, Or.inr ⟨c, hc, ?_⟩⟩
        show b :: p'.scratch <:+ encode c
        rw [hp'.2]
        rw [hu] at hb
        have hb' : b :: l = encode c ++ p.src := hb
        cases hec : encode c with
        | nil => exact absurd hec (encode_ne_nil c)
        | cons y t => rw [hec] at hb'; rw [(List.cons.inj hb').1]; exact List.suffix_refl _
      · rw [hu, hsrc] at hb; simp [ungB] at hb

theorem peekb_eof (p : Port (List Nat)) (k : Nat) (e : Bool) (h : Abs p ⟨[], k, e⟩) :
    ∃ p', peekb R p = some (none, p') ∧ Abs p' ⟨[], 0, true⟩ := by
  obtain ⟨h1, h2, h3⟩ := abs_empty h
  unfold peekb
  rw [h1]
  dsimp only
  obtain ⟨p', e1, e2⟩ := getb_abs good p _ h
  dsimp only [List.head?, List.tail] at e1 e2
  rw [e1]
  obtain ⟨q1, q2, _⟩ := abs_empty e2
  exact ⟨_, rfl, abs_eof q1 q2 rfl⟩

theorem getz_abs (p : Port (List Nat)) (l : List Nat) (k n : Nat) (hn : 1 ≤ n) (hk : k = 0 ∨ n ≤ k ∨ k < l.length) (h : Abs p ⟨l, k, false⟩) :
    ∃ p', getz R 3 p n = some (if l = [] then none else some (l.take n), p') ∧ Abs p' ⟨l.drop n, k - n, false⟩ := by
  have base : ∀ (fuel : Nat) (p : Port (List Nat)) (l : List Nat) (n : Nat), 1 ≤ n → Abs p ⟨l, 0, false⟩ →
      ∃ p', getz R (fuel + 1) p n = some (if l = [] then none else some (l.take n), p') ∧ Abs p' ⟨l.drop n, 0, false⟩ := by
    intro fuel p l n hn h
    obtain ⟨q1, q2, q3⟩ := clean_of h
    unfold getz
    rw [if_neg (by rw [q1, q2]; simp), q3, good.getz l n hn]
    refine ⟨_, rfl, ⟨?_, ?_, ?_, ?_⟩⟩
    · show l.drop n = p.scratch ++ ungB p.ungotten ++ l.drop n; rw [q1, q2]; rfl
    · show 0 = (p.scratch ++ ungB p.ungotten).length; rw [q1, q2]; rfl
    · show false = true ↔ p.ungotten = .eof; rw [q2]; simp
    · left; exact ⟨q2, Or.inl (by show p.scratch.length ≤ 1; rw [q1]; exact Nat.zero_le _)⟩
  by_cases h0 : k = 0
  · subst h0
    obtain ⟨p', e1, e2⟩ := base 2 p l n hn h
    exact ⟨p', e1, by rw [Nat.zero_sub]; exact e2⟩
  · have hue : p.ungotten ≠ .eof := by intro hu; have := h.eof.2 hu; simp at this
    have hb : l = p.scratch ++ ungB p.ungotten ++ p.src := h.bytes
    have hkk : k = (p.scratch ++ ungB p.ungotten).length := h.seen
    -- what is held, and the port with it removed
    have hscr : (if p.scratch ≠ [] then p.scratch else ungottenBytes p.ungotten) = p.scratch ++ ungB p.ungotten ∧
        (if p.scratch ≠ [] then p.ungotten else .none) = .none ∧ (p.scratch ≠ [] ∨ p.ungotten ≠ .none) ∧
        (p.scratch.length ≤ 1 ∧ p.ungotten = .none ∨ ∃ c, IsCode c ∧ p.scratch ++ ungB p.ungotten <:+ encode c) := by
      rcases h.shape with ⟨hu, hs⟩ | ⟨hs, c, hc, hu⟩ | ⟨hs, hu, hsrc⟩
      · have hne : p.scratch ≠ [] := by
          intro hs; rw [hs, hu] at hkk; exact h0 hkk
        rw [hu, if_pos hne, if_pos hne, show ungB .none = [] from rfl, List.append_nil]
        refine ⟨rfl, rfl, Or.inl hne, ?_⟩
        rcases hs with hs | hs
        · exact Or.inl ⟨hs, rfl⟩
        · exact Or.inr hs
      · rw [hs, hu]
        refine ⟨?_, by simp, by simp, Or.inr ⟨c, hc, List.suffix_refl _⟩⟩
        rw [if_neg (by simp)]; exact charPut_eq c hc
      · exact absurd hu hue
    obtain ⟨hs1, hs2, hs3, hs4⟩ := hscr
    unfold getz
    rw [if_pos hs3]
    dsimp only
    rw [hs1, hs2]
    have hlen : k ≤ l.length := by rw [hb, List.length_append]; omega
    have hl : l ≠ [] := by intro hl; rw [hl] at hlen; exact h0 (Nat.le_zero.1 hlen)
    generalize hH : p.scratch ++ ungB p.ungotten = H at *
    by_cases hn2 : H.length ≥ n
    · rw [if_pos hn2, if_neg hl]
      have e1 : l.take n = H.take n := by rw [hb, List.take_append_of_le_length hn2]
      rw [e1]
      refine ⟨_, rfl, ⟨?_, ?_, by simp, Or.inl ⟨rfl, ?_⟩⟩⟩
      · show l.drop n = H.drop n ++ [] ++ p.src; rw [hb, List.drop_append_of_le_length hn2, List.append_nil]
      · show k - n = (H.drop n ++ []).length; rw [List.append_nil, List.length_drop, hkk]
      · rcases hs4 with ⟨q, hu⟩ | ⟨c, hc, q⟩
        · left; show (H.drop n).length ≤ 1; rw [List.length_drop]
          have : H.length ≤ 1 := by rw [← hH, hu]; simpa [ungB] using q
          omega
        · right; exact ⟨c, hc, (List.drop_suffix n H).trans q⟩
    · rw [if_neg hn2, if_neg hl]
      have hsrc : p.src ≠ [] := by
        intro hs
        rw [hs, List.append_nil] at hb
        rw [hb] at hk
        omega
      obtain ⟨p', e1, e2⟩ := base 1 { p with scratch := [], ungotten := .none } p.src (n - H.length) (by omega)
        ⟨rfl, rfl, by simp, Or.inl ⟨rfl, Or.inl (Nat.zero_le _)⟩⟩
      rw [e1, if_neg hsrc]
      refine ⟨p', ?_, ?_⟩
      · rw [hb, List.take_append, List.take_of_length_le (show H.length ≤ n by omega)]
      · rw [hb, List.drop_append, List.drop_of_length_le (show H.length ≤ n by omega), List.nil_append, hkk,
          show H.length - n = 0 by omega]
        exact e2

theorem lineLoop_abs (l stop rest : List Nat) (hl : IsLine l stop rest) (fuel : Nat) : ∀ (ds' : List Nat) (p : Port (List Nat)) (b1 : Nat) (bytes : List Nat)
    (k : Nat) (acc : List Nat), Abs p ⟨bytes, k, false⟩ → bytes.length + 2 ≤ fuel → ds' <:+ l → b1 :: bytes = ds' ++ stop ++ rest →
    (k = 0 ∨ (0x80 ≤ b1 ∧ ∀ x ∈ held p, 0x80 ≤ x)) →
    ∃ p', lineLoop R fuel p (some b1) acc = some (.line (acc ++ ds'), p') ∧ Abs p' ⟨rest, if stop = [13] ∧ rest ≠ [] then 1 else 0, false⟩ := by
  have hup : ∀ {p : Port (List Nat)} {s : St}, Abs p s → Abs { p with line := p.line + 1 } s := fun h => ⟨h.bytes, h.seen, h.eof, h.shape⟩
  induction fuel with
  | zero => intro ds' p b1 bytes k acc _ hf; omega
  | succ fuel ih =>
    intro ds' p b1 bytes k acc h hf hsuf heq hhi
    unfold lineLoop
    dsimp only
    cases ds' with
    | cons x ds =>
      have hb : b1 = x := (List.cons.inj heq).1
      have hbytes : bytes = ds ++ stop ++ rest := (List.cons.inj heq).2
      have hx := hl.1 x (hsuf.mem List.mem_cons_self)
      subst hb
      rw [if_neg hx.1, if_neg hx.2]
      obtain ⟨p', e1, e2⟩ := getb_abs good p _ h
      dsimp only at e1 e2
      rw [e1]
      dsimp only
      cases bytes with
      | nil =>
        have hnil := List.append_eq_nil_iff.1 hbytes.symm
        have hnil2 := List.append_eq_nil_iff.1 hnil.1
        rw [hnil.2, hnil2.1, hnil2.2]
        dsimp only [List.head?]
        have : lineLoop R fuel p' none (acc ++ [b1]) = some (.line (acc ++ [b1]), p') := by
          cases fuel with
          | zero => simp at hf
          | succ f => rfl
        rw [this]
        have hk0 : k = 0 := by
          have h1 := h.bytes
          have h2 := h.seen
          dsimp only at h1 h2
          have := (List.append_eq_nil_iff.1 h1.symm).1
          rw [h2, this]; rfl
        subst hk0
        refine ⟨p', rfl, ?_⟩
        rw [if_neg (by simp)]; exact e2
      | cons y bs =>
        dsimp only [List.head?, List.tail] at e2 ⊢
        obtain ⟨p'', g1, g2⟩ := ih ds p' y bs (k - 1) (acc ++ [b1]) e2 (by simp at hf; omega) ((List.suffix_cons b1 ds).trans hsuf) hbytes (by
          by_cases hk : k ≤ 1
          · left; omega
          · right
            rcases hhi with hhi | ⟨_, hhi⟩
            · omega
            · have h1 : y :: bs = held p ++ p.src := h.bytes
              have h2 : k = (held p).length := h.seen
              have h3 : bs = held p' ++ p'.src := e2.bytes
              have h4 : k - 1 = (held p').length := e2.seen
              cases hh : held p with
              | nil => rw [hh] at h2; simp at h2; omega
              | cons z zs =>
                rw [hh] at h1 h2 hhi
                have hy : y = z := (List.cons.inj h1).1
                have hbs : bs = zs ++ p.src := (List.cons.inj h1).2
                have hzs : held p' = zs := by
                  have e : held p' ++ p'.src = zs ++ p.src := by rw [← h3, hbs]
                  have := congrArg (List.take (k - 1)) e
                  rw [h4, List.take_left] at this
                  rw [this, List.take_append_of_le_length (by rw [← h4]; simp at h2; omega)]
                  rw [← h4, List.take_of_length_le (by simp at h2; omega)]
                refine ⟨by rw [hy]; exact hhi z List.mem_cons_self, fun x hx => hhi x ?_⟩
                rw [hzs] at hx; exact List.mem_cons_of_mem _ hx)
        rw [g1]
        exact ⟨p'', by rw [List.append_assoc]; rfl, g2⟩
    | nil =>
      rw [List.nil_append] at heq
      rw [List.append_nil]
      have hkz : b1 < 0x80 → k = 0 := by
        intro hlt
        rcases hhi with hhi | hhi
        · exact hhi
        · omega
      rcases hl.2 with hst | hst | ⟨hst, hnx⟩ | ⟨hst, hr⟩
      · subst hst
        have hb : b1 = 10 := (List.cons.inj heq).1
        have hbs : bytes = rest := (List.cons.inj heq).2
        subst hb hbs
        have := hkz (by omega)
        subst this
        rw [if_pos rfl, if_neg (by simp)]
        exact ⟨_, rfl, hup h⟩
      · subst hst
        have hb : b1 = 13 := (List.cons.inj heq).1
        have hbs : bytes = 10 :: rest := (List.cons.inj heq).2
        subst hb hbs
        have := hkz (by omega)
        subst this
        rw [if_neg (by omega), if_pos rfl, if_neg (by simp)]
        obtain ⟨p', e1, e2⟩ := getb_abs good p _ h
        dsimp only [List.head?, List.tail] at e1 e2
        rw [e1]
        dsimp only
        rw [if_pos rfl]
        exact ⟨_, rfl, hup e2⟩
      · subst hst
        have hb : b1 = 13 := (List.cons.inj heq).1
        have hbs : bytes = rest := (List.cons.inj heq).2
        subst hb hbs
        have := hkz (by omega)
        subst this
        rw [if_neg (by omega), if_pos rfl]
        obtain ⟨p', e1, e2⟩ := getb_abs good p _ h
        dsimp only at e1 e2
        rw [e1]
        cases bytes with
        | nil =>
          dsimp only [List.head?]
          rw [if_neg (by simp)]
          exact ⟨_, rfl, hup e2⟩
        | cons y bs =>
          dsimp only [List.head?, List.tail] at e2 hnx ⊢
          rw [if_neg (by intro h; exact hnx (by rw [h])), if_pos (by simp)]
          obtain ⟨q1, q2, q3⟩ := clean_of e2
          have hu : ungetb p' y = some { p' with scratch := p'.scratch ++ [y] } := by
            unfold ungetb
            rw [if_neg (by rw [q1, q2]; simp)]
          rw [hu]
          dsimp only
          refine ⟨_, rfl, ⟨?_, ?_, ?_, Or.inl ⟨q2, Or.inl ?_⟩⟩⟩
          · show y :: bs = (p'.scratch ++ [y]) ++ ungB p'.ungotten ++ p'.src; rw [q1, q2, q3]; rfl
          · show 1 = ((p'.scratch ++ [y]) ++ ungB p'.ungotten).length; rw [q1, q2]; rfl
          · show false = true ↔ p'.ungotten = .eof; rw [q2]; simp
          · show (p'.scratch ++ [y]).length ≤ 1; rw [q1]; exact le_refl _
      · subst hst hr
        simp at heq

omit good in
theorem abs_any_eof {p : Port (List Nat)} {l : List Nat} {k : Nat} {e : Bool} (h : Abs p ⟨l, k, e⟩) (hl : l ≠ []) : e = false := by
  cases e with
  | false => rfl
  | true =>
    have := h.eof.1 rfl
    rcases h.shape with ⟨hu, _⟩ | ⟨_, c, _, hu⟩ | ⟨hs, hu, hsrc⟩
    · rw [this] at hu; simp at hu
    · rw [this] at hu; simp at hu
    · have hb : l = p.scratch ++ ungB p.ungotten ++ p.src := h.bytes
      rw [hs, hu, hsrc] at hb
      exact absurd hb hl

theorem readLine_abs (l stop rest : List Nat) (hl : IsLine l stop rest) (hne : l ++ stop ++ rest ≠ []) (fuel : Nat) (p : Port (List Nat)) (k : Nat) (e : Bool)
    (h : Abs p ⟨l ++ stop ++ rest, k, e⟩) (hf : (l ++ stop ++ rest).length + 2 ≤ fuel) :
    ∃ p', readLine R fuel p = some (.line l, p') ∧ Abs p' ⟨rest, if stop = [13] ∧ rest ≠ [] then 1 else 0, false⟩ := by
  have he := abs_any_eof h hne
  subst he
  unfold readLine
  obtain ⟨p', e1, e2⟩ := getb_abs good p _ h
  dsimp only at e1 e2
  rw [e1]
  generalize hB : l ++ stop ++ rest = B at *
  cases B with
  | nil => exact absurd rfl hne
  | cons b bs =>
    dsimp only [List.head?, List.tail] at e2 ⊢
    obtain ⟨p'', g1, g2⟩ := lineLoop_abs good l stop rest hl fuel l p' b bs (k - 1) [] e2 (by simp at hf; omega) (List.suffix_refl _) hB.symm (by
      by_cases hk : k ≤ 1
      · left; omega
      · right
        have h1 : b :: bs = held p ++ p.src := h.bytes
        have h2 : k = (held p).length := h.seen
        have h3 : bs = held p' ++ p'.src := e2.bytes
        have h4 : k - 1 = (held p').length := e2.seen
        rcases held_cases h with hc | ⟨c, hc, hs⟩
        · omega
        · have hall : ∀ x ∈ held p, 0x80 ≤ x := by
            obtain ⟨y, t, q1, q2, q3, _, q4⟩ := encode_cons c hc
            have hlen : 2 ≤ (encode c).length := by have := hs.length_le; omega
            intro x hx
            have hx2 := hs.mem hx
            rw [q1] at hx2 hlen
            rcases List.mem_cons.1 hx2 with hx2 | hx2
            · subst hx2
              rcases q3 with q3 | q3
              · exfalso
                have : nfollows x = 0 := by
                  have := nfollows_eq x (by omega)
                  rw [this]; rw [if_pos (by omega)]
                rw [List.length_cons] at hlen
                omega
              · omega
            · exact (q4 x hx2).1
          cases hh : held p with
          | nil => rw [hh] at h2; simp at h2; omega
          | cons z zs =>
            rw [hh] at h1 h2 hall
            have hy : b = z := (List.cons.inj h1).1
            have hbs : bs = zs ++ p.src := (List.cons.inj h1).2
            have hzs : held p' = zs := by
              have e : held p' ++ p'.src = zs ++ p.src := by rw [← h3, hbs]
              have := congrArg (List.take (k - 1)) e
              rw [h4, List.take_left] at this
              rw [this, List.take_append_of_le_length (by rw [← h4]; simp at h2; omega)]
              rw [← h4, List.take_of_length_le (by simp at h2; omega)]
            refine ⟨by rw [hy]; exact hall z List.mem_cons_self, fun x hx => hall x ?_⟩
            rw [hzs] at hx; exact List.mem_cons_of_mem _ hx)
    rw [g1]
    exact ⟨p'', by rw [List.nil_append], g2⟩

theorem readString_abs (n : Nat) : ∀ (cs l : List Nat) (k : Nat) (e : Bool) (p : Port (List Nat)), 1 ≤ n → (∀ c ∈ cs, IsCode c) →
    (cs.length = n ∨ (cs.length < n ∧ l = [])) → Abs p ⟨encodeAll cs ++ l, k, e⟩ →
    ∃ p', readString R n p = some (cs.map Chr.char, p') ∧ Abs p' ⟨l, 0, false⟩ := by
  induction n with
  | zero => intro cs l k e p hn; omega
  | succ n ih =>
    intro cs l k e p _ hc hlen h
    unfold readString
    cases cs with
    | nil =>
      have hl : l = [] := by rcases hlen with hlen | hlen; · simp at hlen
                             · exact hlen.2
      subst hl
      obtain ⟨p', e1, e2⟩ := getc_eof good p k e h
      rw [e1]
      exact ⟨p', rfl, e2⟩
    | cons c cs =>
      rw [encodeAll_cons, List.append_assoc] at h
      obtain ⟨p', e1, e2⟩ := getc_abs good p c _ k e (hc c List.mem_cons_self) h
      rw [e1]
      dsimp only
      by_cases hn : n = 0
      · subst hn
        have hcs : cs = [] := by
          rw [List.length_cons] at hlen
          exact List.length_eq_zero_iff.1 (by omega)
        subst hcs
        exact ⟨p', rfl, e2⟩
      · obtain ⟨p'', g1, g2⟩ := ih cs l 0 false p' (by omega) (fun c h => hc c (List.mem_cons_of_mem _ h))
          (by rw [List.length_cons] at hlen
              rcases hlen with hlen | ⟨hlen, hl⟩
              · left; omega
              · right; exact ⟨by omega, hl⟩) e2
        rw [g1]
        exact ⟨p'', rfl, g2⟩

omit good in
/-- The calls and the answers of the specification in the terms of the model. -/
def ofCall : Call → Op
  | .readByte => .readByte
  | .peekByte => .peekByte
  | .readChar => .readChar
  | .peekChar => .peekChar
  | .readLine => .readLine
  | .readBlock n => .readBlock n
  | .readString n => .readString n

omit good in
def ofAns : Ans → Res
  | .byte b => .byte b
  | .char none => .char .eof
  | .char (some c) => .char (.char c)
  | .line none => .line .eof
  | .line (some l) => .line (.line l)
  | .block l => .block l
  | .string l => .string (l.map .char)

theorem exec_abs {s s' : St} {op : Call} {r : Ans} (hs : Step s op r s') (fuel : Nat) (hf : s.bytes.length + 2 ≤ fuel) (p : Port (List Nat)) (h : Abs p s) :
    ∃ p', exec R fuel p (ofCall op) = some (ofAns r, p') ∧ Abs p' s' := by
  cases hs with
  | readByte l k e =>
    obtain ⟨p', e1, e2⟩ := getb_abs good p _ h
    exact ⟨p', by show (getb R p).map _ = _; rw [e1]; rfl, e2⟩
  | peekByte b l k e =>
    obtain ⟨p', e1, e2⟩ := peekb_abs good p _ _ _ _ h
    exact ⟨p', by show (peekb R p).map _ = _; rw [e1]; rfl, e2⟩
  | peekEof k e =>
    obtain ⟨p', e1, e2⟩ := peekb_eof good p _ _ h
    exact ⟨p', by show (peekb R p).map _ = _; rw [e1]; rfl, e2⟩
  | readChar c l k e hc =>
    obtain ⟨p', e1, e2⟩ := getc_abs good p _ _ _ _ hc h
    exact ⟨p', by show (getc R p).map _ = _; rw [e1]; rfl, e2⟩
  | readCharEof k e =>
    obtain ⟨p', e1, e2⟩ := getc_eof good p _ _ h
    exact ⟨p', by show (getc R p).map _ = _; rw [e1]; rfl, e2⟩
  | peekChar c l k e hc =>
    obtain ⟨p', e1, e2⟩ := peekc_abs good p _ _ _ _ hc h
    exact ⟨p', by show (peekc R p).map _ = _; rw [e1]; rfl, e2⟩
  | peekCharEof k e =>
    obtain ⟨p', e1, e2⟩ := peekc_eof good p _ _ h
    exact ⟨p', by show (peekc R p).map _ = _; rw [e1]; rfl, e2⟩
  | readLine l stop rest k e hne hl =>
    obtain ⟨p', e1, e2⟩ := readLine_abs good l stop rest hl hne fuel p k e h hf
    exact ⟨p', by show (readLine R fuel p).map _ = _; rw [e1]; rfl, e2⟩
  | readLineEof k e =>
    obtain ⟨p', e1, e2⟩ := getb_abs good p _ h
    dsimp only [List.head?, List.tail] at e1 e2
    refine ⟨p', by show (readLine R fuel p).map _ = _; unfold readLine; rw [e1]; rfl, ?_⟩
    have hk : k = 0 := by
      have h1 : [] = held p ++ p.src := h.bytes
      have h2 : k = (held p).length := h.seen
      rw [h2, (List.append_eq_nil_iff.1 h1.symm).1]; rfl
    subst hk
    exact e2
  | block l k n hn hk =>
    obtain ⟨p', e1, e2⟩ := getz_abs good p l k n hn hk h
    exact ⟨p', by show (getz R 3 p n).map _ = _; rw [e1]; rfl, e2⟩
  | readString cs l k n e hn hc hlen =>
    obtain ⟨p', e1, e2⟩ := readString_abs good n cs l k e p hn hc hlen h
    exact ⟨p', by show (readString R n p).map _ = _; rw [e1]; rfl, e2⟩

omit good in
theorem step_length {s s' : St} {op : Call} {r : Ans} (hs : Step s op r s') : s'.bytes.length ≤ s.bytes.length := by
  cases hs <;> dsimp only <;> simp
  omega

theorem run_abs {s s' : St} {ops : List Call} {rs : List Ans} (hs : Runs s ops rs s') (fuel : Nat) (hf : s.bytes.length + 2 ≤ fuel) :
    ∀ p : Port (List Nat), Abs p s → ∃ out p', run R fuel p (ops.map ofCall) = some (out, p') ∧ out.map Prod.fst = rs.map ofAns ∧ Abs p' s' := by
  induction hs with
  | nil s => intro p h; exact ⟨[], p, rfl, rfl, h⟩
  | @cons s s' s'' op ops r rs h1 _ ih =>
    intro p h
    obtain ⟨p', e1, e2⟩ := exec_abs good h1 fuel hf p h
    obtain ⟨out, p'', e3, e4, e5⟩ := ih (by have := step_length h1; omega) p' e2
    refine ⟨(ofAns r, p'.line) :: out, p'', ?_, ?_, e5⟩
    · show run R fuel p (ofCall op :: ops.map ofCall) = _
      unfold run
      rw [e1]
      dsimp only
      rw [e3]
    · rw [List.map_cons, List.map_cons, e4]

end

theorem make_abs (l : List Nat) : Abs (make l) ⟨l, 0, false⟩ := ⟨rfl, rfl, by simp [make], Or.inl ⟨rfl, Or.inl (Nat.zero_le _)⟩⟩

end Gauche.InPort

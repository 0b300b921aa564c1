import Verif.Proof.RegexOpt3

/-!
# Matching at one place
-/

namespace Gauche.Regex

open Gauche.Utf8 Gauche.Spec.Utf8 Spec

variable {cfg : Cfg} {mem : Mem} {stop : Nat} {e : GEnv} {L : Lim} {up : Nat → Nat}

theorem wordConstituent_eq (b : Nat) : wordConstituent b = wordChar (some b) := rfl

theorem inMemory_shows {rx : Rx} {ci br : Bool} (h : InMemory cfg mem stop ci br)
    (hm : rx.multi = cfg.multi) : Shows (rx.ctx mem stop cfg.down up) cfg ci br := by
  refine ⟨h.codes, h.holds, h.size, hm, rfl, ?_, ?_, h.br⟩
  · rw [wordConstituent_eq]; exact h.after
  · intro hc x hx
    obtain ⟨h1, h2⟩ := h.ci hc x hx
    rw [encode_length, encode_length] at h1
    exact ⟨h1, h2⟩

/-- What the compiled pattern has to do with the pattern. -/
structure Made (e : GEnv) (a : Ast) (rx : Rx) : Prop where
  code : codegen e a = some rx.code
  sets : rx.sets = e.sets
  multi : rx.multi = e.multi

theorem codegen_spec {c : List Nat} {a : Ast} (h : codegen e a = some c) :
    c = gen e a false true 0 ++ [Op.success.byte] ∧ 256 ∉ c := by
  unfold codegen at h
  dsimp only at h
  by_cases hc : (gen e a false true 0 ++ [Op.success.byte]).contains 256 = true
  · rw [if_pos hc] at h; cases h
  · rw [if_neg hc] at h
    injection h with h
    rw [← h]
    exact ⟨rfl, by simpa using hc⟩

/-- The result the matcher should give at a place. -/
def Res.Fine (cfg : Cfg) (o : Option St) (r : Res) : Prop :=
  match o with
  | some t => ∃ c, r = .done (boff cfg t.pos) c ∧ Agrees cfg c t
  | none => ∃ c, r = .fail c

theorem rex_fine {rx : Rx} {a : Ast} (hm : Made e a rx)
    (hin : InMemory cfg mem stop L.ci L.br) (hok : ok L a false [] = true)
    (hc : e.charMax ≤ 250) (hs : L.sets = e.sets) (hf : e.sets.length ≤ 256)
    (hmu : e.multi = cfg.multi) (hlm : L.multi = cfg.multi) {i : Nat} (hi : i ≤ cfg.text.length) :
    ∃ r, (∀ fuel, rex (rx.ctx mem stop cfg.down up) fuel (boff cfg i) = .out ∨
        rex (rx.ctx mem stop cfg.down up) fuel (boff cfg i) = r) ∧
      (∃ f, ∀ fuel, f ≤ fuel → rex (rx.ctx mem stop cfg.down up) fuel (boff cfg i) = r) ∧
      Res.Fine cfg (ways cfg a false true (St.start i)).head? r := by
  obtain ⟨hcode, hno⟩ := codegen_spec hm.code
  have hS := inMemory_shows hin (up := up) (rx := rx) (hm.multi.trans hmu)
  have hat : At (rx.ctx mem stop cfg.down up) 0 (gen e a false true 0 ++ [Op.success.byte]) := by
    intro k hk
    show rx.code.getD (0 + k) 0 = _
    rw [hcode, Nat.zero_add, List.getD_eq_getElem?_getD, List.getElem?_eq_getElem hk]
    rfl
  have hfits : Fits (rx.ctx mem stop cfg.down up) cfg e L := by
    refine ⟨hS, ?_, hc, hs, hm.sets, hf, hmu, hlm⟩
    intro p
    show rx.code.getD p 0 ≠ 256
    rw [List.getD_eq_getElem?_getD]
    cases h : rx.code[p]? with
    | none => simp
    | some x =>
      intro h'
      have : x = 256 := h'
      subst this
      exact hno (List.mem_of_getElem? h)
  obtain ⟨h1, h2⟩ := at_append.1 hat
  have himpl := gen_impl hfits a false true [] 0 hok (by simp) h1
  rw [Nat.zero_add] at h2 himpl
  have hfinal := himpl (fun _ => none) (fun _ => none) some (St.start i)
    ⟨hi, fun g x y h => by simp [St.start] at h⟩ (fun _ _ => rfl) (by
      intro t _ c hr
      refine ⟨c, Runs.step (op_at h2) (by intro h'; cases h') ⟨0, fun f' _ => ?_⟩, hr⟩
      simp only [exec])
  have := hfinal Caps.init (by intro g; simp [St.start, Caps.init])
  rw [← head?_eq] at this
  have key : ∀ r, Runs (rx.ctx mem stop cfg.down up) 0 (boff cfg i) Caps.init r →
      Res.Fine cfg (ways cfg a false true (St.start i)).head? r →
      ∃ r, (∀ fuel, rex (rx.ctx mem stop cfg.down up) fuel (boff cfg i) = .out ∨
        rex (rx.ctx mem stop cfg.down up) fuel (boff cfg i) = r) ∧
      (∃ f, ∀ fuel, f ≤ fuel → rex (rx.ctx mem stop cfg.down up) fuel (boff cfg i) = r) ∧
      Res.Fine cfg (ways cfg a false true (St.start i)).head? r := by
    intro r hr hf
    refine ⟨r, ?_, hr.eventually, hf⟩
    intro fuel
    by_cases h : rexRec (rx.ctx mem stop cfg.down up) fuel 0 (boff cfg i) Caps.init = .out
    · exact Or.inl h
    · exact Or.inr (hr.unique h)
  cases ho : (ways cfg a false true (St.start i)).head? with
  | none =>
    rw [ho] at this key
    obtain ⟨c', hr, _⟩ := this
    exact key _ hr ⟨c', rfl⟩
  | some t =>
    rw [ho] at this key
    obtain ⟨c', hr, hrel⟩ := this
    exact key _ hr ⟨c', rfl, fun g => hrel g⟩

end Gauche.Regex

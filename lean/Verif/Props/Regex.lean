import Verif.Proof.RegexLast

/-!
# C37: regular expressions

`C37_compile_partial` and `C37_match_partial` are for `Scm_RegComp` (with the optimizer), `C37_from_ast_partial` for
`Scm_RegCompFromAST` (without).  `C37_language` and `C37_first_match_partial` say in terms of
the textbook relation `Mat` what is found.  The `C37_bug_...` theorems show patterns for which
the answer is wrong, and which the theorems above therefore exclude.
-/

namespace Gauche.Regex

open Gauche.Utf8 Gauche.Spec.Utf8 Spec

section
variable {cfg : Cfg} {mem : Mem} {stop : Nat} {e : GEnv} {L : Lim} {up : Nat → Nat} {a : Ast} {rx : Rx}

/-- A pattern compiled from its syntax tree: with whatever stack the matcher has, the search
gives up or answers with the first way from the leftmost place where there is one, with its
submatches; and with enough stack it answers. -/
theorem C37_from_ast_partial (hrx : rc3 e a = some rx) (hin : InMemory cfg mem stop L.ci L.br)
    (hok : ok L a false [] = true) (hbr : L.br = true → plusHead .while_ a = false)
    (hc : e.charMax ≤ 250) (hf : e.sets.length ≤ 256) (hs : L.sets = e.sets)
    (hmu : e.multi = cfg.multi) (hlm : L.multi = cfg.multi) :
    (∀ fuel, regExec rx mem stop cfg.down up fuel = .out ∨
      Right cfg (leftmost cfg a) (regExec rx mem stop cfg.down up fuel)) ∧
    ∃ f, ∀ fuel, f ≤ fuel → Right cfg (leftmost cfg a) (regExec rx mem stop cfg.down up fuel) := by
  refine regExec_right hrx hin hok hc hs hf hmu hlm fun h => ?_
  cases hp : simplePrefixed a with
  | false => rfl
  | true => rw [simple_plus a hp] at hbr; exact absurd (hbr h) (by simp)

/-- The same for a pattern that went through the optimizer. -/
theorem C37_compile_partial (hrx : regComp e a = some rx) (hin : InMemory cfg mem stop L.ci L.br)
    (hok : ok L a false [] = true) (hpl : plain false a = true) (hsep : Separate a)
    (hbr : L.br = true → plusHead .greedy a = false)
    (hc : e.charMax ≤ 250) (hf : e.sets.length ≤ 256) (hs : L.sets = e.sets)
    (hmu : e.multi = cfg.multi) (hlm : L.multi = cfg.multi) :
    (∀ fuel, regExec rx mem stop cfg.down up fuel = .out ∨
      Right cfg (leftmost cfg a) (regExec rx mem stop cfg.down up fuel)) ∧
    ∃ f, ∀ fuel, f ≤ fuel → Right cfg (leftmost cfg a) (regExec rx mem stop cfg.down up fuel) := by
  rw [← leftmost_opt hpl hsep]
  refine regExec_right hrx hin (optimize_ok hpl hok) hc hs hf hmu hlm fun h => ?_
  cases hp : simplePrefixed (regOptimize a) with
  | false => rfl
  | true => rw [plus_opt a [] false hpl hp] at hbr; exact absurd (hbr h) (by simp)

/-- At a place: the matcher finds the first way, or there is none. -/
theorem C37_match_partial (hrx : rc3 e a = some rx) (hin : InMemory cfg mem stop L.ci L.br)
    (hok : ok L a false [] = true)
    (hc : e.charMax ≤ 250) (hf : e.sets.length ≤ 256) (hs : L.sets = e.sets)
    (hmu : e.multi = cfg.multi) (hlm : L.multi = cfg.multi) {i : Nat} (hi : i ≤ cfg.text.length) :
    ∃ f, ∀ fuel, f ≤ fuel →
      match (ways cfg a false true (St.start i)).head? with
      | some t => ∃ c, rex (rx.ctx mem stop cfg.down up) fuel (boff cfg i) =
          .done (boff cfg t.pos) c ∧ Agrees cfg c t
      | none => ∃ c, rex (rx.ctx mem stop cfg.down up) fuel (boff cfg i) = .fail c := by
  obtain ⟨r, _, ⟨f, h2⟩, h3⟩ := rex_fine (up := up) (rc3_made hrx) hin hok hc hs hf hmu hlm hi
  refine ⟨f, fun fuel hl => ?_⟩
  rw [h2 fuel hl]
  exact h3

/-- The ways to match are the matches, for patterns where order does not matter. -/
theorem C37_language (hok : ok L a false [] = true) (hfr : free a = true) {i : Nat}
    (hi : i ≤ cfg.text.length) (t : St) :
    t ∈ ways cfg a false true (St.start i) ↔ Mat cfg false true a (St.start i) t :=
  ways_mat a false true [] (St.start i) t hok hfr
    ⟨hi, fun g x y h => by simp [St.start] at h⟩

theorem leftmost_some {t : St} (h : leftmost cfg a = some t) :
    ∃ i, i ≤ cfg.text.length ∧ t ∈ ways cfg a false true (St.start i) ∧
      ∀ k, k < i → ways cfg a false true (St.start k) = [] := by
  unfold leftmost at h
  rw [List.findSome?_eq_some_iff] at h
  obtain ⟨l, i, r, hl, hi, hn⟩ := h
  have hlen : i = l.length := by
    have h1 : (List.range (cfg.text.length + 1))[l.length]? = some i := by
      rw [hl]; simp
    rw [List.getElem?_eq_some_iff] at h1
    obtain ⟨h1, h2⟩ := h1
    rw [List.getElem_range] at h2
    exact h2.symm
  have htot : cfg.text.length + 1 = l.length + (r.length + 1) := by
    have := congrArg List.length hl
    simpa using this
  refine ⟨i, by omega, ?_, ?_⟩
  · exact List.mem_of_mem_head? (by rw [hi]; rfl)
  · intro k hk
    have : k ∈ l := by
      have h1 : (List.range (cfg.text.length + 1))[k]? = some k := by
        rw [List.getElem?_eq_getElem (by simp; omega)]; simp
      rw [hl, List.getElem?_append_left (by omega)] at h1
      exact List.mem_of_getElem? h1
    exact List.head?_eq_none_iff.1 (hn k this)

theorem leftmost_none (h : leftmost cfg a = none) {i : Nat} (hi : i ≤ cfg.text.length) :
    ways cfg a false true (St.start i) = [] := by
  unfold leftmost at h
  rw [List.findSome?_eq_none_iff] at h
  exact List.head?_eq_none_iff.1 (h i (by simp; omega))

/-- A search that ends finds a match if and only if there is one, and it is at the leftmost
place where there is one. -/
theorem C37_first_match_partial (hrx : regComp e a = some rx) (hin : InMemory cfg mem stop L.ci L.br)
    (hok : ok L a false [] = true) (hpl : plain false a = true) (hsep : Separate a)
    (hfr : free a = true) (hbr : L.br = true → plusHead .greedy a = false)
    (hc : e.charMax ≤ 250) (hf : e.sets.length ≤ 256) (hs : L.sets = e.sets)
    (hmu : e.multi = cfg.multi) (hlm : L.multi = cfg.multi) {fuel : Nat}
    (hend : regExec rx mem stop cfg.down up fuel ≠ .out) :
    (∃ c i t, regExec rx mem stop cfg.down up fuel = .found c ∧ i ≤ cfg.text.length ∧
      Mat cfg false true a (St.start i) t ∧ Agrees cfg c t ∧
      ∀ k, k < i → ¬ ∃ u, Mat cfg false true a (St.start k) u) ∨
    (regExec rx mem stop cfg.down up fuel = .notFound ∧
      ∀ i, i ≤ cfg.text.length → ¬ ∃ u, Mat cfg false true a (St.start i) u) := by
  have h := ((C37_compile_partial (up := up) hrx hin hok hpl hsep hbr hc hf hs hmu hlm).1 fuel).resolve_left
    hend
  cases hl : leftmost cfg a with
  | none =>
    rw [hl] at h
    refine Or.inr ⟨h, fun i hi ⟨u, hu⟩ => ?_⟩
    have := (C37_language hok hfr hi u).2 hu
    rw [leftmost_none hl hi] at this
    simp at this
  | some t =>
    rw [hl] at h
    obtain ⟨c, h1, h2⟩ := h
    obtain ⟨i, hi, ht, hn⟩ := leftmost_some hl
    refine Or.inl ⟨c, i, t, h1, hi, (C37_language hok hfr hi t).1 ht, h2, fun k hk ⟨u, hu⟩ => ?_⟩
    have := (C37_language hok hfr (by omega) u).2 hu
    rw [hn k hk] at this
    simp at this

/-- The optimizer keeps the first way. -/
theorem C37_optimizer (hpl : plain false a = true) (hsep : Separate a) (last : Bool) (st : St) :
    (ways cfg (regOptimize a) false last st).head? = (ways cfg a false last st).head? :=
  optimize_first hpl hsep last st

end

/-! ## The hypotheses can be met -/

section Examples

/-- `(a|[b-d]e)+f\b`, all of it group 0. -/
def exAst : Ast :=
  .group 0 [.rep .greedy 1 none [.group 1 [.alt [.char 97, .seq [.cset [(98, 100)], .char 101]]]],
    .char 102, .wb]

def exEnv : GEnv := ⟨[[(98, 100)]], false, 127⟩
def exLim : Lim := ⟨[[(98, 100)]], false, false, true⟩
def exCfg : Cfg := ⟨[233, 97, 97, 99, 101, 102, 32], false, id⟩
def bytesOf (l : List Nat) : Nat → Nat := fun i => l.getD i 0

example : plain false exAst = true := by decide +kernel
example : ok exLim exAst false [] = true := by decide +kernel
example : plusHead .greedy exAst = false := by decide +kernel
example : free exAst = true := by decide +kernel
example : Separate exAst := by intro s hs; simp [exAst, setsIn, setsIns] at hs
example : (regComp exEnv exAst).isSome = true := by decide +kernel
example : InMemory exCfg (bytesOf (encodeAll exCfg.text)) 8 false true := by
  refine ⟨?_, ?_, ?_, ?_, ?_, ?_⟩
  · intro x hx
    have : ∀ y ∈ exCfg.text, y < 300 := by decide +kernel
    have := this x hx
    unfold IsCode; omega
  · intro i h
    simp [bytesOf, h]
  · decide +kernel
  · decide +kernel
  · intro h; cases h
  · decide +kernel
example : ((leftmost exCfg exAst).map fun t => (t.caps 0, t.caps 1)) =
    some (some (1, 6), some (3, 5)) := by decide +kernel

/-- The groups the search reports, `none` if there is no answer. -/
def report (e : GEnv) (a : Ast) (text : List Nat) (down : Nat → Nat) (g : Nat) :
    Option (Option (Nat × Nat)) :=
  match regComp e a with
  | none => none
  | some rx =>
    match regExec rx (bytesOf (encodeAll text)) (encodeAll text).length down id 300 with
    | .found c => some (match c.st g, c.en g with | some i, some j => some (i, j) | _, _ => none)
    | .notFound => some none
    | _ => none

/-- What should be reported. -/
def expected (text : List Nat) (down : Nat → Nat) (a : Ast) (g : Nat) : Option (Nat × Nat) :=
  (leftmost ⟨text, false, down⟩ a).bind fun t => t.caps g

example : report exEnv exAst exCfg.text id 0 = some (some (2, 7)) := by decide +kernel

/-- ASCII. -/
def lower (c : Nat) : Nat := if 65 ≤ c ∧ c ≤ 90 then c + 32 else c

/-- `[^ab]*[bc]` is not found in `cc`: `[^ab]` and `[bc]` are taken to be distinct because
their complements are not. -/
theorem C37_bug_complement :
    report ⟨[[(97, 98)], [(98, 99)]], false, 127⟩
      (.group 0 [.rep .greedy 0 none [.comp [(97, 98)]], .cset [(98, 99)]]) [99, 99] id 0 = some none ∧
    expected [99, 99] id (.group 0 [.rep .greedy 0 none [.comp [(97, 98)]], .cset [(98, 99)]]) 0 =
      some (0, 2) := by
  decide +kernel

/-- `^(?:bab*)*c` is not found in `babbac`, though ... `(?:bab*)*` may take `babba` only if the
inner repetition gives back a `b`; it does not. -/
theorem C37_bug_nested_star :
    report ⟨[], false, 127⟩
      (.group 0 [.bol, .rep .greedy 0 none [.seq [.char 98, .char 97, .rep .greedy 0 none [.char 98]]],
        .char 99]) [98, 97, 98, 98, 97, 99] id 0 = some none ∧
    expected [98, 97, 98, 98, 97, 99] id
      (.group 0 [.bol, .rep .greedy 0 none [.seq [.char 98, .char 97, .rep .greedy 0 none [.char 98]]],
        .char 99]) 0 = some (0, 6) := by
  decide +kernel

/-- `A*(?i:a)` is not found in `AA`: the optimizer compares characters without regard
to the case folding. -/
theorem C37_bug_fold_distinct :
    report ⟨[], false, 127⟩
      (.group 0 [.rep .greedy 0 none [.char 65], .uncase [.char 97]]) [65, 65] lower 0 = some none ∧
    expected [65, 65] lower (.group 0 [.rep .greedy 0 none [.char 65], .uncase [.char 97]]) 0 =
      some (0, 2) := by
  decide +kernel

/-- `a*b`, ignoring case, finds only the `B` in `AB`. -/
theorem C37_bug_fold_star :
    report ⟨[], false, 127⟩
      (.group 0 [.uncase [.rep .greedy 0 none [.char 97], .char 98]]) [65, 66] lower 0 =
        some (some (1, 2)) ∧
    expected [65, 66] lower (.group 0 [.uncase [.rep .greedy 0 none [.char 97], .char 98]]) 0 =
      some (0, 2) := by
  decide +kernel

/-- `(a+)b\1` is not found in `aaba`: the search skips the rest of a run of `a`, as if all places in
it were the same. -/
theorem C37_bug_prefix_backref :
    report ⟨[], false, 127⟩
      (.group 0 [.group 1 [.rep .greedy 1 none [.char 97]], .char 98, .backref 1])
      [97, 97, 98, 97] id 0 = some none ∧
    expected [97, 97, 98, 97] id
      (.group 0 [.group 1 [.rep .greedy 1 none [.char 97]], .char 98, .backref 1]) 0 = some (1, 4) := by
  decide +kernel

/-- `(.)\1` is found in a string with one NUL character: the comparison runs over the end of the
string, and the match ends outside of it. -/
theorem C37_bug_backref_overrun :
    report ⟨[], false, 127⟩ (.group 0 [.group 1 [.any], .backref 1]) [0] id 0 = some (some (0, 2)) ∧
    expected [0] id (.group 0 [.group 1 [.any], .backref 1]) 0 = none := by
  decide +kernel

/-- Groups in a lookahead are not reset when what follows fails: `(?:(?=(a))b|a)` on `a`. -/
theorem C37_bug_lookahead_group :
    report ⟨[], false, 127⟩
      (.group 0 [.alt [.seq [.assert [.group 1 [.char 97]], .char 98], .char 97]]) [97] id 1 =
        some (some (0, 1)) ∧
    expected [97] id
      (.group 0 [.alt [.seq [.assert [.group 1 [.char 97]], .char 98], .char 97]]) 1 = none := by
  decide +kernel

/-- Where `char` is unsigned (`CHAR_MAX` is 255), a literal of 254 ASCII characters and one of two
bytes has length 256, which is written as 0; the matcher takes its characters for instructions. -/
theorem C37_bug_long_literal :
    (match regComp ⟨[], false, 255⟩ (.group 0 [.seq (List.replicate 254 (.char 97) ++ [.char 233])])
      with
     | some rx =>
       match regExec rx (bytesOf (List.replicate 254 97 ++ [195, 169])) 256 id id 300 with
       | .err => true
       | _ => false
     | none => false) = true := by
  decide +kernel

/-- The matcher on `(?:\b)*` and the empty string. -/
def emptyCx (up : Nat → Nat) : Ctx :=
  ⟨[22, 0, 10, 0, 9, 32, 19, 0, 2, 24, 0, 21], [], false, fun _ => 0, 0, id, up⟩

set_option maxRecDepth 4000 in
theorem empty_loop (up : Nat → Nat) : ∀ (f : Nat) (c : Caps), rexRec (emptyCx up) f 2 0 c = .out
  | 0, _ => rfl
  | 1, _ => rfl
  | 2, _ => rfl
  | f + 3, c => by
    have ih := empty_loop up f c
    show exec (rexRec (emptyCx up) (f + 2)) (emptyCx up) .try_ 3 0 c = .out
    have h1 : rexRec (emptyCx up) (f + 2) 5 0 c = .out := by
      show exec (rexRec (emptyCx up) (f + 1)) (emptyCx up) .wb 6 0 c = .out
      have h2 : rexRec (emptyCx up) (f + 1) 6 0 c = .out := by
        show exec (rexRec (emptyCx up) f) (emptyCx up) .jump 7 0 c = .out
        exact ih
      have hw : wordBoundary (emptyCx up) true true 0 = true := rfl
      simp only [exec, hw, if_true, h2]
    simp only [exec, h1]

/-- A repetition of something that can match the empty string does not end: whatever the stack,
`(?:\b)*` on the empty string gives no answer. -/
theorem C37_bug_empty_loop (up : Nat → Nat) (rx : Rx)
    (hrx : regComp ⟨[], false, 127⟩ (.group 0 [.rep .greedy 0 none [.wb]]) = some rx) :
    (∀ fuel, regExec rx (fun _ => 0) 0 id up fuel = .out) ∧
    expected [] id (.group 0 [.rep .greedy 0 none [.wb]]) 0 = some (0, 0) := by
  refine ⟨fun fuel => ?_, by decide +kernel⟩
  have hcode : (regComp ⟨[], false, 127⟩ (.group 0 [.rep .greedy 0 none [.wb]])).map
      (fun r => (r.code, r.bolAnchored, r.laset.isNone, r.sets.isEmpty, r.multi)) =
        some ([22, 0, 10, 0, 9, 32, 19, 0, 2, 24, 0, 21], false, true, true, false) := by
    decide +kernel
  rw [hrx] at hcode
  simp only [Option.map_some, Option.some.injEq, Prod.mk.injEq] at hcode
  obtain ⟨h1, h2, h3, h4, h5⟩ := hcode
  have hl : rx.laset = none := by simpa using h3
  have h4 : rx.sets = [] := by simpa using h4
  have hcx : rx.ctx (fun _ => 0) 0 id up = emptyCx up := by
    unfold Rx.ctx emptyCx; rw [h1, h4, h5]
  have hrex : rex (emptyCx up) fuel 0 = .out := by
    cases fuel with
    | zero => rfl
    | succ f =>
      show exec (rexRec (emptyCx up) f) (emptyCx up) .begin_ 1 0 Caps.init = .out
      have := empty_loop up f (Caps.init.setSt ((emptyCx up).at 1) (some 0))
      simp only [exec, this]
  unfold regExec
  simp only [h2, hl, hcx, searchAll, hrex]
  simp [orElse, emptyCx]

end Examples

end Gauche.Regex

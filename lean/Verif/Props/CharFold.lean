import Verif.Proof.CharFold
import Verif.Props.CharSet
/-
C60: making a character set case insensitive.

`up` and `down` are the character case mappings, arbitrary functions into the character codes.  The claim a user
relies on: after folding, the set holds both cases of each of its members, keeps its members, and holds nothing
that is not reached from them by case mappings.
-/
namespace Gauche.CharSet
open Gauche.CharProg Gauche.TreeMap

/-- What case mappings reach from `S`: the mappings of characters above ASCII, and the other case of the ASCII
letters of `S`. -/
inductive Reach (up down : Nat → Nat) (S : Set Nat) : Nat → Prop
  | base {c} : c ∈ S → Reach up down S c
  | up {c} : 128 ≤ c → Reach up down S c → Reach up down S (up c)
  | down {c} : 128 ≤ c → Reach up down S c → Reach up down S (down c)
  | lower {c} : 65 ≤ c → c ≤ 90 → c ∈ S → Reach up down S (c + 32)
  | upper {c} : 97 ≤ c → c ≤ 122 → c ∈ S → Reach up down S (c - 32)

theorem min_spec (t : Core Nat Nat) : t.min = (elems t.root).head? := by
  unfold Core.min
  cases hr : t.root with
  | nil => rfl
  | node c l k v r =>
    dsimp only
    obtain ⟨q, hq⟩ : ∃ q, leftmost c l k v r [] = q := ⟨_, rfl⟩
    obtain ⟨⟨a1, a2, a3, a4⟩, a5⟩ := q
    obtain ⟨_, h2, h3⟩ := leftmost_spec _ _ _ _ _ _ _ _ _ _ _ hq
    rw [hq]
    have := minLoc_spec (.node c l k v r)
    simp only [minLoc, hq] at this
    rw [this.2]; rfl

/-- Everything at once (internal). -/
theorem fold_all {up down : Nat → Nat} (hu : ∀ c, up c ≤ charMax) (hd : ∀ c, down c ≤ charMax) {cs : CharSet} {rs}
    (h : Rep cs rs) (hm : cs.immutable = false) :
    ∃ cs' rs', cs.caseFold up down = some cs' ∧ Rep cs' rs' ∧ cs'.immutable = false ∧
      members cs ⊆ members cs' ∧ (∀ c ∈ members cs', Reach up down (members cs) c) ∧
      (∀ c, 65 ≤ c → c ≤ 90 → (c ∈ members cs ∨ c + 32 ∈ members cs) → c ∈ members cs' ∧ c + 32 ∈ members cs') ∧
      (∀ p q r, rs = p :: r → (q = p ∨ r.head? = some q) → ∀ d, q.1 ≤ d → d ≤ q.2 → up d ∈ members cs' ∧ down d ∈ members cs') ∧
      (NoJump up down (· ∈ members cs) (Reach up down (members cs)) → ∀ d, 128 ≤ d → d ∈ members cs →
        up d ∈ members cs' ∧ down d ∈ members cs') := by
  obtain ⟨sm, lp, l⟩ := cs
  cases l with
  | frozen => cases hm
  | tree t =>
    have hmem := mem_members h
    let cs1 : CharSet := ⟨foldSmall 26 97 sm, lp, .tree t⟩
    have h1 : Rep cs1 rs := ⟨h.canon, h.flag, h.data⟩
    have hsm := foldSmall_spec 26 97 sm (Nat.le_refl _) (by omega)
    have hQ : CloseLarge up down (Reach up down (members ⟨sm, lp, .tree t⟩)) := fun c a b => ⟨.up a b, .down a b⟩
    have hhas : ∀ x, Has ⟨sm, lp, .tree t⟩ rs x → Has cs1 rs x := by
      intro x hx
      unfold Has at hx ⊢
      by_cases hx8 : x < 128
      · rw [if_pos hx8] at hx ⊢
        exact (hsm x).2 (.inl hx)
      · rw [if_neg hx8] at hx ⊢; exact hx
    have hsmall : ∀ i, i < 128 → (sm i = true ↔ i ∈ members ⟨sm, lp, .tree t⟩) := fun i hi => by
      rw [hmem, Has, if_pos hi]
    have hreach : ∀ x, Has cs1 rs x → Reach up down (members ⟨sm, lp, .tree t⟩) x := by
      intro x hx
      unfold Has at hx
      by_cases hx8 : x < 128
      · rw [if_pos hx8] at hx
        rcases (hsm x).1 hx with hx | ⟨j, j1, j2, j3, j4⟩
        · exact .base ((hsmall x hx8).1 hx)
        · rw [hsmall j (by omega), hsmall (j - 32) (by omega)] at j4
          rcases j3 with rfl | j3 <;> rcases j4 with j4 | j4
          · exact .base j4
          · have := Reach.lower (up := up) (down := down) (by omega) (by omega) j4
            rwa [show x - 32 + 32 = x by omega] at this
          · have := Reach.upper (up := up) (down := down) (by omega) (by omega) j4
            rwa [show j - 32 = x by omega] at this
          · rw [show j - 32 = x by omega] at j4
            exact .base j4
      · rw [if_neg hx8] at hx
        refine .base ?_
        rw [hmem, Has, if_neg hx8]; exact hx
    have hdat := h.data
    simp only at hdat
    obtain ⟨hti, hte⟩ := hdat
    have hmin : t.min = rs.head? := by rw [min_spec, hte]
    have hfirst : ∀ p, t.min = some p → p ∈ rs := fun p hp => by
      rw [hmin] at hp; exact List.mem_of_head? hp
    obtain ⟨cs', rs', f1, f2, f3, f4, f5, f6, f7, f8⟩ := foldOuter_spec hu hd (· ∈ members ⟨sm, lp, .tree t⟩)
      (Reach up down (members ⟨sm, lp, .tree t⟩)) hQ (charMax + 2) cs1 rs t.min h1 rfl
      (fun p hp => nodeOK_of_mem h.canon (hfirst p hp))
      (fun p hp => by have := canon_mem h.canon p (hfirst p hp); omega) (by omega)
      (fun x hx => hhas x ((hmem x).1 hx)) hreach
    have hmem' := mem_members f2
    refine ⟨cs', rs', f1, f2, f3, fun x hx => (hmem' x).2 (f4 x (hhas x ((hmem x).1 hx))),
      fun c hc => f5 c ((hmem' c).1 hc), ?_, ?_, ?_⟩
    · intro c c1 c2 hc
      rw [← hsmall c (by omega), ← hsmall (c + 32) (by omega)] at hc
      have hj : ∀ i, i = c ∨ i = c + 32 → i ∈ members cs' := by
        intro i hi
        rw [hmem']
        apply f4
        rw [Has, if_pos (by omega)]
        refine (hsm i).2 (.inr ⟨c + 32, by omega, by omega, by omega, ?_⟩)
        rw [Nat.add_sub_cancel]
        exact hc.symm
      exact ⟨hj c (.inl rfl), hj (c + 32) (.inr rfl)⟩
    · intro p q r hrs hq d d1 d2
      rw [hmem', hmem']
      have hp : t.min = some p := by rw [hmin, hrs]; rfl
      rcases hq with rfl | hq
      · exact f6 q hp d d1 d2
      · refine f7 p hp ⟨p.2, hfirst p hp⟩ q ?_ d d1 d2
        have hx : t.exists_ compare p.1 = true :=
          (exists_iff hti (b := 128) (by rw [hte]; exact h.canon) p.1).2 ⟨p.2, by rw [hte]; exact hfirst p hp⟩
        show (if t.exists_ compare p.1 then t.successor compare p.1 else none) = some q
        rw [if_pos hx, succ_eq t hti (a := [p]) (b := r) (by rw [hte, hrs]; rfl) (by simp), hq]
        have hc := h.canon
        rw [hrs] at hc
        intro x hx
        have := (canon_mem hc.2.2.2 x hx).1
        have := hc.2.1
        omega
    · intro hnj d d1 d2
      rw [hmem', hmem']
      have hd2 : MemR d rs := by
        rw [hmem, Has, if_neg (by omega)] at d2; exact d2
      cases hmn : t.min with
      | none =>
        rw [hmin, List.head?_eq_none_iff] at hmn
        rw [hmn] at hd2; simp at hd2
      | some p =>
        rw [hmn] at f8
        refine f8 hnj (fun p' hp' => ?_) p rfl d ?_ hd2 d2
        · cases hp'; exact ⟨p.2, hfirst p hmn⟩
        · rw [hmin] at hmn
          obtain ⟨x, hx, hx1, hx2⟩ := hd2
          cases rs with
          | nil => cases hmn
          | cons y r =>
            cases hmn
            rcases List.mem_cons.1 hx with rfl | hx
            · exact hx1
            · have hc := h.canon
              have := (canon_mem hc.2.2.2 x hx).1
              have := hc.2.1
              omega

/-- **C60.**  Case folding of a mutable set succeeds, keeps the members, adds only what case mappings reach from them,
and treats ASCII letters completely. -/
theorem C60_sound (up down : Nat → Nat) (hu : ∀ c, up c ≤ charMax) (hd : ∀ c, down c ≤ charMax) (cs : CharSet)
    (h : Made cs) (hm : cs.immutable = false) :
    ∃ cs', cs.caseFold up down = some cs' ∧ cs'.immutable = false ∧ members cs ⊆ members cs' ∧
      (∀ c ∈ members cs', Reach up down (members cs) c) ∧
      ∀ c, 65 ≤ c → c ≤ 90 → (c ∈ members cs ∨ c + 32 ∈ members cs) → c ∈ members cs' ∧ c + 32 ∈ members cs' := by
  obtain ⟨rs, h1⟩ := made_rep h
  obtain ⟨cs', rs', f1, f2, f3, f4, f5, f6, _, _⟩ := fold_all hu hd h1 hm
  exact ⟨cs', f1, f3, f4, f5, f6⟩

/-- An immutable set is rejected. -/
theorem C60_immutable (up down : Nat → Nat) (cs : CharSet) (hm : cs.immutable = true) : cs.caseFold up down = none := by
  obtain ⟨sm, lp, l⟩ := cs
  cases l with
  | frozen => rfl
  | tree => cases hm

/-- **C60, partial.**  Both cases of every large member are in the result, if no case mapping of a reached character
gives a new character just below a higher reached character.  (Otherwise the loop may end early:
`C60_bug_members_not_folded`.) -/
theorem C60_complete_partial (up down : Nat → Nat) (hu : ∀ c, up c ≤ charMax) (hd : ∀ c, down c ≤ charMax) (cs : CharSet)
    (h : Made cs) (hm : cs.immutable = false)
    (hj : ∀ c x, 128 ≤ c → Reach up down (members cs) c → (x = up c ∨ x = down c) →
      Reach up down (members cs) (x + 1) → c < x + 1 → x ∈ members cs) :
    ∃ cs', cs.caseFold up down = some cs' ∧
      ∀ c ∈ members cs, 128 ≤ c → up c ∈ members cs' ∧ down c ∈ members cs' := by
  obtain ⟨rs, h1⟩ := made_rep h
  obtain ⟨cs', rs', f1, f2, f3, f4, f5, f6, _, f8⟩ := fold_all hu hd h1 hm
  exact ⟨cs', f1, fun c hc h128 => f8 hj c h128 hc⟩

/-- **C60, partial.**  Whatever the mappings, the members in the first two runs of large members get both cases: the
hypothesis on `c` says that no two gaps separate two earlier large members from it. -/
theorem C60_first_two_runs_partial (up down : Nat → Nat) (hu : ∀ c, up c ≤ charMax) (hd : ∀ c, down c ≤ charMax)
    (cs : CharSet) (h : Made cs) (hm : cs.immutable = false) :
    ∃ cs', cs.caseFold up down = some cs' ∧ ∀ c ∈ members cs, 128 ≤ c →
      (¬ ∃ d1 g1 d2 g2, 128 ≤ d1 ∧ d1 < g1 ∧ g1 < d2 ∧ d2 < g2 ∧ g2 < c ∧
        d1 ∈ members cs ∧ g1 ∉ members cs ∧ d2 ∈ members cs ∧ g2 ∉ members cs) →
      up c ∈ members cs' ∧ down c ∈ members cs' := by
  obtain ⟨rs, h1⟩ := made_rep h
  obtain ⟨cs', rs', f1, f2, f3, f4, f5, f6, f7, _⟩ := fold_all hu hd h1 hm
  refine ⟨cs', f1, fun c hc h128 hgap => ?_⟩
  have hmr : ∀ d, 128 ≤ d → (d ∈ members cs ↔ MemR d rs) := fun d hd => by
    rw [mem_members h1, Has, if_neg (by omega)]
  have hcm := (hmr c h128).1 hc
  have hcan := h1.canon
  cases rs with
  | nil => simp at hcm
  | cons p r =>
    obtain ⟨x, hx, hx1, hx2⟩ := hcm
    rcases List.mem_cons.1 hx with rfl | hx
    · exact f7 x x r rfl (.inl rfl) c hx1 hx2
    · cases r with
      | nil => cases hx
      | cons q r' =>
        rcases List.mem_cons.1 hx with rfl | hx
        · exact f7 p x (x :: r') rfl (.inr rfl) c hx1 hx2
        · exfalso
          apply hgap
          obtain ⟨a1, a2, a3, b1, b2, b3, b4⟩ := hcan
          have hxc := (canon_mem b4 x hx).1
          have g1 := end_gap h1.canon (e := p) (by simp)
          have g2 := end_gap h1.canon (e := q) (by simp)
          refine ⟨p.2, p.2 + 1, q.1, q.2 + 1, by omega, by omega, by omega, by omega, by omega, ?_, ?_, ?_, ?_⟩
          · rw [hmr _ (by omega)]; exact ⟨p, by simp, by omega, by omega⟩
          · rw [hmr _ (by omega)]; exact g1
          · rw [hmr _ (by omega)]; exact ⟨q, by simp, by omega, by omega⟩
          · rw [hmr _ (by omega)]; exact g2

/-! ### The disagreement -/

/-- Case mappings as in Latin Extended-A: above ASCII, even codes are upper case, the next odd code is the lower case. -/
def exUp (c : Nat) : Nat := if c < 128 ∨ charMax < c then 0 else c - c % 2
def exDown (c : Nat) : Nat := if c < 128 ∨ charMax ≤ c then 0 else c + 1 - c % 2

theorem exUp_le (c : Nat) : exUp c ≤ charMax := by unfold exUp; split <;> omega
theorem exDown_le (c : Nat) : exDown c ≤ charMax := by unfold exDown; split <;> omega

/-- `#[ĀĂȀ]`. -/
def bugProg : List Cmd := [.new, .addRange 0 0x100 0x100, .addRange 0 0x102 0x102, .addRange 0 0x200 0x200]

/-- **C60, the disagreement.**  For the set U+0100, U+0102, U+0200 with the mappings of their blocks (even code = upper
case), the folded set lacks U+0201, the lower case of the member U+0200. -/
theorem C60_bug_members_not_folded : ∃ cs, Made cs ∧ cs.immutable = false ∧ 0x200 ∈ members cs ∧
    ∃ cs', cs.caseFold exUp exDown = some cs' ∧ exDown 0x200 = 0x201 ∧ 0x201 ∉ members cs' := by
  have hrun : ((run step bugProg []).bind fun h => h[0]?.bind fun cs =>
      (cs.caseFold exUp exDown).map fun cs' => (cs.immutable, cs.contains 0x200, cs'.contains 0x201)) =
      some (false, some true, some false) := by decide +kernel
  cases hr : run step bugProg [] with
  | none => rw [hr] at hrun; cases hrun
  | some hp =>
    rw [hr, Option.bind_some] at hrun
    cases hc : hp[0]? with
    | none => rw [hc] at hrun; cases hrun
    | some cs =>
      rw [hc, Option.bind_some] at hrun
      obtain ⟨cs', h1, h2⟩ := Option.map_eq_some_iff.1 hrun
      simp only [Prod.mk.injEq] at h2
      refine ⟨cs, ⟨bugProg, hp, hr, List.mem_of_getElem? hc⟩, h2.1, ⟨by decide, h2.2.1⟩, cs', h1, by decide, ?_⟩
      rintro ⟨_, h3⟩
      rw [h2.2.2] at h3
      cases h3

/-! ### The hypotheses are met -/

example : ((make.addRange 0x61 0x62).bind fun cs => (cs.addRange 0x101 0x105).bind fun cs =>
    (cs.addRange 0x200 0x200).bind fun cs => (cs.caseFold exUp exDown).bind (·.ranges)) =
    some [(0x41, 0x42), (0x61, 0x62), (0x100, 0x105), (0x200, 0x201)] := by decide +kernel

/-- The hypothesis of `C60_complete_partial` for the set U+0100, U+0200. -/
example (S : Set Nat) (hS : ∀ c, c ∈ S ↔ c = 0x100 ∨ c = 0x200) :
    ∀ c x, 128 ≤ c → Reach exUp exDown S c → (x = exUp c ∨ x = exDown c) → Reach exUp exDown S (x + 1) →
      c < x + 1 → x ∈ S := by
  have key : ∀ c, Reach exUp exDown S c → c = 0x100 ∨ c = 0x101 ∨ c = 0x200 ∨ c = 0x201 := by
    intro c hc
    induction hc with
    | base h => rcases (hS _).1 h with rfl | rfl <;> simp
    | up _ _ ih => rcases ih with rfl | rfl | rfl | rfl <;> decide
    | down _ _ ih => rcases ih with rfl | rfl | rfl | rfl <;> decide
    | lower h1 h2 h => rcases (hS _).1 h with rfl | rfl <;> omega
    | upper h1 h2 h => rcases (hS _).1 h with rfl | rfl <;> omega
  intro c x h128 h1 h2 h3 h4
  rw [hS]
  rcases key c h1 with rfl | rfl | rfl | rfl <;> rcases h2 with rfl | rfl <;> revert h3 h4 <;>
    simp only [exUp, exDown, charMax] <;> intro h3 h4 <;> simp at h3 h4 ⊢ <;> (have := key _ h3; omega)

end Gauche.CharSet

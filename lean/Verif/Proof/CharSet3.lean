import Verif.Proof.CharSet2
import Mathlib.Data.Set.Card
import Mathlib.Data.Nat.Lattice
import Mathlib.Order.Interval.Finset.Nat
/-! Every operation on a well-formed set. -/
namespace Gauche.CharSet
open Gauche.TreeMap Gauche.OrdList Std

theorem rep_make : Rep make [] := by
  refine ⟨trivial, fun _ => rfl, ?_⟩
  refine ⟨⟨⟨⟨0, .nil⟩, rfl⟩, .nil, rfl⟩, rfl⟩

theorem rep_num {t : T} (hi : TInv t) (hc : Canon 128 (elems t.root)) : t.num < intMax := by
  rw [hi.2.2]
  have h1 := canon_length hc
  have h2 : charMax + 1 - 128 < intMax := by decide
  omega

theorem addRange_spec {cs rs} (h : Rep cs rs) (hm : cs.immutable = false) {f u : Nat} (hu : u ≤ charMax) :
    ∃ cs' rs', cs.addRange f u = some cs' ∧ Rep cs' rs' ∧ cs'.immutable = false ∧
      ∀ c, Has cs' rs' c ↔ (f ≤ c ∧ c ≤ u) ∨ Has cs rs c := by
  obtain ⟨s, lp, l⟩ := cs
  cases l with
  | frozen => cases hm
  | tree t =>
    obtain ⟨h1, h2⟩ := h.data
    have hcan := h.canon
    unfold CharSet.addRange Has
    dsimp only
    by_cases hlt : u < f
    · rw [if_pos hlt]
      refine ⟨_, rs, rfl, h, rfl, fun c => ?_⟩
      have : ¬ (f ≤ c ∧ c ≤ u) := by omega
      simp [this]
    · rw [if_neg hlt]
      by_cases hf : f < smallChars
      · rw [if_pos hf]
        by_cases hus : u < smallChars
        · rw [if_pos hus]
          refine ⟨_, rs, rfl, ⟨hcan, h.flag, h1, h2⟩, rfl, fun c => ?_⟩
          dsimp only [fill]
          simp only [smallChars] at hf hus
          by_cases hc : c < 128
          · simp only [hc, if_true]
            by_cases hr : f ≤ c ∧ c < u + 1
            · rw [if_pos hr]; simp; left; omega
            · rw [if_neg hr]
              have : ¬ (f ≤ c ∧ c ≤ u) := by omega
              simp [this]
          · simp only [hc, if_false]
            have : ¬ (f ≤ c ∧ c ≤ u) := by omega
            simp [this]
        · rw [if_neg hus]
          simp only [smallChars] at hf hus
          obtain ⟨t', a1, a2, a3, a4⟩ := addLarge_spec t h1 (from_ := 128) (to_ := u) (by rw [h2]; exact hcan)
            (Nat.le_refl _) (by omega) hu
          show ∃ cs' rs', (addLarge t 128 u).map _ = _ ∧ _
          rw [a1]
          refine ⟨_, elems t'.root, rfl, ⟨a3, by simp, a2, rfl⟩, rfl, fun c => ?_⟩
          dsimp only [fill]
          by_cases hc : c < 128
          · rw [if_pos hc, if_pos hc]
            by_cases hr : f ≤ c ∧ c < smallChars
            · rw [if_pos hr]; simp; left; omega
            · rw [if_neg hr]
              have hr' : ¬ (f ≤ c ∧ c < 128) := hr
              have : ¬ (f ≤ c ∧ c ≤ u) := by omega
              simp [this]
          · simp only [hc, if_false]
            rw [a4 c, h2]
            have : (128 ≤ c ∧ c ≤ u) ↔ (f ≤ c ∧ c ≤ u) := by omega
            rw [this]
      · rw [if_neg hf]
        simp only [smallChars] at hf
        obtain ⟨t', a1, a2, a3, a4⟩ := addLarge_spec t h1 (from_ := f) (to_ := u) (by rw [h2]; exact hcan)
          (by omega) (by omega) hu
        rw [a1]
        refine ⟨_, elems t'.root, rfl, ⟨a3, by simp, a2, rfl⟩, rfl, fun c => ?_⟩
        dsimp only
        by_cases hc : c < 128
        · have : ¬ (f ≤ c ∧ c ≤ u) := by omega
          simp [hc, this]
        · simp only [hc, if_false]
          rw [a4 c, h2]

theorem addRanges_spec (l : List (Nat × Nat)) : ∀ {cs rs}, Rep cs rs → cs.immutable = false →
    (∀ e ∈ l, e.2 ≤ charMax) →
    ∃ cs' rs', addRanges l cs = some cs' ∧ Rep cs' rs' ∧ cs'.immutable = false ∧
      ∀ c, Has cs' rs' c ↔ MemR c l ∨ Has cs rs c := by
  induction l with
  | nil => intro cs rs h hm _; exact ⟨cs, rs, rfl, h, hm, by simp⟩
  | cons e l ih =>
    intro cs rs h hm hl
    obtain ⟨c1, r1, a1, a2, a3, a4⟩ := addRange_spec h hm (f := e.1) (hl e (by simp))
    obtain ⟨c2, r2, b1, b2, b3, b4⟩ := ih a2 a3 (fun x hx => hl x (by simp [hx]))
    refine ⟨c2, r2, ?_, b2, b3, fun c => ?_⟩
    · unfold addRanges; rw [a1]; exact b1
    · rw [b4, a4, memR_cons]; tauto

theorem add_spec {dst rd src rs} (hd : Rep dst rd) (hm : dst.immutable = false) (hs : Rep src rs) :
    ∃ cs' rs', dst.add src = some cs' ∧ Rep cs' rs' ∧ cs'.immutable = false ∧
      ∀ c, Has cs' rs' c ↔ Has dst rd c ∨ Has src rs c := by
  obtain ⟨s, lp, l⟩ := dst
  cases l with
  | frozen => cases hm
  | tree t =>
    unfold CharSet.add
    dsimp only
    rw [raw_eq hs]
    have hrep : Rep ⟨fun i => s i || src.small i, lp || src.largep, .tree t⟩ rd :=
      ⟨hd.canon, fun h => hd.flag (by simp at h; exact h.1), hd.data⟩
    obtain ⟨cs', rs', a1, a2, a3, a4⟩ := addRanges_spec rs hrep rfl (fun e he => (canon_mem hs.canon e he).2.2)
    refine ⟨cs', rs', a1, a2, a3, fun c => ?_⟩
    rw [a4]
    unfold Has
    dsimp only
    by_cases hc : c < 128
    · have : ¬ MemR c rs := by rintro ⟨x, hx, h⟩; have := canon_mem hs.canon x hx; omega
      simp [hc, this]
    · simp only [hc, if_false]; tauto

theorem complement_spec {cs rs} (h : Rep cs rs) (hm : cs.immutable = false) :
    ∃ cs' rs', cs.complement = some cs' ∧ Rep cs' rs' ∧ cs'.immutable = false ∧
      ∀ c, c ≤ charMax → (Has cs' rs' c ↔ ¬ Has cs rs c) := by
  obtain ⟨s, lp, l⟩ := cs
  cases l with
  | frozen => cases hm
  | tree t =>
    obtain ⟨h1, h2⟩ := h.data
    have hcan := h.canon
    have hnum := rep_num h1 (by rw [h2]; exact hcan)
    have hlen : rs.length < t.num + 1 := by rw [h1.2.2, h2]; omega
    obtain ⟨t1, c1, c2, c3⟩ := complLoop_eq (t.num + 1) 127 false t [] rs h1 (by simpa using h2) (by simp)
      ⟨128, by omega, hcan⟩ hlen hnum
    have hcc : Canon 128 (compl 127 rs) := compl_canon (last := 127) hcan (by decide)
    have hmem : ∀ c, 127 < c → c ≤ charMax → (MemR c (compl 127 rs) ↔ ¬ MemR c rs) :=
      compl_mem (last := 127) hcan (by decide)
    rw [List.nil_append] at c3
    have hlast : lastOf 127 rs ≤ charMax ∧ ∀ x ∈ gaps 127 rs, x.1 < lastOf 127 rs + 1 := by
      have gen : ∀ (l : List (Nat × Nat)) (last : Nat), last ≤ charMax → Canon (last + 1) l →
          last ≤ lastOf last l ∧ lastOf last l ≤ charMax ∧ ∀ x ∈ gaps last l, x.1 ≤ lastOf last l := by
        intro l
        induction l with
        | nil => intro last hl _; exact ⟨Nat.le_refl _, hl, by simp [gaps]⟩
        | cons e l ih =>
          intro last hl hc
          obtain ⟨q1, q2, q3, q4⟩ := hc
          obtain ⟨i1, i2, i3⟩ := ih e.2 q3 (canon_mono q4 (by omega))
          refine ⟨by simp only [lastOf]; omega, i2, ?_⟩
          intro x hx
          simp only [gaps] at hx
          simp only [lastOf]
          split at hx
          · rcases List.mem_cons.1 hx with rfl | hx
            · dsimp only; omega
            · exact i3 x hx
          · exact i3 x hx
      have := gen rs 127 (by decide) hcan
      exact ⟨this.2.1, fun x hx => by have := this.2.2 x hx; omega⟩
    unfold CharSet.complement
    dsimp only
    rw [show smallChars - 1 = 127 from rfl, c1]
    dsimp only [Option.bind_some]
    have hHas : ∀ (lp' : Bool) (t' : T), ∀ c, c ≤ charMax →
        (Has ⟨fun i => !s i, lp', .tree t'⟩ (compl 127 rs) c ↔ ¬ Has ⟨s, lp, .tree t⟩ rs c) := by
      intro lp' t' c hc
      unfold Has
      dsimp only
      by_cases hs : c < 128
      · simp [hs]
      · simp only [hs, if_false]; exact hmem c (by omega) hc
    by_cases hmax : lastOf 127 rs < charMax
    · rw [if_pos hmax]
      have hc1 : Canon 128 (gaps 127 rs) := by
        unfold compl at hcc
        rw [if_pos hmax] at hcc
        exact (canon_append.1 hcc).1
      have hn1 : t1.num < intMax := rep_num c2 (by rw [c3]; exact hc1)
      obtain ⟨t2, d1, d2, d3, d4⟩ := create_new t1 c2 (b := []) (fun _ => charMax) (by rw [c3]; simp)
        hlast.2 (by simp) hn1
      rw [d1]
      refine ⟨_, compl 127 rs, rfl, ⟨hcc, by simp, d2, ?_⟩, rfl, hHas _ _⟩
      rw [d3, compl, if_pos hmax]
    · rw [if_neg hmax]
      refine ⟨_, compl 127 rs, rfl, ⟨hcc, ?_, c2, ?_⟩, rfl, hHas _ _⟩
      · intro hlp
        rw [compl, if_neg hmax, List.append_nil]
        simpa using hlp
      · rw [c3, compl, if_neg hmax, List.append_nil]

theorem putAll_spec (l : List (Nat × Nat)) : ∀ (t : T) (a : List (Nat × Nat)), TInv t → elems t.root = a →
    Canon 128 (a ++ l) → ∃ t', putAll l t = some t' ∧ TInv t' ∧ elems t'.root = a ++ l := by
  induction l with
  | nil => intro t a hi he _; exact ⟨t, rfl, hi, by simpa using he⟩
  | cons e l ih =>
    intro t a hi he hc
    obtain ⟨q1, q2, q3, q4, q5, q6⟩ := canon_append.1 hc
    have hnum := rep_num hi (by rw [he]; exact q1)
    obtain ⟨t', c1, c2, c3, _⟩ := create_new t hi (a := a) (b := []) (k := e.1) (fun _ => e.2) (by rw [he]; simp)
      (fun x hx => by have := q3 x hx; have := canon_mem q1 x hx; omega) (by simp) hnum
    obtain ⟨t2, d1, d2, d3⟩ := ih t' (a ++ [e]) c2 (by rw [c3]) (by simpa using hc)
    exact ⟨t2, by unfold putAll; rw [c1]; exact d1, d2, by simpa using d3⟩

theorem copyTree_eq (t : Tree Nat Nat) : copyTree t = t := by
  induction t with
  | nil => rfl
  | node c l k v r ihl ihr => simp [copyTree, ihl, ihr]

theorem copy_spec {cs rs} (h : Rep cs rs) :
    ∃ cs', cs.copy = some cs' ∧ Rep cs' rs ∧ cs'.immutable = false ∧ ∀ c, Has cs' rs c ↔ Has cs rs c := by
  obtain ⟨s, lp, l⟩ := cs
  cases l with
  | tree t =>
    obtain ⟨h1, h2⟩ := h.data
    have : t.copy = t := treemap_copy t
    refine ⟨_, rfl, ⟨h.canon, h.flag, ?_⟩, rfl, fun c => Iff.rfl⟩
    rw [this]; exact ⟨h1, h2⟩
  | frozen size vec =>
    have hr := raw_eq h
    unfold CharSet.copy
    dsimp only
    rw [show pairs vec size (size + 1) 0 = some rs from hr]
    obtain ⟨t', c1, c2, c3⟩ := putAll_spec rs Core.init [] ⟨⟨⟨0, .nil⟩, rfl⟩, .nil, rfl⟩ rfl (by simpa using h.canon)
    dsimp only [Option.bind_some]
    rw [c1]
    exact ⟨_, rfl, ⟨h.canon, h.flag, c2, by simpa using c3⟩, rfl, fun c => Iff.rfl⟩

theorem freezeVec_spec {s lp t rs} (h : Rep ⟨s, lp, .tree t⟩ rs) :
    freezeVec ⟨s, lp, .tree t⟩ t = some (.frozen (rs.length * 2) (flat rs)) := by
  obtain ⟨h1, h2⟩ := h.data
  unfold freezeVec
  rw [iter_eq h]
  have : t.num = rs.length := by rw [h1.2.2, h2]
  simp [this]

theorem freeze_spec {cs rs} (h : Rep cs rs) :
    ∃ cs', cs.freeze = some cs' ∧ Rep cs' rs ∧ cs'.immutable = true ∧ ∀ c, Has cs' rs c ↔ Has cs rs c := by
  obtain ⟨s, lp, l⟩ := cs
  cases l with
  | frozen size vec => exact ⟨_, rfl, h, rfl, fun c => Iff.rfl⟩
  | tree t =>
    unfold CharSet.freeze
    dsimp only
    cases lp with
    | true =>
      rw [if_pos rfl, freezeVec_spec h]
      exact ⟨_, rfl, ⟨h.canon, by simp, rfl, rfl⟩, rfl, fun c => Iff.rfl⟩
    | false =>
      rw [if_neg (by simp)]
      obtain rfl := h.flag rfl
      exact ⟨_, rfl, ⟨trivial, by simp, rfl, rfl⟩, rfl, fun c => Iff.rfl⟩

theorem freezeX_spec {cs rs} (h : Rep cs rs) :
    ∃ cs', cs.freezeX = some cs' ∧ Rep cs' rs ∧ cs'.immutable = true ∧ ∀ c, Has cs' rs c ↔ Has cs rs c := by
  obtain ⟨s, lp, l⟩ := cs
  cases l with
  | frozen size vec => exact ⟨_, rfl, h, rfl, fun c => Iff.rfl⟩
  | tree t =>
    unfold CharSet.freezeX
    dsimp only
    cases lp with
    | true =>
      rw [if_pos rfl, freezeVec_spec h]
      exact ⟨_, rfl, ⟨h.canon, by simp, rfl, rfl⟩, rfl, fun c => Iff.rfl⟩
    | false =>
      rw [if_neg (by simp)]
      obtain rfl := h.flag rfl
      obtain ⟨h1, h2⟩ := h.data
      cases hr : t.root with
      | nil => exact ⟨_, rfl, ⟨trivial, by simp, rfl, rfl⟩, rfl, fun c => Iff.rfl⟩
      | node => rw [hr] at h2; simp at h2

/-! ### Comparison -/

theorem has_le {cs rs} (h : Rep cs rs) {c : Nat} (hc : Has cs rs c) : c ≤ charMax := by
  unfold Has at hc
  by_cases hs : c < 128
  · have : (128 : Nat) ≤ charMax := by decide
    omega
  · rw [if_neg hs] at hc
    obtain ⟨x, hx, h'⟩ := hc
    have := canon_mem h.canon x hx
    omega

theorem same_iff {x rx y ry} (hx : Rep x rx) (hy : Rep y ry) :
    (∀ c, Has x rx c ↔ Has y ry c) ↔ (∀ i < 128, x.small i = y.small i) ∧ rx = ry := by
  constructor
  · intro h
    constructor
    · intro i hi
      have := h i
      simp only [Has, hi, if_true] at this
      rw [Bool.eq_iff_iff]; exact this
    · refine canon_ext hx.canon hy.canon fun c => ?_
      by_cases hc : c < 128
      · have n1 : ¬ MemR c rx := by rintro ⟨z, hz, h'⟩; have := canon_mem hx.canon z hz; omega
        have n2 : ¬ MemR c ry := by rintro ⟨z, hz, h'⟩; have := canon_mem hy.canon z hz; omega
        simp [n1, n2]
      · have := h c
        simpa only [Has, hc, if_false] using this
  · rintro ⟨h1, rfl⟩ c
    unfold Has
    by_cases hc : c < 128
    · simp only [hc, if_true, h1 c hc]
    · simp only [hc, if_false]

theorem eq_spec {x rx y ry} (hx : Rep x rx) (hy : Rep y ry) :
    ∃ b, x.eq y = some b ∧ (b = true ↔ ∀ c, Has x rx c ↔ Has y ry c) := by
  rw [same_iff hx hy]
  unfold CharSet.eq
  have hall : ((List.range smallChars).all fun i => x.small i == y.small i) = true ↔
      ∀ i < 128, x.small i = y.small i := by
    simp [List.all_eq_true, smallChars]
  by_cases hs : ((List.range smallChars).all fun i => x.small i == y.small i) = true
  · rw [if_pos hs]
    have h1 := hall.1 hs
    have hi : (x.iter.bind fun p => y.iter.map fun q => decide (p = q)) = some (decide (rx = ry)) := by
      rw [iter_eq hx, iter_eq hy]; rfl
    cases hxl : x.large with
    | frozen => exact ⟨_, hi, by rw [decide_eq_true_eq]; exact ⟨fun h => ⟨h1, h⟩, fun h => h.2⟩⟩
    | tree a =>
      cases hyl : y.large with
      | frozen => exact ⟨_, hi, by rw [decide_eq_true_eq]; exact ⟨fun h => ⟨h1, h⟩, fun h => h.2⟩⟩
      | tree b =>
        have dx := hx.data
        have dy := hy.data
        rw [hxl] at dx
        rw [hyl] at dy
        obtain ⟨a1, a2⟩ := dx
        obtain ⟨b1, b2⟩ := dy
        dsimp only
        unfold treeEq
        by_cases hn : a.num ≠ b.num
        · rw [if_pos hn]
          refine ⟨false, rfl, ?_⟩
          rw [a1.2.2, b1.2.2, a2, b2] at hn
          simp only [Bool.false_eq_true, false_iff, not_and]
          rintro _ rfl
          exact hn rfl
        · rw [if_neg hn, treeEntries_eq a a1, treeEntries_eq b b1, a2, b2]
          exact ⟨_, rfl, by rw [decide_eq_true_eq]; exact ⟨fun h => ⟨h1, h⟩, fun h => h.2⟩⟩
  · rw [if_neg hs]
    refine ⟨false, rfl, ?_⟩
    simp only [Bool.false_eq_true, false_iff, not_and]
    intro h; exact absurd (hall.2 h) hs

theorem leLoop_spec {y ry} (hy : Rep y ry) (l : List (Nat × Nat)) : (∀ e ∈ l, e.1 ≤ e.2) →
    ∃ b, leLoop y l = some b ∧ (b = true ↔ ∀ c, MemR c l → MemR c ry) := by
  induction l with
  | nil => intro _; exact ⟨true, rfl, by simp⟩
  | cons e l ih =>
    intro hl
    obtain ⟨b, h1, h2⟩ := containsRange_spec hy (hl e (by simp))
    obtain ⟨b', h3, h4⟩ := ih (fun x hx => hl x (by simp [hx]))
    unfold leLoop
    rw [h1]
    dsimp only [Option.bind_some]
    cases b with
    | true =>
      rw [if_pos rfl]
      refine ⟨b', h3, ?_⟩
      rw [h4]
      have := h2.1 rfl
      constructor
      · intro h c hc
        rcases (memR_cons _ _ _).1 hc with hc | hc
        · exact this c hc.1 hc.2
        · exact h c hc
      · intro h c hc; exact h c ((memR_cons _ _ _).2 (.inr hc))
    | false =>
      rw [if_neg (by simp)]
      refine ⟨false, rfl, ?_⟩
      simp only [Bool.false_eq_true, false_iff]
      intro h
      have := h2.2 (fun c hc1 hc2 => h c ((memR_cons _ _ _).2 (.inl ⟨hc1, hc2⟩)))
      cases this

theorem le_spec {x rx y ry} (hx : Rep x rx) (hy : Rep y ry) :
    ∃ b, x.le y = some b ∧ (b = true ↔ ∀ c, Has x rx c → Has y ry c) := by
  unfold CharSet.le
  have hall : ((List.range smallChars).all fun i => !x.small i || y.small i) = true ↔
      ∀ i < 128, x.small i = true → y.small i = true := by
    simp only [List.all_eq_true, smallChars, List.mem_range]
    constructor
    · intro h i hi hx; have := h i hi; simpa [hx] using this
    · intro h i hi
      cases hxi : x.small i with
      | false => rfl
      | true => simp [h i hi hxi]
  have key : (∀ c, Has x rx c → Has y ry c) ↔
      (∀ i < 128, x.small i = true → y.small i = true) ∧ ∀ c, MemR c rx → MemR c ry := by
    constructor
    · intro h
      refine ⟨fun i hi => ?_, fun c hc => ?_⟩
      · have := h i; simpa only [Has, hi, if_true] using this
      · obtain ⟨z, hz, h'⟩ := hc
        have h3 := canon_mem hx.canon z hz
        have := h c
        rw [Has, Has, if_neg (by omega), if_neg (by omega)] at this
        exact this ⟨z, hz, h'⟩
    · rintro ⟨h1, h2⟩ c
      unfold Has
      by_cases hc : c < 128
      · simp only [hc, if_true]; exact h1 c hc
      · simp only [hc, if_false]; exact h2 c
  rw [key]
  by_cases hs : ((List.range smallChars).all fun i => !x.small i || y.small i) = true
  · rw [if_pos hs, iter_eq hx]
    obtain ⟨b, h1, h2⟩ := leLoop_spec hy rx (fun e he => (canon_mem hx.canon e he).2.1)
    refine ⟨b, h1, ?_⟩
    rw [h2]
    have := hall.1 hs
    exact ⟨fun h => ⟨this, h⟩, fun h => h.2⟩
  · rw [if_neg hs]
    refine ⟨false, rfl, ?_⟩
    simp only [Bool.false_eq_true, false_iff, not_and]
    intro h; exact absurd (hall.2 h) hs

/-! ### Ranges and size -/

theorem smallRuns_spec (b : Nat → Bool) : ∀ (n ind beg : Nat) (prev : Bool), (prev = true → beg < ind) →
    ind + n ≤ 128 →
    (∀ c, MemR c (smallRuns b n ind beg prev) ↔
      (prev = true ∧ beg ≤ c ∧ c < ind ) ∨ (ind ≤ c ∧ c < ind + n ∧ b c = true)) ∧
    Canon (if prev then beg else ind) (smallRuns b n ind beg prev) := by
  intro n
  have hmax : (128 : Nat) ≤ charMax := by decide
  induction n with
  | zero =>
    intro ind beg prev hp hn
    unfold smallRuns
    cases prev with
    | false => simp [Canon]; intros; omega
    | true =>
      have := hp rfl
      simp only [if_true]
      refine ⟨fun c => ?_, Nat.le_refl _, by dsimp only; omega, by dsimp only; omega, trivial⟩
      simp only [memR_cons, memR_nil, or_false, true_and]
      omega
  | succ n ih =>
    intro ind beg prev hp hn
    unfold smallRuns
    cases hb : b ind with
    | false =>
      have ih' := ih (ind + 1) beg false (by simp) (by omega)
      have ih'' := ih (ind + 1) beg false (by simp) (by omega)
      cases prev with
      | false =>
        simp only [Bool.false_and, Bool.false_eq_true, if_false, Bool.and_false] at ih' ⊢
        refine ⟨fun c => ?_, canon_mono ih'.2 (by omega)⟩
        rw [ih'.1 c]
        constructor
        · rintro (h | h)
          · exact absurd h.1 (by simp)
          · exact .inr ⟨by omega, by omega, h.2.2⟩
        · rintro (h | h)
          · exact absurd h.1 (by simp)
          · have : c ≠ ind := by rintro rfl; rw [hb] at h; simp at h
            exact .inr ⟨by omega, by omega, h.2.2⟩
      | true =>
        have := hp rfl
        simp only [Bool.not_false, Bool.and_true, if_true]
        simp only [Bool.false_eq_true, if_false] at ih'
        refine ⟨fun c => ?_, Nat.le_refl _, by dsimp only; omega, by dsimp only; omega,
          canon_mono ih'.2 (by dsimp only; omega)⟩
        rw [memR_cons, ih'.1 c]
        dsimp only
        constructor
        · rintro (h | h | h)
          · left; exact ⟨by trivial, by omega, by omega⟩
          · exact absurd h.1 (by simp)
          · exact .inr ⟨by omega, by omega, h.2.2⟩
        · rintro (h | h)
          · left; omega
          · have : c ≠ ind := by rintro rfl; rw [hb] at h; simp at h
            exact .inr (.inr ⟨by omega, by omega, h.2.2⟩)
    | true =>
      cases prev with
      | false =>
        have ih' := ih (ind + 1) ind true (by intro; omega) (by omega)
        simp only [Bool.false_and, Bool.false_eq_true, if_false, Bool.not_false, Bool.true_and, if_true] at ih' ⊢
        refine ⟨fun c => ?_, ih'.2⟩
        rw [ih'.1 c]
        constructor
        · rintro (h | h)
          · have : c = ind := by omega
            exact .inr ⟨by omega, by omega, by rw [this]; exact hb⟩
          · exact .inr ⟨by omega, by omega, h.2.2⟩
        · rintro (h | h)
          · exact absurd h.1 (by simp)
          · by_cases hci : c = ind
            · left; exact ⟨by trivial, by omega, by omega⟩
            · exact .inr ⟨by omega, by omega, h.2.2⟩
      | true =>
        have hlt := hp rfl
        have ih' := ih (ind + 1) beg true (by intro; omega) (by omega)
        simp only [Bool.not_true, Bool.and_false, Bool.false_and, Bool.false_eq_true, if_false, if_true] at ih' ⊢
        refine ⟨fun c => ?_, ih'.2⟩
        rw [ih'.1 c]
        constructor
        · rintro (h | h)
          · by_cases hci : c = ind
            · exact .inr ⟨by omega, by omega, by rw [hci]; exact hb⟩
            · left; exact ⟨by trivial, by omega, by omega⟩
          · exact .inr ⟨by omega, by omega, h.2.2⟩
        · rintro (h | h)
          · left; exact ⟨by trivial, by omega, by omega⟩
          · by_cases hci : c = ind
            · left; exact ⟨by trivial, by omega, by omega⟩
            · exact .inr ⟨by omega, by omega, h.2.2⟩

/-- Ascending disjoint ranges. -/
def Asc (l : List (Nat × Nat)) : Prop := (∀ e ∈ l, e.1 ≤ e.2) ∧ l.Pairwise fun a b => a.2 < b.1

theorem canon_gap {l : List (Nat × Nat)} : ∀ {b}, Canon b l → l.Pairwise fun a b => a.2 + 2 ≤ b.1 := by
  induction l with
  | nil => intro b _; exact .nil
  | cons e l ih =>
    intro b h
    exact .cons (fun x hx => (canon_mem h.2.2.2 x hx).1) (ih h.2.2.2)

theorem ranges_spec {cs rs} (h : Rep cs rs) : ∃ l, cs.ranges = some l ∧ Asc l ∧
    (∀ c, MemR c l ↔ Has cs rs c) ∧
    l.Pairwise fun a b => a.2 + 1 < b.1 ∨ (a.2 = 127 ∧ b.1 = 128) := by
  obtain ⟨m1, m2⟩ := smallRuns_spec cs.small 128 0 0 false (by simp) (Nat.le_refl _)
  simp only [Bool.false_eq_true, if_false, false_and, false_or, Nat.zero_add] at m1 m2
  have hsm : ∀ x ∈ smallRuns cs.small 128 0 0 false, x.1 ≤ x.2 ∧ x.2 < 128 := by
    intro x hx
    have h1 := (canon_mem m2 x hx).2.1
    have := (m1 x.2).1 ⟨x, hx, h1, Nat.le_refl _⟩
    exact ⟨h1, this.2.1⟩
  have hpw : (smallRuns cs.small 128 0 0 false ++ rs).Pairwise
      fun a b => a.2 + 1 < b.1 ∨ (a.2 = 127 ∧ b.1 = 128) := by
    rw [List.pairwise_append]
    refine ⟨(canon_gap m2).imp (fun h => .inl (by omega)), (canon_gap h.canon).imp (fun h => .inl (by omega)), ?_⟩
    intro x hx y hy
    have h1 := hsm x hx
    have h2 := canon_mem h.canon y hy
    omega
  refine ⟨smallRuns cs.small 128 0 0 false ++ rs, ?_, ⟨?_, ?_⟩, ?_, hpw⟩
  · unfold CharSet.ranges; rw [iter_eq h]; rfl
  · intro e he
    rcases List.mem_append.1 he with he | he
    · exact (hsm e he).1
    · exact (canon_mem h.canon e he).2.1
  · exact hpw.imp (fun h => by omega)
  · intro c
    rw [memR_append, m1 c]
    unfold Has
    by_cases hc : c < 128
    · have : ¬ MemR c rs := by rintro ⟨x, hx, h'⟩; have := canon_mem h.canon x hx; omega
      simp [hc, this]
    · simp [hc]

theorem asc_card (l : List (Nat × Nat)) : Asc l → ∀ z : Int,
    (∃ B, ∀ c, MemR c l → c < B) ∧
    l.foldl (fun count r => count + ((r.2 : Int) - (r.1 : Int) - (-1))) z = z + ({c | MemR c l}.ncard : Int) := by
  induction l with
  | nil => intro _ z; simp
  | cons e l ih =>
    rintro ⟨h1, h2⟩ z
    have h2' := List.pairwise_cons.1 h2
    have hl : Asc l := ⟨fun x hx => h1 x (by simp [hx]), h2'.2⟩
    have he := h1 e (by simp)
    obtain ⟨⟨B, hB⟩, hz⟩ := ih hl (z + ((e.2 : Int) - (e.1 : Int) - (-1)))
    refine ⟨⟨max B (e.2 + 1), fun c hc => ?_⟩, ?_⟩
    · rcases (memR_cons _ _ _).1 hc with hc | hc
      · omega
      · have := hB c hc; omega
    · rw [List.foldl_cons, hz]
      have hset : {c | MemR c (e :: l)} = ((Finset.Icc e.1 e.2 : Finset Nat) : Set Nat) ∪ {c | MemR c l} := by
        ext c; simp
      have hdis : Disjoint ((Finset.Icc e.1 e.2 : Finset Nat) : Set Nat) {c | MemR c l} := by
        rw [Set.disjoint_left]
        intro c hc hc'
        simp at hc hc'
        obtain ⟨x, hx, h⟩ := hc'
        have := h2'.1 x hx
        omega
      have hfin : {c | MemR c l}.Finite := Set.Finite.subset (Set.finite_Iio B) (fun c hc => hB c hc)
      rw [hset, Set.ncard_union_eq hdis (Finset.finite_toSet _) hfin, Set.ncard_coe_finset, Nat.card_Icc]
      push_cast
      omega

theorem size_spec {cs rs} (h : Rep cs rs) : cs.size = some ({c | Has cs rs c}.ncard : Int) := by
  obtain ⟨l, h1, h2, h3, _⟩ := ranges_spec h
  unfold CharSet.size
  rw [h1]
  dsimp only [Option.map_some]
  rw [(asc_card l h2 0).2]
  have : {c | MemR c l} = {c | Has cs rs c} := by ext c; exact h3 c
  rw [this, Int.zero_add]
end Gauche.CharSet

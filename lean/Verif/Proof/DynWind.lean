import Verif.Spec.DynWind
/-!
# Proofs for the dynamic-wind model
-/

namespace Gauche.DynWind
open Spec

/-- Where each entry sits: its address determines the entry and the chain it
    was pushed on. -/
abbrev Tree := Nat → Option (Entry × Chain)

inductive WF (T : Tree) : Chain → Prop
  | nil : WF T []
  | cons {e : Entry} {c : Chain} : T e.id = some (e, c) → WF T c → WF T (e :: c)

/-- A list of actions that leads from one chain to another. -/
inductive Path (T : Tree) : Chain → List Act → Chain → Prop
  | nil {c : Chain} : Path T c [] c
  | leave {e : Entry} {c : Chain} {hd : List Act} {t : Chain} :
      Path T c hd t → Path T (e :: c) ((false, e :: c) :: hd) t
  | enter {e : Entry} {c : Chain} {hd : List Act} {t : Chain} :
      WF T (e :: c) → Path T (e :: c) hd t → Path T c ((true, e :: c) :: hd) t

/-- The chain a continuation expects in `vm->dynamicHandlers` when it is
    resumed. -/
inductive Inside (T : Tree) (eps : List EP) : List Frame → Chain → Prop
  | nil : Inside T eps [] []
  | arg {k c d x y z} : Inside T eps k c → Inside T eps (.arg d x y z :: k) c
  | br {k c d x y z} : Inside T eps k c → Inside T eps (.br d x y z :: k) c
  | dwBefore {k c d x y z} : Inside T eps k c →
      Inside T eps (.dwBefore d x y z :: k) c
  | dwAfter {k c d x} : Inside T eps k c → Inside T eps (.dwAfter d x :: k) c
  | dwBody {k : List Frame} {c : Chain} {e : Entry} : Inside T eps k c →
      T e.id = some (e, c) →
      Inside T eps (.dwBody e.denv e e.after :: k) (e :: c)
  | prompt {k c d t h} : Inside T eps k c →
      Inside T eps (.prompt d t h c :: k) c
  | throwA {k : List Frame} {c : Chain} {d rest ep args p} :
      eps[ep]? = some p → WF T c → Path T c rest p.handlers →
      Inside T eps (.throwCC d rest ep args none :: k) c
  | throwB {k : List Frame} {c : Chain} {e d rest ep args p} :
      eps[ep]? = some p → WF T (e :: c) → Path T (e :: c) rest p.handlers →
      Inside T eps (.throwCC d rest ep args (some (e :: c)) :: k) c
  | abort {k : List Frame} {hs c : Chain} {d' d t h args} :
      Inside T eps k hs → WF T c → hs <:+ c →
      Inside T eps (.abortCC d' (.prompt d t h hs :: k) args
        :: .prompt d t h hs :: k) c

/-- The invariant. -/
structure Inv (T : Tree) (vm : Vm) : Prop where
  fresh : ∀ i, vm.next ≤ i → T i = none
  wf : WF T vm.handlers
  inside : Inside T vm.eps vm.cont vm.handlers
  eps : ∀ p ∈ vm.eps, WF T p.handlers ∧ Inside T vm.eps p.cont p.handlers
  rep : replay [] vm.trace = some vm.handlers
  ent : ∀ p e q, vm.trace = p ++ .enter e :: q →
    ∃ c, replay [] p = some c ∧ T e.id = some (e, c)

/-! ## trees -/

def Le (T T' : Tree) : Prop := ∀ i x, T i = some x → T' i = some x

theorem Le.refl (T : Tree) : Le T T := fun _ _ h => h

theorem WF.mono {T T' : Tree} (h : Le T T') {c : Chain} (w : WF T c) :
    WF T' c := by
  induction w with
  | nil => exact .nil
  | cons h1 _ ih => exact .cons (h _ _ h1) ih

theorem Path.mono {T T' : Tree} (h : Le T T') {c hd t} (w : Path T c hd t) :
    Path T' c hd t := by
  induction w with
  | nil => exact .nil
  | leave _ ih => exact .leave ih
  | enter h1 _ ih => exact .enter (h1.mono h) ih

theorem Inside.mono {T T' : Tree} (h : Le T T') {eps : List EP}
    (more : List EP) {k : List Frame} {c : Chain} (w : Inside T eps k c) :
    Inside T' (eps ++ more) k c := by
  have hg : ∀ (i : Nat) p, eps[i]? = some p → (eps ++ more)[i]? = some p := by
    intro i p hp
    have := (List.getElem?_eq_some_iff.1 hp).1
    rw [List.getElem?_append_left this, hp]
  induction w with
  | nil => exact .nil
  | arg _ ih => exact .arg ih
  | br _ ih => exact .br ih
  | dwBefore _ ih => exact .dwBefore ih
  | dwAfter _ ih => exact .dwAfter ih
  | dwBody _ h1 ih => exact .dwBody ih (h _ _ h1)
  | prompt _ ih => exact .prompt ih
  | throwA h1 h2 h3 => exact .throwA (hg _ _ h1) (h2.mono h) (h3.mono h)
  | throwB h1 h2 h3 => exact .throwB (hg _ _ h1) (h2.mono h) (h3.mono h)
  | abort _ h2 h3 ih => exact .abort ih (h2.mono h) h3

theorem WF.suffix {T : Tree} {c d : Chain} (w : WF T c) (h : d <:+ c) :
    WF T d := by
  induction w with
  | nil => rw [List.suffix_nil.1 h]; exact .nil
  | cons h1 h2 ih =>
    rcases List.suffix_cons_iff.1 h with rfl | h'
    · exact .cons h1 h2
    · exact ih h'

theorem Inside.wf {T : Tree} {eps : List EP} {k : List Frame} {c : Chain}
    (w : Inside T eps k c) : WF T c := by
  induction w with
  | nil => exact .nil
  | arg _ ih => exact ih
  | br _ ih => exact ih
  | dwBefore _ ih => exact ih
  | dwAfter _ ih => exact ih
  | dwBody _ h1 ih => exact .cons h1 ih
  | prompt _ ih => exact ih
  | throwA _ h2 _ => exact h2
  | throwB _ h2 _ => exact h2.suffix (List.suffix_cons _ _)
  | abort _ h2 _ _ => exact h2

theorem Path.wf {T : Tree} {c hd t} (p : Path T c hd t) (h : WF T c) :
    WF T t := by
  induction p with
  | nil => exact h
  | leave _ ih => exact ih (h.suffix (List.suffix_cons _ _))
  | enter h1 _ ih => exact ih h1

/-! ## the path computation -/

theorem memq_eq {T : Tree} {e : Entry} {c : Chain} (w : WF T c)
    (he : ∃ d, T e.id = some (e, d)) : memq e c = true ↔ e ∈ c := by
  induction w with
  | nil => simp [memq]
  | @cons x tl h1 _ ih =>
    unfold memq
    by_cases h : x.id = e.id
    · obtain ⟨d, hd⟩ := he
      rw [h, hd] at h1
      simp at h1
      rw [if_pos h]
      simp [h1.1]
    · rw [if_neg h, ih]
      constructor
      · intro h'; exact List.mem_cons_of_mem _ h'
      · intro h'
        rcases List.mem_cons.1 h' with rfl | h'
        · exact absurd rfl h
        · exact h'

/-- An entry is followed by the same entries wherever it occurs. -/
theorem WF.tail_eq {T : Tree} {c : Chain} (w : WF T c) {e : Entry}
    (h : e ∈ c) : ∃ d, T e.id = some (e, d) ∧ (e :: d) <:+ c := by
  induction w with
  | nil => cases h
  | @cons x tl h1 _ ih =>
    rcases List.mem_cons.1 h with rfl | h
    · exact ⟨tl, h1, List.suffix_refl _⟩
    · obtain ⟨d, h2, h3⟩ := ih h
      exact ⟨d, h2, h3.trans (List.suffix_cons _ _)⟩

theorem WF.head {T : Tree} {e : Entry} {c : Chain} (w : WF T (e :: c)) :
    T e.id = some (e, c) := by cases w; assumption

theorem WF.tail {T : Tree} {e : Entry} {c : Chain} (w : WF T (e :: c)) :
    WF T c := by cases w; assumption

/-- The leaves along `l` down to a chain below. -/
def leaves : Chain → Chain → List Act
  | [], _ => []
  | e :: a, c => (false, e :: (a ++ c)) :: leaves a c

/-- The entries along `l`, outermost first, on top of a chain. -/
def enters : Chain → Chain → List Act
  | [], _ => []
  | e :: b, c => enters b c ++ [(true, e :: (b ++ c))]

theorem calcAfters_eq {T : Tree} {t c : Chain} (wt : WF T t) :
    ∀ a, WF T (a ++ c) → (∀ e ∈ a, e ∉ t) → c <:+ t →
      calcAfters t (a ++ c) = leaves a c
  | [], w, _, hs => by
    cases c with
    | nil => rfl
    | cons e tl =>
      have he : e ∈ t := hs.subset (List.mem_cons_self ..)
      show calcAfters t (e :: tl) = []
      rw [calcAfters, if_pos ((memq_eq wt ⟨tl, WF.head w⟩).2 he)]
  | e :: a, w, hn, hs => by
    have h1 : ¬ memq e t = true := by
      rw [memq_eq wt ⟨a ++ c, WF.head w⟩]; exact hn e (List.mem_cons_self ..)
    show calcAfters t (e :: (a ++ c)) = (false, e :: (a ++ c)) :: leaves a c
    rw [calcAfters, if_neg h1]
    rw [calcAfters_eq wt a w.tail
      (fun x hx => hn x (List.mem_cons_of_mem _ hx)) hs]

theorem calcBefores_eq {T : Tree} {t c : Chain} (wt : WF T t) :
    ∀ b acc, WF T (b ++ c) → (∀ e ∈ b, e ∉ t) → c <:+ t →
      calcBefores t acc (b ++ c) = enters b c ++ acc
  | [], acc, w, _, hs => by
    cases c with
    | nil => rfl
    | cons e tl =>
      have he : e ∈ t := hs.subset (List.mem_cons_self ..)
      show calcBefores t acc (e :: tl) = acc
      rw [calcBefores, if_pos ((memq_eq wt ⟨tl, WF.head w⟩).2 he)]
  | e :: b, acc, w, hn, hs => by
    have h1 : ¬ memq e t = true := by
      rw [memq_eq wt ⟨b ++ c, WF.head w⟩]; exact hn e (List.mem_cons_self ..)
    show calcBefores t acc (e :: (b ++ c)) = _
    rw [calcBefores, if_neg h1]
    rw [calcBefores_eq wt b _ w.tail
      (fun x hx => hn x (List.mem_cons_of_mem _ hx)) hs]
    simp [enters]

/-- Two chains of a tree: private parts and a common end. -/
theorem split {T : Tree} {t : Chain} (wt : WF T t) :
    ∀ c, WF T c → ∃ a s, c = a ++ s ∧ s <:+ t ∧ ∀ e ∈ a, e ∉ t
  | [], _ => ⟨[], [], rfl, List.nil_suffix, by simp⟩
  | e :: tl, w => by
    by_cases h : e ∈ t
    · obtain ⟨d, h1, h2⟩ := wt.tail_eq h
      rw [w.head] at h1
      injection h1 with h1; injection h1 with _ h1
      subst h1
      exact ⟨[], e :: tl, rfl, h2, by simp⟩
    · obtain ⟨a, s, h1, h2, h3⟩ := split wt tl w.tail
      refine ⟨e :: a, s, by simp [h1], h2, ?_⟩
      intro x hx
      rcases List.mem_cons.1 hx with rfl | hx
      · exact h
      · exact h3 x hx

theorem WF.length_lt {T : Tree} {e : Entry} {c : Chain} (w : WF T (e :: c)) :
    e ∉ c := by
  intro h
  obtain ⟨d, h1, h2⟩ := w.tail.tail_eq h
  rw [w.head] at h1
  injection h1 with h1; injection h1 with _ h1
  subst h1
  have := h2.length_le
  simp at this
  omega

/-- If the private part of one chain avoids the other then so does the
    private part of the other, with the same common end. -/
theorem split2 {T : Tree} {t c : Chain} (wt : WF T t) (wc : WF T c) :
    ∃ a b s, c = a ++ s ∧ t = b ++ s ∧ (∀ e ∈ a, e ∉ t) ∧ (∀ e ∈ b, e ∉ c) := by
  obtain ⟨a, s, h1, ⟨b, h2⟩, h3⟩ := split wt c wc
  refine ⟨a, b, s, h1, h2.symm, h3, ?_⟩
  intro e he hc
  have : e ∈ s := by
    rw [h1] at hc
    rcases List.mem_append.1 hc with h | h
    · exact absurd (h2 ▸ List.mem_append_left _ he) (h3 e h)
    · exact h
  -- e occurs in b and in s: impossible in a well formed chain
  obtain ⟨b1, b2, rfl⟩ := List.append_of_mem he
  have w' : WF T (e :: (b2 ++ s)) := by
    apply wt.suffix
    rw [← h2]
    exact ⟨b1, by simp⟩
  exact w'.length_lt (List.mem_append_right _ this)

theorem sameCell_iff {T : Tree} {t c : Chain} (wt : WF T t) (wc : WF T c) :
    sameCell t c = true ↔ t = c := by
  cases t with
  | nil => cases c <;> simp [sameCell]
  | cons a t =>
    cases c with
    | nil => simp [sameCell]
    | cons b c =>
      simp only [sameCell, decide_eq_true_eq]
      constructor
      · intro h
        have h1 := wt.head
        rw [h, wc.head] at h1
        simp at h1
        rw [h1.1, h1.2]
      · intro h; injection h with h _; rw [h]

theorem calculate_eq {T : Tree} {a b s : Chain} (wt : WF T (b ++ s))
    (wc : WF T (a ++ s)) (ha : ∀ e ∈ a, e ∉ b ++ s)
    (hb : ∀ e ∈ b, e ∉ a ++ s) :
    calculateHandlers (b ++ s) (a ++ s) = leaves a s ++ enters b s := by
  unfold calculateHandlers
  by_cases h : sameCell (b ++ s) (a ++ s) = true
  · rw [if_pos h]
    have h := (sameCell_iff wt wc).1 h
    have h1 : a = [] := by
      cases a with
      | nil => rfl
      | cons x a => exact absurd (h ▸ by simp) (ha x (by simp))
    have h2 : b = [] := by
      cases b with
      | nil => rfl
      | cons x b => exact absurd (h ▸ by simp) (hb x (by simp))
    subst h1; subst h2; rfl
  · rw [if_neg h, calcAfters_eq wt a wc ha ⟨b, rfl⟩,
        calcBefores_eq wc b [] wt hb ⟨a, rfl⟩, List.append_nil]

theorem Path.append {T : Tree} {c hd d hd' t} (p : Path T c hd d)
    (q : Path T d hd' t) : Path T c (hd ++ hd') t := by
  induction p with
  | nil => exact q
  | leave _ ih => exact .leave (ih q)
  | enter h1 _ ih => exact .enter h1 (ih q)

theorem leaves_path {T : Tree} (s : Chain) :
    ∀ a, Path T (a ++ s) (leaves a s) s
  | [] => .nil
  | _ :: a => .leave (leaves_path s a)

theorem enters_path {T : Tree} (s : Chain) :
    ∀ b, WF T (b ++ s) → Path T s (enters b s) (b ++ s)
  | [], _ => .nil
  | _ :: b, w => (enters_path s b w.tail).append (.enter w .nil)

theorem calculate_path {T : Tree} {t c : Chain} (wt : WF T t) (wc : WF T c) :
    Path T c (calculateHandlers t c) t := by
  obtain ⟨a, b, s, rfl, rfl, ha, hb⟩ := split2 wt wc
  rw [calculate_eq wt wc ha hb]
  exact (leaves_path s a).append (enters_path s b wt)

/-! ## replay -/

theorem replay_append (c : Chain) (x y : List Ev) :
    replay c (x ++ y) = (replay c x).bind (fun d => replay d y) := by
  induction x generalizing c with
  | nil => rfl
  | cons a x ih =>
    cases a with
    | enter e => exact ih _
    | leave e =>
      cases c with
      | nil => rfl
      | cons z c =>
        simp only [List.cons_append, replay]
        by_cases h : z.id = e.id
        · rw [if_pos h, if_pos h, ih]
        · rw [if_neg h, if_neg h]; rfl

/-! ## preservation -/

/-- States with the same chain, history and counter. -/
theorem Inv.mk' {T : Tree} {vm vm' : Vm} (h : Inv T vm)
    (hn : vm'.next = vm.next) (hh : vm'.handlers = vm.handlers)
    (he : vm'.eps = vm.eps) (ht : vm'.trace = vm.trace)
    (hi : Inside T vm.eps vm'.cont vm.handlers) : Inv T vm' where
  fresh := by rw [hn]; exact h.fresh
  wf := by rw [hh]; exact h.wf
  inside := by rw [hh, he]; exact hi
  eps := by rw [he]; exact h.eps
  rep := by rw [ht, hh]; exact h.rep
  ent := by rw [ht]; exact h.ent

/-- An entry is added. -/
theorem ent_enter {T : Tree} {tr : List Ev} {c : Chain} {e : Entry}
    (h : ∀ p x q, tr = p ++ .enter x :: q →
      ∃ c, replay [] p = some c ∧ T x.id = some (x, c))
    (hr : replay [] tr = some c) (he : T e.id = some (e, c)) :
    ∀ p x q, tr ++ [.enter e] = p ++ .enter x :: q →
      ∃ c, replay [] p = some c ∧ T x.id = some (x, c) := by
  intro p x q hq
  rcases List.eq_nil_or_concat q with rfl | ⟨q', l, rfl⟩
  · have := List.append_inj' hq rfl
    simp at this
    obtain ⟨rfl, rfl⟩ := this
    exact ⟨c, hr, he⟩
  · have hq' : tr ++ [.enter e] = (p ++ .enter x :: q') ++ [l] := by simp [hq]
    exact h p x q' (List.append_inj' hq' rfl).1

/-- An exit is recorded. -/
theorem ent_leave {T : Tree} {tr : List Ev} {e : Entry}
    (h : ∀ p x q, tr = p ++ .enter x :: q →
      ∃ c, replay [] p = some c ∧ T x.id = some (x, c)) :
    ∀ p x q, tr ++ [.leave e] = p ++ .enter x :: q →
      ∃ c, replay [] p = some c ∧ T x.id = some (x, c) := by
  intro p x q hq
  rcases List.eq_nil_or_concat q with rfl | ⟨q', l, rfl⟩
  · have := List.append_inj' hq rfl
    simp at this
  · have hq' : tr ++ [.leave e] = (p ++ .enter x :: q') ++ [l] := by simp [hq]
    exact h p x q' (List.append_inj' hq' rfl).1

/-- Leaving the innermost extent. -/
theorem Inv.leave {T : Tree} {vm vm' : Vm} (h : Inv T vm) {e : Entry}
    {c : Chain} (hc : vm.handlers = e :: c)
    (hn : vm'.next = vm.next) (hh : vm'.handlers = c)
    (he : vm'.eps = vm.eps) (ht : vm'.trace = vm.trace ++ [.leave e])
    (hi : Inside T vm.eps vm'.cont c) : Inv T vm' where
  fresh := by rw [hn]; exact h.fresh
  wf := by rw [hh]; have := h.wf; rw [hc] at this; exact this.tail
  inside := by rw [hh, he]; exact hi
  eps := by rw [he]; exact h.eps
  rep := by
    rw [ht, hh, replay_append, h.rep, hc]
    simp [replay]
  ent := by rw [ht]; exact ent_leave h.ent

/-- Entering a known extent. -/
theorem Inv.enter {T : Tree} {vm vm' : Vm} (h : Inv T vm) {e : Entry}
    (hw : WF T (e :: vm.handlers))
    (hn : vm'.next = vm.next) (hh : vm'.handlers = e :: vm.handlers)
    (he : vm'.eps = vm.eps) (ht : vm'.trace = vm.trace ++ [.enter e])
    (hi : Inside T vm.eps vm'.cont (e :: vm.handlers)) : Inv T vm' where
  fresh := by rw [hn]; exact h.fresh
  wf := by rw [hh]; exact hw
  inside := by rw [hh, he]; exact hi
  eps := by rw [he]; exact h.eps
  rep := by
    rw [ht, hh, replay_append, h.rep]
    simp [replay]
  ent := by rw [ht]; exact ent_enter h.ent h.rep hw.head

/-- The invariant of a throw in progress, as seen by `throw_cont_body`: the
    continuation register is the abandoned one. -/
structure InvT (T : Tree) (vm : Vm) (hd : List Act) (ep : Nat) : Prop where
  fresh : ∀ i, vm.next ≤ i → T i = none
  wf : WF T vm.handlers
  path : ∃ p, vm.eps[ep]? = some p ∧ Path T vm.handlers hd p.handlers
  eps : ∀ p ∈ vm.eps, WF T p.handlers ∧ Inside T vm.eps p.cont p.handlers
  rep : replay [] vm.trace = some vm.handlers
  ent : ∀ p e q, vm.trace = p ++ .enter e :: q →
    ∃ c, replay [] p = some c ∧ T e.id = some (e, c)

theorem throwContBody_inv {T : Tree} {vm : Vm} {hd : List Act} {ep : Nat}
    {args : List Val} {u : Vm} (h : InvT T vm hd ep)
    (hs : throwContBody vm hd ep args = some u) : Inv T u := by
  obtain ⟨p, hp, hpath⟩ := h.path
  have hw := h.wf
  cases hd with
  | nil =>
    simp only [throwContBody, hp, Option.some.injEq] at hs
    subst hs
    generalize hg : vm.handlers = c at hpath
    cases hpath
    have he := h.eps p (List.mem_of_getElem? hp)
    refine ⟨h.fresh, hg ▸ hw, he.2, h.eps, ?_, h.ent⟩
    show replay [] vm.trace = some p.handlers
    rw [h.rep, hg]
  | cons a rest =>
    generalize hg : vm.handlers = c at hpath
    cases hpath with
    | @leave e c0 _ _ hq =>
      simp only [throwContBody, Option.some.injEq] at hs
      subst hs
      rw [hg] at hw
      refine ⟨h.fresh, hw.tail, .throwA hp hw.tail hq, h.eps, ?_, ?_⟩
      · show replay [] (vm.trace ++ [.leave e]) = some c0
        rw [replay_append, h.rep, hg]; simp [replay]
      · exact ent_leave h.ent
    | @enter e c0 _ _ hw1 hq =>
      simp only [throwContBody, Option.some.injEq] at hs
      subst hs
      rw [hg] at hw
      have key : ∀ v : Vm, v.next = vm.next → v.handlers = vm.handlers →
          v.eps = vm.eps → v.trace = vm.trace →
          v.cont = .throwCC vm.denv rest ep args (some (e :: c)) :: vm.cont →
          Inv T v := by
        intro v h1 h2 h3 h4 h5
        refine ⟨by rw [h1]; exact h.fresh, by rw [h2]; exact h.wf, ?_,
          by rw [h3]; exact h.eps, by rw [h4, h2]; exact h.rep,
          by rw [h4]; exact h.ent⟩
        rw [h5, h2, h3, hg]
        exact .throwB hp hw1 hq
      apply key <;> (unfold vmCallBefore; split <;> rfl)

theorem throw_inv {T : Tree} {vm : Vm} {ep : Nat} {args : List Val} {u : Vm}
    (h : Inv T vm) (hs : throwContinuation vm ep args = some u) :
    Inv T u := by
  unfold throwContinuation at hs
  cases hp : vm.eps[ep]? with
  | none => simp [hp] at hs
  | some p =>
    simp only [hp] at hs
    have he := h.eps p (List.mem_of_getElem? hp)
    exact throwContBody_inv
      ⟨h.fresh, h.wf, ⟨p, hp, calculate_path he.1 h.wf⟩, h.eps, h.rep, h.ent⟩ hs

/-- The tree with a new entry. -/
def Tree.set (T : Tree) (i : Nat) (x : Entry × Chain) : Tree :=
  fun j => if j = i then some x else T j

theorem Tree.le_set {T : Tree} {i : Nat} (x : Entry × Chain)
    (h : T i = none) : Le T (T.set i x) := by
  intro j y hy
  unfold Tree.set
  by_cases hj : j = i
  · subst hj; rw [h] at hy; cases hy
  · rw [if_neg hj]; exact hy

theorem dynwindBefore_inv {T : Tree} {vm : Vm} (h : Inv T vm)
    (b t a : Val) :
    ∃ T', Le T T' ∧ Inv T' (dynwindBeforeCC vm b t a) := by
  let e : Entry := ⟨vm.next, b, a, vm.denv⟩
  have hfr := h.fresh vm.next (Nat.le_refl _)
  have hle := Tree.le_set (e, vm.handlers) hfr
  have hset : (Tree.set T vm.next (e, vm.handlers)) e.id = some (e, vm.handlers) := by
    unfold Tree.set; rw [if_pos rfl]
  refine ⟨Tree.set T vm.next (e, vm.handlers), hle, ?_, ?_, ?_, ?_, ?_, ?_⟩
  · intro i hi
    have hi : vm.next + 1 ≤ i := hi
    unfold Tree.set
    rw [if_neg (by omega)]
    exact h.fresh i (by omega)
  · exact .cons hset (h.wf.mono hle)
  · have := h.inside.mono hle []
    rw [List.append_nil] at this
    exact .dwBody this hset
  · intro p hp
    obtain ⟨h1, h2⟩ := h.eps p hp
    have := h2.mono hle []
    rw [List.append_nil] at this
    exact ⟨h1.mono hle, this⟩
  · show replay [] (vm.trace ++ [.enter e]) = some (e :: vm.handlers)
    rw [replay_append, h.rep]; rfl
  · refine ent_enter (c := vm.handlers) ?_ h.rep hset
    intro p x q hq
    obtain ⟨c, h1, h2⟩ := h.ent p x q hq
    exact ⟨c, h1, hle _ _ h2⟩

theorem vmAbortBody_inv {T : Tree} {vm u : Vm} (h : Inv T vm) {hd : Val}
    {args : List Val} (hs : vmAbortBody vm hd args = some u) : Inv T u := by
  unfold vmAbortBody at hs
  split at hs
  · injection hs with hs; subst hs; exact h.mk' rfl rfl rfl rfl h.inside
  · cases hs
  · injection hs with hs; subst hs; exact h.mk' rfl rfl rfl rfl h.inside

theorem callAfter_inv {T : Tree} {vm : Vm} (h : Inv T vm) (e : Entry) :
    Inv T (vmCallAfter vm e) := h.mk' rfl rfl rfl rfl h.inside

/-- The invariant of an abort in progress. -/
structure InvA (T : Tree) (vm : Vm) (hs : Chain) : Prop where
  fresh : ∀ i, vm.next ≤ i → T i = none
  wf : WF T vm.handlers
  inside : Inside T vm.eps vm.cont hs
  suf : hs <:+ vm.handlers
  eps : ∀ p ∈ vm.eps, WF T p.handlers ∧ Inside T vm.eps p.cont p.handlers
  rep : replay [] vm.trace = some vm.handlers
  ent : ∀ p e q, vm.trace = p ++ .enter e :: q →
    ∃ c, replay [] p = some c ∧ T e.id = some (e, c)

theorem vmAbortCC_inv {T : Tree} {vm u : Vm} {d t hd hs k} {args : List Val}
    (h : InvA T vm hs) (hk : vm.cont = .prompt d t hd hs :: k)
    (hu : vmAbortCC vm (.prompt d t hd hs :: k) args = some u) :
    Inv T u := by
  have hsw : WF T hs := h.wf.suffix h.suf
  unfold vmAbortCC at hu
  have done : vm.handlers = hs → Inv T vm := fun heq =>
    ⟨h.fresh, h.wf, by rw [heq]; exact h.inside, h.eps, h.rep, h.ent⟩
  cases hc : vm.handlers with
  | nil =>
    simp only [hc] at hu
    have : hs = [] := List.suffix_nil.1 (hc ▸ h.suf)
    exact vmAbortBody_inv (done (by rw [hc, this])) hu
  | cons e tl =>
    simp only [hc] at hu
    by_cases hsame : sameCell hs (e :: tl) = true
    · rw [if_pos hsame] at hu
      have heq := (sameCell_iff hsw (hc ▸ h.wf)).1 hsame
      exact vmAbortBody_inv (done (by rw [hc, heq])) hu
    · rw [if_neg hsame] at hu
      simp only [popDynamicHandlers, hc, Option.some.injEq] at hu
      subst hu
      apply callAfter_inv
      have hsuf : hs <:+ tl := by
        rcases List.suffix_cons_iff.1 (hc ▸ h.suf) with h' | h'
        · exact absurd ((sameCell_iff hsw (hc ▸ h.wf)).2 h') hsame
        · exact h'
      have hwt : WF T tl := (hc ▸ h.wf : WF T (e :: tl)).tail
      have hin : Inside T vm.eps k hs := by
        have := h.inside
        rw [hk] at this
        cases this; assumption
      refine ⟨h.fresh, hwt, ?_, h.eps, ?_, ent_leave h.ent⟩
      · show Inside T vm.eps (.abortCC vm.denv _ args :: vm.cont) tl
        rw [hk]
        exact .abort hin hwt hsuf
      · show replay [] (vm.trace ++ [.leave e]) = some tl
        rw [replay_append, h.rep, hc]; simp [replay]

theorem findPrompt_spec {tag : Nat} : ∀ {k k' : List Frame},
    findPrompt tag k = some k' →
    ∃ pre d h hs r, k' = .prompt d tag h hs :: r ∧ k = pre ++ k' ∧
      ∀ d' h' hs', Frame.prompt d' tag h' hs' ∉ pre
  | [], k', h => by simp [findPrompt] at h
  | f :: k, k', h => by
    have other : findPrompt tag k = some k' →
        (∀ d' h' hs', f ≠ Frame.prompt d' tag h' hs') →
        ∃ pre d h hs r, k' = .prompt d tag h hs :: r ∧ f :: k = pre ++ k' ∧
          ∀ d' h' hs', Frame.prompt d' tag h' hs' ∉ pre := by
      intro h1 h2
      obtain ⟨pre, d, hh, hs, r, e1, e2, e3⟩ := findPrompt_spec h1
      refine ⟨f :: pre, d, hh, hs, r, e1, by simp [e2], ?_⟩
      intro d' h' hs' hm
      rcases List.mem_cons.1 hm with hm | hm
      · exact h2 d' h' hs' hm.symm
      · exact e3 d' h' hs' hm
    cases f with
    | prompt d t hh hs =>
      unfold findPrompt at h
      by_cases ht : t = tag
      · rw [if_pos ht] at h
        subst ht
        injection h with h
        exact ⟨[], d, hh, hs, k, h.symm, by simp [h], by simp⟩
      · rw [if_neg ht] at h
        exact other h (by intro _ _ _ he; injection he with _ h2; exact ht h2)
    | _ => exact other h (by intro _ _ _ he; cases he)

/-- Walking down a continuation without crossing a throw keeps within the
    chain. -/
theorem Inside.drop {T : Tree} {eps : List EP} {k : List Frame} {c : Chain}
    (w : Inside T eps k c) : ∀ pre k', k = pre ++ k' →
      (∀ f ∈ pre, throwing f = false) →
      ∃ c', Inside T eps k' c' ∧ c' <:+ c := by
  induction w with
  | nil =>
    intro pre k' h _
    have := List.append_eq_nil_iff.1 h.symm
    rw [this.2]; exact ⟨[], .nil, List.suffix_refl _⟩
  | @arg k c d x y z hw ih =>
    intro pre k' h hp
    cases pre with
    | nil => exact ⟨c, by rw [← (show _ = k' from h)]; exact .arg hw, List.suffix_refl _⟩
    | cons f pre =>
      injection h with _ h
      exact ih pre k' h (fun f hf => hp f (List.mem_cons_of_mem _ hf))
  | @br k c d x y z hw ih =>
    intro pre k' h hp
    cases pre with
    | nil => exact ⟨c, by rw [← (show _ = k' from h)]; exact .br hw, List.suffix_refl _⟩
    | cons f pre =>
      injection h with _ h
      exact ih pre k' h (fun f hf => hp f (List.mem_cons_of_mem _ hf))
  | @dwBefore k c d x y z hw ih =>
    intro pre k' h hp
    cases pre with
    | nil => exact ⟨c, by rw [← (show _ = k' from h)]; exact .dwBefore hw, List.suffix_refl _⟩
    | cons f pre =>
      injection h with _ h
      exact ih pre k' h (fun f hf => hp f (List.mem_cons_of_mem _ hf))
  | @dwAfter k c d x hw ih =>
    intro pre k' h hp
    cases pre with
    | nil => exact ⟨c, by rw [← (show _ = k' from h)]; exact .dwAfter hw, List.suffix_refl _⟩
    | cons f pre =>
      injection h with _ h
      exact ih pre k' h (fun f hf => hp f (List.mem_cons_of_mem _ hf))
  | @dwBody k c e hw h1 ih =>
    intro pre k' h hp
    cases pre with
    | nil => exact ⟨e :: c, by rw [← (show _ = k' from h)]; exact .dwBody hw h1, List.suffix_refl _⟩
    | cons f pre =>
      injection h with _ h
      obtain ⟨c', h2, h3⟩ := ih pre k' h (fun f hf => hp f (List.mem_cons_of_mem _ hf))
      exact ⟨c', h2, h3.trans (List.suffix_cons _ _)⟩
  | @prompt k c d t hh hw ih =>
    intro pre k' h hp
    cases pre with
    | nil => exact ⟨c, by rw [← (show _ = k' from h)]; exact .prompt hw, List.suffix_refl _⟩
    | cons f pre =>
      injection h with _ h
      exact ih pre k' h (fun f hf => hp f (List.mem_cons_of_mem _ hf))
  | @throwA k c d rest ep args p h1 h2 h3 =>
    intro pre k' h hp
    cases pre with
    | nil => exact ⟨c, by rw [← (show _ = k' from h)]; exact .throwA h1 h2 h3, List.suffix_refl _⟩
    | cons f pre =>
      injection h with hf h
      subst hf
      exact absurd (hp _ (List.mem_cons_self ..)) (by simp [throwing])
  | @throwB k c e d rest ep args p h1 h2 h3 =>
    intro pre k' h hp
    cases pre with
    | nil => exact ⟨c, by rw [← (show _ = k' from h)]; exact .throwB h1 h2 h3, List.suffix_refl _⟩
    | cons f pre =>
      injection h with hf h
      subst hf
      exact absurd (hp _ (List.mem_cons_self ..)) (by simp [throwing])
  | @abort k hs c d' d t hh args hw h2 h3 ih =>
    intro pre k' h hp
    cases pre with
    | nil => exact ⟨c, by rw [← (show _ = k' from h)]; exact .abort hw h2 h3, List.suffix_refl _⟩
    | cons f pre =>
      injection h with _ h
      cases pre with
      | nil =>
        exact ⟨hs, by rw [← (show _ = k' from h)]; exact .prompt hw, h3⟩
      | cons f pre =>
        injection h with _ h
        obtain ⟨c', h4, h5⟩ := ih pre k' h
          (fun f hf => hp f (List.mem_cons_of_mem _ (List.mem_cons_of_mem _ hf)))
        exact ⟨c', h4, h5.trans h3⟩

theorem abort_inv {T : Tree} {vm u : Vm} {tag : Nat} {args : List Val}
    (h : Inv T vm) (ha : AbortOk vm)
    (hc : vm.ctl = .apply (.prim .abort) (.num tag :: args))
    (hs : abortCurrent vm tag args = some u) : Inv T u := by
  unfold abortCurrent at hs
  cases hf : findPrompt tag vm.cont with
  | none => simp [hf] at hs
  | some k' =>
    obtain ⟨pre, d, hh, hs', r, e1, e2, e3⟩ := findPrompt_spec hf
    subst e1
    simp only [hf] at hs
    have hthr := ha tag args hc pre d hh hs' r e2 e3
    obtain ⟨c', h1, h2⟩ := h.inside.drop pre _ e2 hthr
    have h1' := h1
    cases h1' with
    | prompt hin =>
      exact vmAbortCC_inv (hs := hs')
        (vm := { vm with cont := .prompt d tag hh hs' :: r, denv := d })
        ⟨h.fresh, h.wf, h1, h2, h.eps, h.rep, h.ent⟩ rfl hs

theorem evalTerm_inv {T : Tree} {vm u : Vm} {t : Term} {env : List Val}
    (h : Inv T vm) (hs : evalTerm vm t env = some u) : Inv T u := by
  cases t <;>
    (simp only [evalTerm, Option.some.injEq] at hs; subst hs) <;>
    first
      | exact h.mk' rfl rfl rfl rfl h.inside
      | exact h.mk' rfl rfl rfl rfl (.br h.inside)
      | exact h.mk' rfl rfl rfl rfl (.arg h.inside)

theorem callCC_inv {T : Tree} {vm : Vm} (h : Inv T vm) (f : Val) :
    Inv T (callCC vm f) := by
  have hi := h.inside.mono (Le.refl T) [⟨vm.cont, vm.denv, vm.handlers⟩]
  refine ⟨h.fresh, h.wf, hi, ?_, h.rep, h.ent⟩
  intro p hp
  rcases List.mem_append.1 hp with hp | hp
  · exact ⟨(h.eps p hp).1, (h.eps p hp).2.mono (Le.refl T) _⟩
  · rw [List.mem_singleton.1 hp]
    exact ⟨h.wf, hi⟩

theorem applyPrim_inv {T : Tree} {vm u : Vm} {p : Prim} {args : List Val}
    (h : Inv T vm) (ha : AbortOk vm)
    (hc : vm.ctl = .apply (.prim p) args)
    (hs : applyPrim vm p args = some u) : ∃ T', Le T T' ∧ Inv T' u := by
  unfold applyPrim at hs
  split at hs
  all_goals first
    | (injection hs with hs; subst hs
       first
        | exact ⟨T, Le.refl T, h.mk' rfl rfl rfl rfl h.inside⟩
        | exact ⟨T, Le.refl T, callCC_inv h _⟩
        | exact ⟨T, Le.refl T, h.mk' rfl rfl rfl rfl (.prompt h.inside)⟩
        | (unfold dynamicWind
           split
           · exact dynwindBefore_inv h _ _ _
           · exact ⟨T, Le.refl T, h.mk' rfl rfl rfl rfl (.dwBefore h.inside)⟩))
    | exact ⟨T, Le.refl T, abort_inv h ha hc hs⟩
    | cases hs

theorem applyProc_inv {T : Tree} {vm u : Vm} {f : Val} {args : List Val}
    (h : Inv T vm) (ha : AbortOk vm) (hc : vm.ctl = .apply f args)
    (hs : applyProc vm f args = some u) : ∃ T', Le T T' ∧ Inv T' u := by
  cases f with
  | clo b env =>
    simp only [applyProc, Option.some.injEq] at hs; subst hs
    exact ⟨T, Le.refl T, h.mk' rfl rfl rfl rfl h.inside⟩
  | prim p => exact applyPrim_inv h ha hc hs
  | kont i => exact ⟨T, Le.refl T, throw_inv h hs⟩
  | _ => simp [applyProc] at hs

theorem returnTo_inv {T : Tree} {vm u : Vm} {f : Frame} {k : List Frame}
    {vals : List Val} (h : Inv T vm) (hk : vm.cont = f :: k)
    (hs : returnTo { vm with cont := k, denv := f.denv } f vals = some u) :
    ∃ T', Le T T' ∧ Inv T' u := by
  have hi := h.inside
  rw [hk] at hi
  have base : Inside T vm.eps k vm.handlers →
      Inv T { vm with cont := k, denv := f.denv } := fun hin =>
    h.mk' rfl rfl rfl rfl hin
  cases f with
  | arg d done rest env =>
    cases hi with
    | arg hi =>
      simp only [returnTo] at hs
      split at hs
      · injection hs with hs; subst hs
        exact ⟨T, Le.refl T, h.mk' rfl rfl rfl rfl (.arg hi)⟩
      · injection hs with hs; subst hs
        exact ⟨T, Le.refl T, h.mk' rfl rfl rfl rfl hi⟩
      · cases hs
  | br d t e env =>
    cases hi with
    | br hi =>
      simp only [returnTo, Option.some.injEq] at hs; subst hs
      exact ⟨T, Le.refl T, h.mk' rfl rfl rfl rfl hi⟩
  | dwBefore d b t a =>
    cases hi with
    | dwBefore hi =>
      simp only [returnTo, Option.some.injEq] at hs; subst hs
      exact dynwindBefore_inv (base hi) b t a
  | dwBody d e a =>
    generalize hg : vm.handlers = c at hi
    cases hi with
    | @dwBody _ c _ hi h1 =>
      simp only [returnTo, dynwindBodyCC, popDynamicHandlers, hg,
        Option.some.injEq] at hs
      subst hs
      exact ⟨T, Le.refl T, h.leave hg rfl rfl rfl rfl (.dwAfter hi)⟩
  | dwAfter d vs =>
    cases hi with
    | dwAfter hi =>
      simp only [returnTo, Option.some.injEq] at hs; subst hs
      exact ⟨T, Le.refl T, h.mk' rfl rfl rfl rfl hi⟩
  | prompt d t hd hs' =>
    generalize hg : vm.handlers = c at hi
    cases hi with
    | prompt hi =>
      simp only [returnTo, Option.some.injEq] at hs; subst hs
      exact ⟨T, Le.refl T, h.mk' rfl rfl rfl rfl (hg ▸ hi)⟩
  | throwCC d rest ep args chain =>
    generalize hg : vm.handlers = c at hi
    cases hi with
    | @throwA _ _ _ _ _ _ p h1 h2 h3 =>
      refine ⟨T, Le.refl T, throwContBody_inv (hd := rest) (ep := ep) ?_ hs⟩
      exact ⟨h.fresh, h.wf, ⟨p, h1, by rw [← hg] at h3; exact h3⟩, h.eps, h.rep, h.ent⟩
    | @throwB _ _ e _ _ _ _ p h1 h2 h3 =>
      refine ⟨T, Le.refl T, throwContBody_inv (hd := rest) (ep := ep) ?_ hs⟩
      refine ⟨h.fresh, h2, ⟨p, h1, h3⟩, h.eps, ?_, ?_⟩
      · show replay [] (vm.trace ++ [.enter e]) = some (e :: c)
        rw [replay_append, h.rep, hg]; rfl
      · exact ent_enter (c := c) h.ent (hg ▸ h.rep) h2.head
  | abortCC d k' args =>
    generalize hg : vm.handlers = c at hi
    cases hi with
    | @abort k hs' _ _ d t hd _ hin hw hsuf =>
      refine ⟨T, Le.refl T, vmAbortCC_inv (hs := hs') ?_ rfl hs⟩
      exact ⟨h.fresh, h.wf, .prompt hin, hg ▸ hsuf, h.eps, h.rep, h.ent⟩

theorem step_inv {T : Tree} {vm u : Vm} (h : Inv T vm) (ha : AbortOk vm)
    (hs : step vm = some u) : ∃ T', Le T T' ∧ Inv T' u := by
  unfold step at hs
  split at hs
  · exact ⟨T, Le.refl T, evalTerm_inv h hs⟩
  · rename_i f args hc
    exact applyProc_inv h ha hc hs
  · split at hs
    · cases hs
    · rename_i f k hk
      exact returnTo_inv h hk hs

theorem init_inv (t : Term) : Inv (fun _ => none) (Vm.init t) :=
  ⟨fun _ _ => rfl, .nil, .nil, (by intro p hp; cases hp), rfl, (by
    intro p e q h; simp [Vm.init] at h)⟩

theorem reach_inv {t : Term} {s : Vm} (h : Reach t s) : ∃ T, Inv T s := by
  induction h with
  | init => exact ⟨_, init_inv t⟩
  | step _ ha hs ih =>
    obtain ⟨T, hT⟩ := ih
    obtain ⟨T', _, h'⟩ := step_inv hT ha hs
    exact ⟨T', h'⟩

end Gauche.DynWind

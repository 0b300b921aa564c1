import Verif.Proof.ModSearch
/-! C92: the search of global bindings and the options of `import`. -/
namespace Gauche.ModSearch

/-! ## The search -/

/-- A binding of the module itself comes before everything else. -/
theorem C92_own (H : Heap) (n cur : Nat) (x : Sym) (g : Gloc) (v : Nat) (stay : Bool) (h : (H cur).internal x = some g) (hv : g.value = some v) :
    findBinding H (n + 1) cur x stay false = some (some g) := by
  rw [findBinding, search]
  dsimp only
  rw [if_neg (by simp), if_neg (by simp), h]
  dsimp only
  rw [hv]

/-- Looking only in the module does not look in other modules. -/
theorem C92_stay (H : Heap) (n cur : Nat) (x : Sym) (h : ∀ g, (H cur).internal x = some g → g.value = none) :
    findBinding H (n + 1) cur x true false = some none := by
  rw [findBinding, search]
  dsimp only
  rw [if_neg (by simp), if_neg (by simp)]
  cases hx : (H cur).internal x with
  | none => rfl
  | some g => dsimp only; rw [h g hx]; rfl

/-- A name that is not defined in the module is looked up in the imported modules, from the first one of the list on, and then in the
parents; what is not looked up a second time makes no difference. -/
theorem C92_search (H : Heap) (n cur : Nat) (x : Sym) (h : (H cur).internal x = none) (hc : ∀ e ∈ (H cur).imported, cur ∉ (H e).mpl) :
    findBinding H (n + 1) cur x false false =
      match firstImport H (fun m s => search H n m s false false true) (H cur).imported x with
      | none => none
      | some (some g) => some (some g)
      | some none => parents H (fun m s => search H n m s false false true) (H cur).mpl.tail x false := by
  rw [findBinding, search]
  dsimp only
  rw [if_neg (by simp), if_neg (by simp), h]
  dsimp only
  rw [if_neg (by simp), imports_spec H _ x (H cur).imported [cur] (fun m hm e he hme => by
    rw [List.mem_singleton] at hm
    exact absurd (hm ▸ hme) (hc e he))]
  cases firstImport H (fun m s => search H n m s false false true) (H cur).imported x with
  | none => rfl
  | some o => cases o <;> rfl

theorem firstImport_bound {H : Heap} (rec : Nat → Sym → Option (Option Gloc)) (x : Sym) : ∀ (es : List Nat),
    (∀ e ∈ es, Bound H (H e).mpl) → firstImport H rec es x = some (es.findSome? (fun e => visible H e x)) := by
  intro es
  induction es with
  | nil => intro _; rfl
  | cons e es ih =>
    intro hb
    rw [firstImport, exported_bound rec _ x (hb e List.mem_cons_self), List.findSome?_cons, visible]
    cases chain H (H e).mpl x with
    | some g => rfl
    | none => exact ih (fun a ha => hb a (List.mem_cons_of_mem _ ha))

theorem parents_inherit {H : Heap} (rec : Nat → Sym → Option (Option Gloc)) : ∀ (ms : List Nat) (x : Sym),
    (∀ m ∈ ms, ∀ y g, (H m).internal y = some g → g.value.isSome) → parents H rec ms x false = some (inherit H ms x) := by
  intro ms
  induction ms with
  | nil => intro x _; rfl
  | cons m ms ih =>
    intro x hb
    have key : ∀ y, (match (if false = true then (H m).external y else (H m).internal y) with
        | none => parents H rec ms y false
        | some g =>
          match g.value with
          | some _ => some (some g)
          | none =>
            match rec m g.name with
            | none => none
            | some (some g') => some (some g')
            | some none => parents H rec ms g.name false) = some (((H m).internal y).or (inherit H ms y)) := by
      intro y
      rw [if_neg (by simp)]
      cases hi : (H m).internal y with
      | none => exact ih y (fun a ha => hb a (List.mem_cons_of_mem _ ha))
      | some g =>
        obtain ⟨v, hv⟩ := Option.isSome_iff_exists.1 (hb m List.mem_cons_self y g hi)
        dsimp only
        rw [hv]
        rfl
    rw [parents, inherit]
    cases (H m).pre with
    | none => exact key x
    | some p =>
      rw [strip]
      dsimp only
      cases sans x p with
      | none => rfl
      | some y => exact key y

/-- When every binding has a value, everything is determined: the first module in the list of imports that exports the name gives the
binding, and if there is none, the first parent that has it. -/
theorem C92_lookup (H : Heap) (n cur : Nat) (x : Sym) (h : (H cur).internal x = none) (hc : ∀ e ∈ (H cur).imported, cur ∉ (H e).mpl)
    (hb : ∀ e ∈ (H cur).imported, Bound H (H e).mpl) (hp : ∀ m ∈ (H cur).mpl.tail, ∀ y g, (H m).internal y = some g → g.value.isSome) :
    findBinding H (n + 1) cur x false false =
      some (((H cur).imported.findSome? (fun e => visible H e x)).or (inherit H (H cur).mpl.tail x)) := by
  rw [C92_search H n cur x h hc, firstImport_bound _ x _ hb]
  cases (H cur).imported.findSome? (fun e => visible H e x) with
  | some g => rfl
  | none => exact parents_inherit _ _ x hp

/-- When every exported binding has a value: the first module in the list of imports that exports the name gives the binding, and if there
is none, the parents are searched. -/
theorem C92_first_import (H : Heap) (n cur : Nat) (x : Sym) (h : (H cur).internal x = none) (hc : ∀ e ∈ (H cur).imported, cur ∉ (H e).mpl)
    (hb : ∀ e ∈ (H cur).imported, Bound H (H e).mpl) :
    findBinding H (n + 1) cur x false false =
      match (H cur).imported.findSome? (fun e => visible H e x) with
      | some g => some (some g)
      | none => parents H (fun m s => search H n m s false false true) (H cur).mpl.tail x false := by
  rw [C92_search H n cur x h hc, firstImport_bound _ x _ hb]
  cases (H cur).imported.findSome? (fun e => visible H e x) <;> rfl

/-! ## Import -/

theorem Base.state {H : Heap} {next M : Nat} (h : Base H next M) : State H next M none false (visible H M) where
  mpl := h.mpl
  lt := h.lt
  bound := h.bound
  sem := fun x => rfl
  pre := fun _ => h.plain
  silent := by
    intro _ x h1 h2 rec
    have h3 := h.apart x h1 h2
    rw [imports_spec H rec x _ [M] (fun m hm e he hme => by
      rw [List.mem_singleton] at hm
      exact absurd (hm ▸ hme) (h3 e he).1), firstImport_bound rec x _ (fun e he => (h3 e he).2.1)]
    rw [List.findSome?_eq_none_iff.2 (fun e he => (h3 e he).2.2)]

/-- Importing a module with options puts a module at the front of the list of imports that exports exactly what R7RS says about the options
applied one after the other; the other modules stay as they were. -/
theorem C92_options_partial (H : Heap) (n next cur M : Nat) (opts : List Opt) (hM : Base H next M) (hcur : cur < next)
    (hf : Fine false false opts) (hok : OkAll (visible H M) opts) :
    ∃ H' next' I, importModule H (n + 1) next cur M opts = some (H', next') ∧ (H' cur).imported = I :: (H cur).imported.erase I ∧
      (∀ x, visible H' I x = applyAll (visible H M) opts x) ∧ (∀ i, i < next → i ≠ cur → H' i = H i) ∧
      (H' cur).internal = (H cur).internal ∧ (H' cur).external = (H cur).external ∧ Bound H' (H' I).mpl ∧
      (cur ∉ (H M).mpl → cur ∉ (H' I).mpl) := by
  obtain ⟨H', next', I, h1, h2, h3, h4, h5, h6⟩ := process_spec n opts H next M none false _ hM.state hf hok
  have hag : ∀ m, (addImport H' cur I m).pre = (H' m).pre ∧ (addImport H' cur I m).external = (H' m).external := by
    intro m
    rw [addImport]
    by_cases hm : m = cur
    · rw [hm, set_eq]; exact ⟨rfl, rfl⟩
    · rw [set_ne H' _ hm]; exact ⟨rfl, rfl⟩
  have hmpl : (addImport H' cur I I).mpl = (H' I).mpl := by
    rw [addImport]
    by_cases hm : I = cur
    · rw [hm, set_eq]
    · rw [set_ne H' _ hm]
  have hcurr : H' cur = H cur := h2 cur hcur
  refine ⟨addImport H' cur I, next', I, ?_, ?_, ?_, ?_, ?_, ?_, ?_, ?_⟩
  · rw [importModule, h1]
  · rw [addImport, set_eq, hcurr]
  · intro x
    rw [visible, hmpl, chain_agree _ x (fun m _ => hag m)]
    exact h6 x
  · intro i hi hne
    rw [addImport, set_ne H' _ hne, h2 i hi]
  · rw [addImport, set_eq, hcurr]
  · rw [addImport, set_eq, hcurr]
  · rw [hmpl]
    intro m hm x g hg
    rw [(hag m).2] at hg
    exact h5 m hm x g hg
  · intro hn hin
    rw [hmpl] at hin
    rcases h4 cur hin with h | h
    · exact hn h
    · omega

/-- After that, a name that the module does not define itself has the binding that the options give it; the modules imported before do not
matter. -/
theorem C92_import_visible_partial (H : Heap) (n next cur M : Nat) (opts : List Opt) (hM : Base H next M) (hcur : cur < next)
    (hf : Fine false false opts) (hok : OkAll (visible H M) opts) (hown : cur ∉ (H M).mpl) (x : Sym) (hx : (H cur).internal x = none) (g : Gloc)
    (hg : applyAll (visible H M) opts x = some g) :
    ∃ H' next', importModule H (n + 1) next cur M opts = some (H', next') ∧ ∀ k, findBinding H' (k + 1) cur x false false = some (some g) := by
  obtain ⟨H', next', I, h1, h2, h3, _, h5, _, h7, h8⟩ := C92_options_partial H n next cur M opts hM hcur hf hok
  refine ⟨H', next', h1, fun k => ?_⟩
  rw [findBinding, search]
  dsimp only
  rw [if_neg (by simp), if_neg (by simp), h5, hx]
  dsimp only
  rw [if_neg (by simp), h2, imports]
  have hw := walk_spec H' (fun m s => search H' k m s false false true) x (H' I).mpl x false [cur] (fun _ => rfl) (fun m hm hme => by
    rw [List.mem_singleton] at hm
    exact absurd (hm ▸ hme) (h8 hown))
  rw [exported_bound _ _ x h7] at hw
  have h3 := h3 x
  rw [visible, hg] at h3
  rw [h3] at hw
  obtain ⟨vs', hw, _⟩ := hw
  rw [hw]

/-! ## What goes wrong -/

/-- A table from a list. -/
def tab (l : List (Sym × Gloc)) : Tab := fun x => (l.find? (fun q => q.1 = x)).map (·.2)

/-- Modules 0, 1, …, each with its defined names, its exports and its imports. -/
def heap (l : List (List (Sym × Gloc) × List (Sym × Gloc) × List Nat)) : Heap := fun i =>
  match l[i]? with
  | some (d, e, im) => ⟨none, tab d, tab e, im, [i]⟩
  | none => ⟨none, tab [], tab [], [], [i]⟩

/-- The binding of a name. -/
def bd (s : Sym) (v : Nat) : Sym × Gloc := (s, ⟨s, some v, false⟩)

/-- The name is exported without being defined. -/
def ph (s : Sym) : Sym × Gloc := (s, ⟨s, none, false⟩)

/-- Two modules that import each other and export the same name, which neither of them defines. -/
def cyc : Heap := heap [([ph [97]], [ph [97]], [1]), ([ph [97]], [ph [97]], [0])]

theorem cyc_self (n : Nat) : search cyc n 0 [97] false false true = none ∧ search cyc n 1 [97] false false true = none := by
  induction n with
  | zero => exact ⟨rfl, rfl⟩
  | succ n ih =>
    have one : ∀ i j : Nat, (cyc i).imported = [j] → (cyc j).mpl = [j] → (cyc j).pre = none →
        (cyc j).external [97] = some ⟨[97], none, false⟩ → search cyc n j [97] false false true = none → search cyc (n + 1) i [97] false false true = none := by
      intro i j h1 h2 h3 h4 h5
      rw [search]
      dsimp only
      rw [if_pos rfl, h1, imports, h2, walk]
      dsimp only
      rw [if_neg (by simp), h3]
      dsimp only
      rw [h4]
      dsimp only
      rw [if_neg (by simp), h5]
    exact ⟨one 0 1 rfl rfl rfl rfl ih.2, one 1 0 rfl rfl rfl rfl ih.1⟩

/-- The search for this name never ends: no depth of recursion is enough. -/
theorem C92_bug_cycle (n : Nat) : findBinding cyc n 0 [97] false false = none := by
  cases n with
  | zero => rfl
  | succ n =>
    rw [findBinding, search]
    have h1 : (cyc 0).internal [97] = some ⟨[97], none, false⟩ := rfl
    have h2 : (cyc 1).external [97] = some ⟨[97], none, false⟩ := rfl
    have h3 : (cyc 1).mpl = [1] := rfl
    have h4 : (cyc 1).pre = none := rfl
    dsimp only
    rw [if_neg (by simp), if_neg (by simp), h1]
    dsimp only
    rw [if_neg (by simp), show (cyc 0).imported = [1] from rfl, imports, h3, walk]
    dsimp only
    rw [if_neg (by simp), h4]
    dsimp only
    rw [h2]
    dsimp only
    rw [if_neg (by simp), (cyc_self n).2]

/-- One module that exports `a` and `b`. -/
def two : Heap := heap [([], [], []), ([bd [97] 1, bd [98] 2, bd [99] 3], [bd [97] 1, bd [98] 2], [])]

/-- `(import (M :prefix p :only (pa) :rename ((pa pb))))` is an error: the binding `a` of the module with the prefix is not found again. -/
theorem C92_bug_prefix_only : OkAll (visible two 1) [.pre [112], .only [[112, 97]], .rename [([112, 97], [112, 98])]] ∧
    ∀ n, importModule two n 5 0 1 [.pre [112], .only [[112, 97]], .rename [([112, 97], [112, 98])]] = none := by
  refine ⟨⟨trivial, ?_, ⟨?_, ?_⟩, trivial⟩, fun n => ?_⟩
  · intro s hs; rw [List.mem_singleton] at hs; rw [hs]; rfl
  · intro q hq; rw [List.mem_singleton] at hq; rw [hq]; rfl
  · decide
  · cases n <;> rfl

/-- Module 1 defines and exports `a`; module 2 imports it and exports nothing. -/
def via : Heap := heap [([], [], []), ([bd [97] 1], [bd [97] 1], []), ([], [], [1])]

/-- `a` is not visible through module 2, and `(import B)` does not make it so, but `(import (B :only (a)))` does, where it is an error to ask
for a name that is not exported. -/
theorem C92_bug_transitive : visible via 2 [97] = none ∧
    ((importModule via 5 5 0 2 []).bind (fun r => findBinding r.1 5 0 [97] false false)).map (fun o => (o.bind (·.value))) = some none ∧
    ((importModule via 5 5 0 2 [.only [[97]]]).bind (fun r => findBinding r.1 5 0 [97] false false)).map (fun o => (o.bind (·.value))) =
      some (some 1) := ⟨rfl, rfl, rfl⟩

/-! ## Concrete cases -/

theorem two_base : Base two 5 1 where
  mpl := ⟨[], rfl⟩
  lt := by intro m hm; rw [show (two 1).mpl = [1] from rfl, List.mem_singleton] at hm; omega
  bound := by
    intro m hm x g hg
    rw [show (two 1).mpl = [1] from rfl, List.mem_singleton] at hm
    rw [hm, show (two 1).external = tab [bd [97] 1, bd [98] 2] from rfl, tab] at hg
    cases hq : ([bd [97] 1, bd [98] 2] : List (Sym × Gloc)).find? (fun q => q.1 = x) with
    | none => rw [hq] at hg; cases hg
    | some q =>
      rw [hq] at hg
      cases hg
      have := List.mem_of_find?_eq_some hq
      rw [List.mem_cons, List.mem_singleton] at this
      rcases this with rfl | rfl <;> exact Or.inr rfl
  plain := rfl
  apart := by intro x _ _ e he; cases he

/-- `(import (M :only (a b) :rename ((a c)) :prefix p :except (pb)))`. -/
def demo : List Opt := [.only [[97], [98]], .rename [([97], [99])], .pre [112], .except [[112, 98]]]

theorem demo_ok : Fine false false demo ∧ OkAll (visible two 1) demo := by
  refine ⟨⟨rfl, rfl, trivial⟩, ?_, ⟨?_, ?_⟩, trivial, ?_, trivial⟩
  · intro s hs; rw [List.mem_cons, List.mem_singleton] at hs; rcases hs with rfl | rfl <;> rfl
  · intro q hq; rw [List.mem_singleton] at hq; rw [hq]; rfl
  · decide
  · intro s hs; rw [List.mem_singleton] at hs; rw [hs]; rfl

-- `pc` has the value of `a`, and nothing else is there
example : ((importModule two 5 5 0 1 demo).bind (fun r => findBinding r.1 5 0 [112, 99] false false)).map (fun o => (o.bind (·.value))) =
    some (some 1) := rfl
example : ∃ H' next', importModule two 1 5 0 1 demo = some (H', next') ∧
    ∀ k, findBinding H' (k + 1) 0 [112, 99] false false = some (some ⟨[97], some 1, false⟩) :=
  C92_import_visible_partial two 0 5 0 1 demo two_base (by omega) demo_ok.1 demo_ok.2 (by decide) [112, 99] rfl _ rfl
example : ∃ H' next' I, importModule two 1 5 0 1 demo = some (H', next') ∧ (H' 0).imported = [I] ∧
    visible H' I [112, 98] = none ∧ visible H' I [97] = none ∧ visible H' I [99] = none ∧ (visible H' I [112, 99]).isSome := by
  obtain ⟨H', next', I, h1, h2, h3, _⟩ := C92_options_partial two 0 5 0 1 demo two_base (by omega) demo_ok.1 demo_ok.2
  exact ⟨H', next', I, h1, h2, (h3 _).trans rfl, (h3 _).trans rfl, (h3 _).trans rfl, by rw [h3]; rfl⟩

-- the module imported last wins
example : findBinding (heap [([], [], [2, 1]), ([bd [97] 1], [bd [97] 1], []), ([bd [97] 2], [bd [97] 2], [])]) 1 0 [97] false false =
    some (some ⟨[97], some 2, false⟩) := rfl
-- a name that a module exports without defining it, found through what that module imports
example : findBinding (heap [([], [], [2]), ([bd [97] 1], [bd [97] 1], []), ([ph [97]], [ph [97]], [1])]) 2 0 [97] false false =
    some (some ⟨[97], some 1, false⟩) := rfl

-- a name found in the second parent, and one behind a prefix
example : (findBinding (fun i => match i with
    | 0 => ⟨none, tab [], tab [], [], [0, 1, 2]⟩
    | 1 => ⟨some [112], tab [bd [98] 7], tab [], [], [1]⟩
    | _ => ⟨none, tab [bd [97] 1], tab [], [], [2]⟩) 1 0 [112, 97] false false).map (fun o => o.bind (·.value)) = some (some 1) := rfl

end Gauche.ModSearch

import Verif.Spec.Trie
namespace Gauche.Trie

/-! ## Terminals by path -/

/-- The terminals of the node at the end of the path. -/
def termsAt (n : Node) (l : List Nat) : List (Key × Val) := ((find n l).map Node.terms).getD []

theorem termsAt_cons (n : Node) (e : Nat) (l : List Nat) : termsAt n (e :: l) = termsAt ((n.tab.get e).getD emptyNode) l := by
  rw [termsAt, find]
  cases n.tab.get e with
  | some m => rfl
  | none => cases l <;> rfl

theorem get_put (n : Node) (x e : Nat) : ∀ t : Tab, (t.put e n).get x = if e = x then some n else t.get x
  | .nil => rfl
  | .cons y m r => by
    rw [Tab.put]
    by_cases h : y = e
    · rw [if_pos h, Tab.get, Tab.get, h]
      by_cases h1 : e = x
      · rw [if_pos h1, if_pos h1]
      · rw [if_neg h1, if_neg h1, if_neg h1]
    · rw [if_neg h, Tab.get, Tab.get, get_put n x e r]
      by_cases h1 : y = x
      · rw [if_pos h1, if_pos h1, if_neg (fun e' => h (h1.trans e'.symm))]
      · rw [if_neg h1, if_neg h1]

theorem upd_cons (f : List (Key × Val) → List (Key × Val)) (n : Node) (e : Nat) (es : List Nat) :
    upd f n (e :: es) = .mk (n.tab.put e (upd f ((n.tab.get e).getD emptyNode) es)) n.terms := by
  rw [upd]
  cases n.tab.get e <;> rfl

theorem termsAt_upd (f : List (Key × Val) → List (Key × Val)) : ∀ (es : List Nat) (n : Node) (l : List Nat),
    termsAt (upd f n es) l = if l = es then f (termsAt n es) else termsAt n l
  | [], n, l => by
    cases l with
    | nil => rfl
    | cons x l => rw [if_neg (by simp), termsAt_cons, termsAt_cons, upd]; rfl
  | e :: es, n, l => by
    rw [upd_cons]
    cases l with
    | nil => rw [if_neg (by simp)]; rfl
    | cons x l =>
      rw [termsAt_cons, show (Node.mk (n.tab.put e (upd f ((n.tab.get e).getD emptyNode) es)) n.terms).tab =
        n.tab.put e (upd f ((n.tab.get e).getD emptyNode) es) from rfl, get_put]
      by_cases h : e = x
      · rw [if_pos h, Option.getD_some, termsAt_upd f es, termsAt_cons n x, termsAt_cons n e, h]
        by_cases h1 : l = es
        · rw [if_pos h1, if_pos (by rw [h1])]
        · rw [if_neg h1, if_neg (by simp [h1])]
      · rw [if_neg h, if_neg (by simp [Ne.symm h]), ← termsAt_cons]

theorem getD_terms (n : Node) (l : List Nat) : ((find n l).getD emptyNode).terms = termsAt n l := by
  rw [termsAt]
  cases find n l <;> rfl

theorem find_append : ∀ (l r : List Nat) (n : Node), find n (l ++ r) = (find n l).bind (fun m => find m r)
  | [], _, _ => rfl
  | e :: l, r, n => by
    rw [List.cons_append, find, find]
    cases n.tab.get e with
    | none => rfl
    | some m => exact find_append l r m

theorem termsAt_append {n m : Node} {l : List Nat} (h : find n l = some m) (r : List Nat) : termsAt n (l ++ r) = termsAt m r := by
  rw [termsAt, termsAt, find_append, h]; rfl

theorem lookup_eq (t : Trie) (k : Key) : lookup t k = (terminal (termsAt t.root k.elems) k.cls).map (·.2) := by
  rw [lookup, termsAt]
  cases find t.root k.elems <;> rfl

/-! ## Changes of the terminals -/

theorem terminal_cons (p : Key × Val) (ts : List (Key × Val)) (c : Nat) :
    terminal (p :: ts) c = if p.1.cls = c then some p else terminal ts c := by
  rw [terminal, List.find?_cons]
  by_cases h : p.1.cls = c
  · rw [if_pos h, decide_eq_true h]
  · rw [if_neg h, decide_eq_false h]; rfl

theorem terminal_set (c : Nat) (v : Val) (x : Nat) : ∀ ts : List (Key × Val),
    (terminal (setTerminal c v ts) x).map (·.2) = if x = c ∧ (terminal ts c).isSome then some v else (terminal ts x).map (·.2)
  | [] => by rw [if_neg (fun h => by cases h.2)]; rfl
  | p :: ts => by
    rw [setTerminal]
    by_cases h : p.1.cls = c
    · rw [if_pos h, terminal_cons, terminal_cons, terminal_cons, if_pos h]
      by_cases hx : x = c
      · rw [if_pos (by rw [hx]; exact h), if_pos ⟨hx, rfl⟩]; rfl
      · rw [if_neg (fun e => hx (e.symm.trans h)), if_neg (fun e => hx e.1), if_neg (fun e => hx (e.symm.trans h))]
    · rw [if_neg h, terminal_cons, terminal_cons, terminal_cons, if_neg h]
      by_cases hx : p.1.cls = x
      · rw [if_pos hx, if_pos hx, if_neg (fun e => h (hx.trans e.1))]
      · rw [if_neg hx, if_neg hx]; exact terminal_set c v x ts

theorem terminal_filter (c x : Nat) : ∀ ts : List (Key × Val),
    terminal (ts.filter (fun p => p.1.cls ≠ c)) x = if x = c then none else terminal ts x
  | [] => by split <;> rfl
  | p :: ts => by
    have ih := terminal_filter c x ts
    by_cases h : p.1.cls = c
    · rw [List.filter_cons_of_neg (by simpa using h), ih]
      by_cases hx : x = c
      · rw [if_pos hx, if_pos hx]
      · rw [if_neg hx, if_neg hx, terminal_cons, if_neg (fun e => hx (e.symm.trans h))]
    · rw [List.filter_cons_of_pos (by simpa using h), terminal_cons, terminal_cons, ih]
      by_cases hx : x = c
      · rw [if_pos hx, if_pos hx, if_neg (fun e => h (e.trans hx))]
      · rw [if_neg hx, if_neg hx]

theorem set_fst (c : Nat) (v : Val) : ∀ ts : List (Key × Val), (setTerminal c v ts).map (·.1) = ts.map (·.1)
  | [] => rfl
  | p :: ts => by
    rw [setTerminal]
    by_cases h : p.1.cls = c
    · rw [if_pos h]; rfl
    · rw [if_neg h, List.map_cons, List.map_cons, set_fst c v ts]

theorem key_eq {a b : Key} (h1 : a.elems = b.elems) (h2 : a.cls = b.cls) : a = b := by
  cases a; cases b; cases h1; cases h2; rfl

theorem lookup_run (t : Trie) (o : Op) (k : Key) : lookup (run t o) k = runMap (lookup t) o k := by
  -- a change at the path of a key
  have key : ∀ (f : List (Key × Val) → List (Key × Val)) (x : Key) (size : Nat) (r : Option Val),
      (∀ c, (terminal (f (termsAt t.root x.elems)) c).map (·.2) = if c = x.cls then r else (terminal (termsAt t.root x.elems) c).map (·.2)) →
      lookup ⟨upd f t.root x.elems, size⟩ k = if k = x then r else lookup t k := by
    intro f x size r hf
    rw [lookup_eq, lookup_eq, termsAt_upd]
    by_cases he : k.elems = x.elems
    · rw [if_pos he, hf]
      by_cases hc : k.cls = x.cls
      · rw [if_pos hc, if_pos (key_eq he hc)]
      · rw [if_neg hc, if_neg (fun e => hc (by rw [e])), he]
    · rw [if_neg he, if_neg (fun e => he (by rw [e]))]
  cases o with
  | put x v =>
    rw [run, put, getD_terms, runMap]
    dsimp only
    cases ht : terminal (termsAt t.root x.elems) x.cls with
    | some p =>
      refine key _ x _ (some v) (fun c => ?_)
      rw [terminal_set, ht]
      by_cases hc : c = x.cls
      · rw [if_pos ⟨hc, rfl⟩, if_pos hc]
      · rw [if_neg (fun e => hc e.1), if_neg hc]
    | none =>
      refine key _ x _ (some v) (fun c => ?_)
      rw [terminal_cons]
      by_cases hc : c = x.cls
      · rw [if_pos hc.symm, if_pos hc]; rfl
      · rw [if_neg (fun e => hc e.symm), if_neg hc]
  | update x proc fb =>
    rw [run, update.eq_def, getD_terms, runMap]
    dsimp only
    rw [lookup_eq t x]
    cases ht : terminal (termsAt t.root x.elems) x.cls with
    | some p =>
      refine key _ x _ (some (proc p.2)) (fun c => ?_)
      rw [terminal_set, ht]
      by_cases hc : c = x.cls
      · rw [if_pos ⟨hc, rfl⟩, if_pos hc]
      · rw [if_neg (fun e => hc e.1), if_neg hc]
    | none =>
      cases fb with
      | some v =>
        refine key _ x _ (some (proc v)) (fun c => ?_)
        rw [terminal_cons]
        by_cases hc : c = x.cls
        · rw [if_pos hc.symm, if_pos hc]; rfl
        · rw [if_neg (fun e => hc e.symm), if_neg hc]
      | none =>
        refine key _ x _ none (fun c => ?_)
        by_cases hc : c = x.cls
        · rw [if_pos hc, hc, id, ht]; rfl
        · rw [if_neg hc]; rfl
  | delete x =>
    rw [run, delete, runMap]
    cases hf : find t.root x.elems with
    | some n =>
      refine key _ x _ none (fun c => ?_)
      rw [terminal_filter]
      by_cases hc : c = x.cls
      · rw [if_pos hc, if_pos hc]; rfl
      · rw [if_neg hc, if_neg hc]
    | none =>
      dsimp only
      by_cases hk : k = x
      · rw [if_pos hk, hk, lookup, hf]; rfl
      · rw [if_neg hk]

/-! ## What holds for all tries -/

/-- The terminals of a node have the path as elements and different classes. -/
def Good (pre : List Nat) (n : Node) : Prop :=
  ∀ l, (∀ p ∈ termsAt n l, p.1.elems = pre ++ l) ∧ ((termsAt n l).map (fun p => p.1.cls)).Nodup

mutual
/-- No element is twice in a table. -/
def uniqN : Node → Prop
  | .mk t _ => uniqT t
def uniqT : Tab → Prop
  | .nil => True
  | .cons e n r => r.get e = none ∧ uniqN n ∧ uniqT r
end

mutual
/-- All terminals, in the order of the fold. -/
def entN : Node → List (Key × Val)
  | .mk t ts => entT t ++ ts
def entT : Tab → List (Key × Val)
  | .nil => []
  | .cons _ n r => entN n ++ entT r
end

theorem uniqN_tab (n : Node) : uniqN n ↔ uniqT n.tab := by cases n; exact Iff.rfl

theorem uniq_get : ∀ (t : Tab) (e : Nat) (n : Node), uniqT t → t.get e = some n → uniqN n
  | .nil, _, _, _, h => by cases h
  | .cons x m r, e, n, hu, h => by
    rw [uniqT] at hu
    rw [Tab.get] at h
    by_cases hx : x = e
    · rw [if_pos hx] at h; cases h; exact hu.2.1
    · rw [if_neg hx] at h; exact uniq_get r e n hu.2.2 h

theorem uniq_put (e : Nat) (n : Node) (hn : uniqN n) : ∀ t : Tab, uniqT t → uniqT (t.put e n)
  | .nil, _ => by rw [Tab.put, uniqT]; exact ⟨rfl, hn, by rw [uniqT]; trivial⟩
  | .cons x m r, hu => by
    rw [uniqT] at hu
    rw [Tab.put]
    by_cases hx : x = e
    · rw [if_pos hx, uniqT]; exact ⟨hx ▸ hu.1, hn, hu.2.2⟩
    · rw [if_neg hx, uniqT]
      exact ⟨by rw [get_put, if_neg (fun h => hx h.symm)]; exact hu.1, hu.2.1, uniq_put e n hn r hu.2.2⟩

theorem uniq_upd (f : List (Key × Val) → List (Key × Val)) : ∀ (es : List Nat) (n : Node), uniqN n → uniqN (upd f n es)
  | [], n, h => by rw [upd, uniqN]; exact (uniqN_tab n).1 h
  | e :: es, n, h => by
    rw [upd_cons, uniqN]
    have h' := (uniqN_tab n).1 h
    refine uniq_put e _ (uniq_upd f es _ ?_) _ h'
    cases hg : n.tab.get e with
    | some m => exact uniq_get _ e m h' hg
    | none => rw [Option.getD_none, emptyNode, uniqN, uniqT]; trivial

theorem put_count (e : Nat) (n : Node) : ∀ t : Tab, (entT (t.put e n)).length + (entN ((t.get e).getD emptyNode)).length =
    (entT t).length + (entN n).length
  | .nil => by
    rw [Tab.put, entT, entT, Tab.get, Option.getD_none, emptyNode, entN, entT]
    simp
  | .cons x m r => by
    have ih := put_count e n r
    rw [Tab.put, Tab.get]
    by_cases hx : x = e
    · rw [if_pos hx, if_pos hx, entT, entT, Option.getD_some, List.length_append, List.length_append]; omega
    · rw [if_neg hx, if_neg hx, entT, entT, List.length_append, List.length_append]; omega

theorem entN_mk (n : Node) : (entN n).length = (entT n.tab).length + n.terms.length := by
  cases n; rw [entN, List.length_append]; rfl

theorem upd_count (f : List (Key × Val) → List (Key × Val)) : ∀ (es : List Nat) (n : Node),
    (entN (upd f n es)).length + (termsAt n es).length = (entN n).length + (f (termsAt n es)).length
  | [], n => by
    rw [upd, entN, List.length_append, entN_mk n, show termsAt n [] = n.terms from rfl]; omega
  | e :: es, n => by
    have ih := upd_count f es ((n.tab.get e).getD emptyNode)
    have hp := put_count e (upd f ((n.tab.get e).getD emptyNode) es) n.tab
    rw [upd_cons, entN, List.length_append, entN_mk n, termsAt_cons]; omega

/-- What holds after any history. -/
structure Inv (t : Trie) : Prop where
  good : Good [] t.root
  uniq : uniqN t.root
  size : t.size = (entN t.root).length

theorem set_cls (c : Nat) (v : Val) (ts : List (Key × Val)) : (setTerminal c v ts).map (fun p => p.1.cls) = ts.map (fun p => p.1.cls) := by
  have := congrArg (List.map Key.cls) (set_fst c v ts)
  rw [List.map_map, List.map_map] at this
  exact this

theorem terminal_none {ts : List (Key × Val)} {c : Nat} (h : terminal ts c = none) : ∀ p ∈ ts, p.1.cls ≠ c := by
  intro p hp e
  rw [terminal, List.find?_eq_none] at h
  exact h p hp (by simpa using e)

theorem Inv.upd {t : Trie} (h : Inv t) (f : List (Key × Val) → List (Key × Val)) (l : List Nat) (size : Nat)
    (h1 : ∀ p ∈ f (termsAt t.root l), p.1.elems = l) (h2 : ((f (termsAt t.root l)).map (fun p => p.1.cls)).Nodup)
    (h3 : size + (termsAt t.root l).length = t.size + (f (termsAt t.root l)).length) : Inv ⟨Trie.upd f t.root l, size⟩ where
  good := by
    intro l'
    rw [termsAt_upd]
    by_cases hl : l' = l
    · rw [if_pos hl, hl]; exact ⟨h1, h2⟩
    · rw [if_neg hl]; exact h.good l'
  uniq := uniq_upd f l _ h.uniq
  size := by
    have := upd_count f l t.root
    have := h.size
    show size = (entN (Trie.upd f t.root l)).length
    omega

theorem inv_set {t : Trie} (h : Inv t) (x : Key) (v : Val) : Inv ⟨Trie.upd (setTerminal x.cls v) t.root x.elems, t.size⟩ := by
  refine h.upd _ _ _ (fun p hp => ?_) ?_ ?_
  · have hm : p.1 ∈ (setTerminal x.cls v (termsAt t.root x.elems)).map (·.1) := List.mem_map_of_mem hp
    rw [set_fst, List.mem_map] at hm
    obtain ⟨q, hq, e⟩ := hm
    rw [← e]; exact (h.good x.elems).1 q hq
  · rw [set_cls]; exact (h.good x.elems).2
  · have := congrArg List.length (set_fst x.cls v (termsAt t.root x.elems))
    rw [List.length_map, List.length_map] at this
    omega

theorem inv_push {t : Trie} (h : Inv t) (x : Key) (v : Val) (ht : terminal (termsAt t.root x.elems) x.cls = none) :
    Inv ⟨Trie.upd (fun ts => (x, v) :: ts) t.root x.elems, t.size + 1⟩ := by
  refine h.upd _ _ _ (fun p hp => ?_) ?_ ?_
  · rcases List.mem_cons.1 hp with rfl | hp
    · rfl
    · exact (h.good x.elems).1 p hp
  · rw [List.map_cons, List.nodup_cons]
    refine ⟨fun hm => ?_, (h.good x.elems).2⟩
    obtain ⟨q, hq, e⟩ := List.mem_map.1 hm
    exact terminal_none ht q hq e
  · rw [List.length_cons]; omega

theorem Inv.run {t : Trie} (h : Inv t) (o : Op) : Inv (Trie.run t o) := by
  cases o with
  | put x v =>
    rw [Trie.run, put, getD_terms]
    cases ht : terminal (termsAt t.root x.elems) x.cls with
    | some p => exact inv_set h x v
    | none => exact inv_push h x v ht
  | update x proc fb =>
    rw [Trie.run, update.eq_def, getD_terms]
    dsimp only
    cases ht : terminal (termsAt t.root x.elems) x.cls with
    | some p => exact inv_set h x _
    | none =>
      cases fb with
      | some v => exact inv_push h x _ ht
      | none => exact h.upd _ _ _ (h.good x.elems).1 (h.good x.elems).2 rfl
  | delete x =>
    rw [Trie.run, delete]
    cases hf : find t.root x.elems with
    | none => exact h
    | some n =>
      have hn : n.terms = termsAt t.root x.elems := by rw [termsAt, hf]; rfl
      dsimp only
      rw [hn]
      have hlen : ∀ ts : List (Key × Val), (ts.filter (fun p => p.1.cls = x.cls)).length + (ts.filter (fun p => p.1.cls ≠ x.cls)).length = ts.length := by
        intro ts
        induction ts with
        | nil => rfl
        | cons p ts ih =>
          by_cases hc : p.1.cls = x.cls
          · rw [List.filter_cons_of_pos (by simpa using hc), List.filter_cons_of_neg (by simpa using hc), List.length_cons, List.length_cons]; omega
          · rw [List.filter_cons_of_neg (by simpa using hc), List.filter_cons_of_pos (by simpa using hc), List.length_cons, List.length_cons]; omega
      have hle : (termsAt t.root x.elems).length ≤ t.size := by
        have := upd_count (fun _ => []) x.elems t.root
        rw [h.size]; simp only [List.length_nil] at this; omega
      refine h.upd _ _ _ (fun p hp => (h.good x.elems).1 p ((List.mem_filter.1 hp).1)) ?_ ?_
      · exact ((List.filter_sublist).map _).nodup (h.good x.elems).2
      · have := hlen (termsAt t.root x.elems)
        omega

theorem termsAt_empty (l : List Nat) : termsAt emptyNode l = [] := by cases l <;> rfl

theorem inv_empty : Inv empty where
  good := by
    intro l
    rw [empty, termsAt_empty]
    exact ⟨fun p hp => (by cases hp), List.nodup_nil⟩
  uniq := by rw [empty, emptyNode, uniqN, uniqT]; trivial
  size := rfl

theorem inv_after (ops : List Op) : Inv (after ops) := by
  have : ∀ (ops : List Op) (t : Trie), Inv t → Inv (ops.foldl Trie.run t) := by
    intro ops
    induction ops with
    | nil => exact fun t h => h
    | cons o ops ih => exact fun t h => ih _ (h.run o)
  exact this ops _ inv_empty

theorem lookup_after (ops : List Op) (k : Key) : lookup (after ops) k = mapAfter ops k := by
  have : ∀ (ops : List Op) (t : Trie) (m : Key → Option Val), (∀ k, lookup t k = m k) →
      ∀ k, lookup (ops.foldl Trie.run t) k = (ops.foldl runMap m) k := by
    intro ops
    induction ops with
    | nil => exact fun t m h => h
    | cons o ops ih =>
      intro t m h
      refine ih _ _ (fun k => ?_)
      rw [lookup_run, show lookup t = m from funext h]
  refine this ops _ _ (fun k => ?_) k
  rw [lookup_eq, empty, termsAt_empty]; rfl

/-! ## Enumeration -/

theorem get_mem_tab {t : Tab} {e : Nat} {m : Node} {ts : List (Key × Val)} (h : t.get e = some m) (l : List Nat) :
    termsAt (.mk t ts) (e :: l) = termsAt m l := by
  rw [termsAt_cons, show (Node.mk t ts).tab = t from rfl, h]; rfl

mutual
theorem mem_entN (p : Key × Val) : ∀ n : Node, uniqN n → (p ∈ entN n ↔ ∃ l, p ∈ termsAt n l)
  | .mk t ts, hu => by
    rw [uniqN] at hu
    rw [entN, List.mem_append, mem_entT p t hu]
    refine ⟨fun h => ?_, fun ⟨l, h⟩ => ?_⟩
    · rcases h with ⟨e, l, m, hg, h⟩ | h
      · exact ⟨e :: l, by rw [get_mem_tab hg]; exact h⟩
      · exact ⟨[], h⟩
    · cases l with
      | nil => exact Or.inr h
      | cons e l =>
        cases hg : t.get e with
        | some m => rw [get_mem_tab hg] at h; exact Or.inl ⟨e, l, m, hg, h⟩
        | none =>
          rw [termsAt_cons, show (Node.mk t ts).tab = t from rfl, hg, Option.getD_none, termsAt_empty] at h
          cases h
theorem mem_entT (p : Key × Val) : ∀ t : Tab, uniqT t → (p ∈ entT t ↔ ∃ e l m, t.get e = some m ∧ p ∈ termsAt m l)
  | .nil, _ => by
    rw [entT]
    exact ⟨fun h => (by cases h), fun ⟨_, _, _, h, _⟩ => (by cases h)⟩
  | .cons e n r, hu => by
    rw [uniqT] at hu
    rw [entT, List.mem_append, mem_entN p n hu.2.1, mem_entT p r hu.2.2]
    refine ⟨fun h => ?_, fun ⟨x, l, m, hg, h⟩ => ?_⟩
    · rcases h with ⟨l, h⟩ | ⟨x, l, m, hg, h⟩
      · exact ⟨e, l, n, by rw [Tab.get, if_pos rfl], h⟩
      · refine ⟨x, l, m, ?_, h⟩
        rw [Tab.get, if_neg (fun he => ?_)]
        · exact hg
        · rw [he, hg] at hu; cases hu.1
    · rw [Tab.get] at hg
      by_cases hx : e = x
      · rw [if_pos hx] at hg; cases hg; exact Or.inl ⟨l, h⟩
      · rw [if_neg hx] at hg; exact Or.inr ⟨x, l, m, hg, h⟩
end

theorem good_get {pre : List Nat} {t : Tab} {ts : List (Key × Val)} (h : Good pre (.mk t ts)) {e : Nat} {m : Node} (hg : t.get e = some m) :
    Good (pre ++ [e]) m := by
  intro l
  have := h (e :: l)
  rw [get_mem_tab hg] at this
  rw [List.append_assoc]
  exact this

mutual
theorem nodupN (pre : List Nat) : ∀ n : Node, uniqN n → Good pre n → ((entN n).map (·.1)).Nodup
  | .mk t ts, hu, hg => by
    rw [uniqN] at hu
    rw [entN, List.map_append, List.nodup_append]
    refine ⟨nodupT pre t hu (fun e m h => good_get hg h), ?_, ?_⟩
    · have := (hg []).2
      rw [show termsAt (Node.mk t ts) [] = ts from rfl] at this
      rw [show (fun p : Key × Val => p.1.cls) = Key.cls ∘ (·.1) from rfl, ← List.map_map] at this
      exact (List.pairwise_map.1 this).imp (fun hab e => hab (congrArg Key.cls e))
    · intro a ha b hb hab
      obtain ⟨p, hp, rfl⟩ := List.mem_map.1 ha
      obtain ⟨q, hq, rfl⟩ := List.mem_map.1 hb
      obtain ⟨e, l, m, hm, hp⟩ := (mem_entT p t hu).1 hp
      have h1 := (good_get hg hm l).1 p hp
      have h2 := (hg []).1 q hq
      rw [hab, h2, List.append_assoc] at h1
      have := List.append_cancel_left h1
      cases this
theorem nodupT (pre : List Nat) : ∀ t : Tab, uniqT t → (∀ e m, t.get e = some m → Good (pre ++ [e]) m) → ((entT t).map (·.1)).Nodup
  | .nil, _, _ => by rw [entT]; exact List.nodup_nil
  | .cons e n r, hu, hg => by
    rw [uniqT] at hu
    have hn : (Tab.cons e n r).get e = some n := by rw [Tab.get, if_pos rfl]
    have hr : ∀ x m, r.get x = some m → e ≠ x ∧ (Tab.cons e n r).get x = some m := by
      intro x m h
      have : e ≠ x := fun he => by rw [he, h] at hu; cases hu.1
      exact ⟨this, by rw [Tab.get, if_neg this]; exact h⟩
    rw [entT, List.map_append, List.nodup_append]
    refine ⟨nodupN (pre ++ [e]) n hu.2.1 (hg e n hn), nodupT pre r hu.2.2 (fun x m h => hg x m (hr x m h).2), ?_⟩
    intro a ha b hb hab
    obtain ⟨p, hp, rfl⟩ := List.mem_map.1 ha
    obtain ⟨q, hq, rfl⟩ := List.mem_map.1 hb
    obtain ⟨l, hp⟩ := (mem_entN p n hu.2.1).1 hp
    obtain ⟨x, l', m, hm, hq⟩ := (mem_entT q r hu.2.2).1 hq
    have h1 := (hg e n hn l).1 p hp
    have h2 := (hg x m (hr x m hm).2 l').1 q hq
    rw [hab, h2, List.append_assoc, List.append_assoc] at h1
    have := List.append_cancel_left h1
    exact (hr x m hm).1 (List.cons.inj this).1.symm
end

theorem terminal_mem {ts : List (Key × Val)} {c : Nat} {p : Key × Val} (h : terminal ts c = some p) : p ∈ ts ∧ p.1.cls = c := by
  rw [terminal] at h
  exact ⟨List.mem_of_find?_eq_some h, by simpa using List.find?_some h⟩

theorem terminal_of_mem : ∀ {ts : List (Key × Val)} {p : Key × Val}, (ts.map (fun p => p.1.cls)).Nodup → p ∈ ts → terminal ts p.1.cls = some p
  | q :: ts, p, hn, hp => by
    rw [List.map_cons, List.nodup_cons] at hn
    rw [terminal_cons]
    rcases List.mem_cons.1 hp with rfl | hp
    · rw [if_pos rfl]
    · rw [if_neg (fun e : q.1.cls = p.1.cls => hn.1 (e ▸ List.mem_map_of_mem (f := fun p : Key × Val => p.1.cls) hp))]
      exact terminal_of_mem hn.2 hp

theorem mem_termsAt {t : Trie} (h : Inv t) (k : Key) (v : Val) (l : List Nat) : (k, v) ∈ termsAt t.root l ↔ k.elems = l ∧ lookup t k = some v := by
  refine ⟨fun hm => ?_, fun ⟨e, hl⟩ => ?_⟩
  · have e : k.elems = l := (h.good l).1 _ hm
    have := terminal_of_mem (h.good l).2 hm
    dsimp only at this
    refine ⟨e, ?_⟩
    rw [lookup_eq, e, this]; rfl
  · rw [lookup_eq] at hl
    cases ht : terminal (termsAt t.root k.elems) k.cls with
    | none => rw [ht] at hl; cases hl
    | some q =>
      rw [ht] at hl
      obtain ⟨hm, hc⟩ := terminal_mem ht
      have he := (h.good _).1 q hm
      have hv : q.2 = v := by cases hl; rfl
      have hk : q.1 = k := key_eq he hc
      have : q = (k, v) := by rw [← hk, ← hv]
      rw [← this, ← e]; exact hm

theorem uniq_find : ∀ (l : List Nat) (n m : Node), uniqN n → find n l = some m → uniqN m
  | [], n, m, h, hf => by cases hf; exact h
  | e :: l, n, m, h, hf => by
    rw [find] at hf
    cases hg : n.tab.get e with
    | none => rw [hg] at hf; cases hf
    | some x =>
      rw [hg] at hf
      exact uniq_find l x m (uniq_get _ e x ((uniqN_tab n).1 h) hg) hf

/-- The entries under a prefix. -/
def entries (t : Trie) (l : List Nat) : List (Key × Val) := match find t.root l with | some n => entN n | none => []

theorem entries_nodup {t : Trie} (h : Inv t) (l : List Nat) : ((entries t l).map (·.1)).Nodup := by
  rw [entries]
  cases hf : find t.root l with
  | none => exact List.nodup_nil
  | some n =>
    refine nodupN l n (uniq_find l _ n h.uniq hf) (fun r => ?_)
    have := h.good (l ++ r)
    rw [termsAt_append hf] at this
    exact this

theorem mem_entries {t : Trie} (h : Inv t) (l : List Nat) (k : Key) (v : Val) :
    (k, v) ∈ entries t l ↔ l <+: k.elems ∧ lookup t k = some v := by
  rw [entries]
  cases hf : find t.root l with
  | none =>
    refine ⟨fun hm => (by cases hm), fun ⟨⟨r, hr⟩, hl⟩ => ?_⟩
    rw [lookup, ← hr, find_append, hf] at hl
    cases hl
  | some n =>
    refine (mem_entN _ n (uniq_find l _ n h.uniq hf)).trans ⟨fun ⟨r, hr⟩ => ?_, fun ⟨⟨r, hr⟩, hl⟩ => ⟨r, ?_⟩⟩
    · rw [← termsAt_append hf, mem_termsAt h] at hr
      exact ⟨⟨r, hr.1.symm⟩, hr.2⟩
    · rw [← termsAt_append hf, mem_termsAt h]
      exact ⟨hr.symm, hl⟩

/-! ## Folds -/

theorem foldl_notF {S : Type} (isF : S → Bool) (proc : Key × Val → S → S) (hp : ∀ p s, isF (proc p s) = false) (seed : S) :
    ∀ ps : List (Key × Val), isF (ps.foldl (fun s p => proc p s) seed) = true → ps.foldl (fun s p => proc p s) seed = seed := by
  intro ps
  rcases List.eq_nil_or_concat ps with rfl | ⟨qs, q, rfl⟩
  · exact fun _ => rfl
  · rw [List.concat_eq_append, List.foldl_append]
    intro h
    exact absurd (hp q _) (by rw [show isF (proc q _) = true from h]; simp)

mutual
theorem foldN {S : Type} (isF : S → Bool) (proc : Key × Val → S → S) (hp : ∀ p s, isF (proc p s) = false) : ∀ (n : Node) (seed : S),
    foldNode isF proc n seed = (entN n).foldl (fun s p => proc p s) seed
  | .mk t ts, seed => by
    rw [foldNode, foldT isF proc hp t seed, entN, List.foldl_append]
    by_cases h : isF ((entT t).foldl (fun s p => proc p s) seed) = true
    · rw [if_pos h, foldl_notF isF proc hp seed _ h]
    · rw [if_neg h]
theorem foldT {S : Type} (isF : S → Bool) (proc : Key × Val → S → S) (hp : ∀ p s, isF (proc p s) = false) : ∀ (t : Tab) (seed : S),
    foldTab isF proc t seed = (entT t).foldl (fun s p => proc p s) seed
  | .nil, seed => by rw [foldTab, entT]; rfl
  | .cons e n r, seed => by rw [foldTab, foldN isF proc hp n, foldT isF proc hp r, entT, List.foldl_append]
end

theorem prefixFold_eq {S : Type} (isF : S → Bool) (proc : Key × Val → S → S) (hp : ∀ p s, isF (proc p s) = false) (t : Trie) (l : List Nat) (seed : S) :
    prefixFold isF t l proc seed = (entries t l).foldl (fun s p => proc p s) seed := by
  rw [prefixFold, entries]
  cases find t.root l with
  | none => rfl
  | some n => exact foldN isF proc hp n seed

/-! ## The longest match -/

theorem loop_cons (c e : Nat) (es : List Nat) (n : Node) (last : Option (Key × Val)) : longestLoop c (e :: es) n last =
    match n.tab.get e with
    | some m => longestLoop c es m ((terminal m.terms c).or last)
    | none => last := by
  rw [longestLoop]
  cases n.tab.get e with
  | none => rfl
  | some m => dsimp only; cases terminal m.terms c <;> rfl

theorem loop_spec (c : Nat) : ∀ (es : List Nat) (n : Node) (last : Option (Key × Val)),
    (∃ j, 0 < j ∧ j ≤ es.length ∧ longestLoop c es n last = terminal (termsAt n (es.take j)) c ∧ (longestLoop c es n last).isSome ∧
      ∀ i, j < i → i ≤ es.length → terminal (termsAt n (es.take i)) c = none) ∨
    (longestLoop c es n last = last ∧ ∀ i, 0 < i → i ≤ es.length → terminal (termsAt n (es.take i)) c = none)
  | [], n, last => Or.inr ⟨rfl, fun i h1 h2 => by simp only [List.length_nil] at h2; omega⟩
  | e :: es, n, last => by
    rw [loop_cons]
    cases hg : n.tab.get e with
    | none =>
      refine Or.inr ⟨rfl, fun i h1 _ => ?_⟩
      obtain ⟨i, rfl⟩ := Nat.exists_eq_succ_of_ne_zero (Nat.ne_of_gt h1)
      rw [List.take_succ_cons, termsAt_cons, hg, Option.getD_none, termsAt_empty]; rfl
    | some m =>
      have key : ∀ i, terminal (termsAt n ((e :: es).take (i + 1))) c = terminal (termsAt m (es.take i)) c := by
        intro i
        rw [List.take_succ_cons, termsAt_cons, hg]; rfl
      dsimp only
      generalize hl : (terminal m.terms c).or last = last'
      rcases loop_spec c es m last' with ⟨j, h0, h1, h2, h3, h4⟩ | ⟨h1, h2⟩
      · refine Or.inl ⟨j + 1, by omega, by rw [List.length_cons]; omega, by rw [key]; exact h2, h3, fun i hi1 hi2 => ?_⟩
        obtain ⟨i, rfl⟩ := Nat.exists_eq_succ_of_ne_zero (Nat.ne_of_gt (Nat.lt_of_le_of_lt (Nat.zero_le _) hi1))
        rw [List.length_cons] at hi2
        rw [Nat.succ_eq_add_one, key]; exact h4 i (by omega) (by omega)
      · cases ht : terminal m.terms c with
        | some p =>
          rw [ht, Option.some_or] at hl
          refine Or.inl ⟨1, by omega, by rw [List.length_cons]; omega, ?_, by rw [h1, ← hl]; rfl, fun i hi1 hi2 => ?_⟩
          · rw [h1, ← hl, key 0, List.take_zero, show termsAt m [] = m.terms from rfl, ht]
          · obtain ⟨i, rfl⟩ := Nat.exists_eq_succ_of_ne_zero (Nat.ne_of_gt (Nat.lt_of_le_of_lt (Nat.zero_le _) hi1))
            rw [List.length_cons] at hi2
            rw [Nat.succ_eq_add_one, key]; exact h2 i (by omega) (by omega)
        | none =>
          rw [ht, Option.none_or] at hl
          refine Or.inr ⟨by rw [h1, ← hl], fun i hi1 hi2 => ?_⟩
          obtain ⟨i, rfl⟩ := Nat.exists_eq_succ_of_ne_zero (Nat.ne_of_gt hi1)
          rw [List.length_cons] at hi2
          rw [Nat.succ_eq_add_one, key]
          by_cases h0 : i = 0
          · rw [h0, List.take_zero]; exact ht
          · exact h2 i (by omega) (by omega)

theorem longest_spec {t : Trie} (k : Key) :
    (∃ j, j ≤ k.elems.length ∧ longest t k = terminal (termsAt t.root (k.elems.take j)) k.cls ∧ (longest t k).isSome ∧
      ∀ i, j < i → i ≤ k.elems.length → terminal (termsAt t.root (k.elems.take i)) k.cls = none) ∨
    (longest t k = none ∧ ∀ i, i ≤ k.elems.length → terminal (termsAt t.root (k.elems.take i)) k.cls = none) := by
  rw [longest]
  rcases loop_spec k.cls k.elems t.root (terminal t.root.terms k.cls) with ⟨j, _, h1, h2, h3, h4⟩ | ⟨h1, h2⟩
  · exact Or.inl ⟨j, h1, h2, h3, h4⟩
  · have h0 : terminal (termsAt t.root (k.elems.take 0)) k.cls = terminal t.root.terms k.cls := rfl
    cases ht : terminal t.root.terms k.cls with
    | some p =>
      rw [ht] at h1 h0
      exact Or.inl ⟨0, Nat.zero_le _, by rw [h1, h0], by rw [h1]; rfl, h2⟩
    | none =>
      rw [ht] at h1 h0
      refine Or.inr ⟨h1, fun i hi => ?_⟩
      by_cases hz : i = 0
      · rw [hz]; exact h0
      · exact h2 i (by omega) hi

/-! ## Partial keys -/

mutual
/-- Every table leads to terminals only. -/
def fullN : Node → Prop
  | .mk t _ => fullT t
def fullT : Tab → Prop
  | .nil => True
  | .cons _ n r => entN n ≠ [] ∧ fullN n ∧ fullT r
end

theorem fullN_tab (n : Node) : fullN n ↔ fullT n.tab := by cases n; exact Iff.rfl

theorem full_get : ∀ (t : Tab) (e : Nat) (n : Node), fullT t → t.get e = some n → fullN n
  | .nil, _, _, _, h => by cases h
  | .cons x m r, e, n, hu, h => by
    rw [fullT] at hu
    rw [Tab.get] at h
    by_cases hx : x = e
    · rw [if_pos hx] at h; cases h; exact hu.2.1
    · rw [if_neg hx] at h; exact full_get r e n hu.2.2 h

theorem full_put (e : Nat) (n : Node) (h0 : entN n ≠ []) (hn : fullN n) : ∀ t : Tab, fullT t → fullT (t.put e n)
  | .nil, _ => by rw [Tab.put, fullT]; exact ⟨h0, hn, by rw [fullT]; trivial⟩
  | .cons x m r, hu => by
    rw [fullT] at hu
    rw [Tab.put]
    by_cases hx : x = e
    · rw [if_pos hx, fullT]; exact ⟨h0, hn, hu.2.2⟩
    · rw [if_neg hx, fullT]; exact ⟨hu.1, hu.2.1, full_put e n h0 hn r hu.2.2⟩

theorem upd_ne (f : List (Key × Val) → List (Key × Val)) (es : List Nat) (n : Node) (hf : f (termsAt n es) ≠ []) : entN (upd f n es) ≠ [] := by
  have h1 := upd_count f es n
  have h2 := upd_count (fun _ => []) es n
  have h3 := List.length_pos_iff.2 hf
  simp only [List.length_nil] at h2
  exact List.ne_nil_of_length_pos (by omega)

theorem full_upd (f : List (Key × Val) → List (Key × Val)) : ∀ (es : List Nat) (n : Node), f (termsAt n es) ≠ [] → fullN n → fullN (upd f n es)
  | [], n, _, h => by rw [upd, fullN]; exact (fullN_tab n).1 h
  | e :: es, n, hf, h => by
    rw [upd_cons, fullN]
    rw [termsAt_cons] at hf
    have h' := (fullN_tab n).1 h
    refine full_put e _ (upd_ne f es _ hf) (full_upd f es _ hf ?_) _ h'
    cases hg : n.tab.get e with
    | some m => exact full_get _ e m h' hg
    | none => rw [Option.getD_none, emptyNode, fullN, fullT]; trivial

theorem full_find : ∀ (l : List Nat) (n m : Node), fullN n → find n l = some m → fullN m
  | [], n, m, h, hf => by cases hf; exact h
  | e :: l, n, m, h, hf => by
    rw [find] at hf
    cases hg : n.tab.get e with
    | none => rw [hg] at hf; cases hf
    | some x =>
      rw [hg] at hf
      exact full_find l x m (full_get _ e x ((fullN_tab n).1 h) hg) hf

theorem set_ne (c : Nat) (v : Val) {ts : List (Key × Val)} (h : ts ≠ []) : setTerminal c v ts ≠ [] := by
  cases ts with
  | nil => exact absurd rfl h
  | cons p ts => rw [setTerminal]; by_cases h1 : p.1.cls = c <;> simp [h1]

theorem full_set {t : Trie} (h : fullN t.root) (x : Key) (v : Val) {p : Key × Val} (ht : terminal (termsAt t.root x.elems) x.cls = some p) :
    fullN (upd (setTerminal x.cls v) t.root x.elems) :=
  full_upd _ _ _ (set_ne _ _ (List.ne_nil_of_mem (terminal_mem ht).1)) h

theorem full_put_op {t : Trie} (h : fullN t.root) (x : Key) (v : Val) : fullN (put t x v).root := by
  rw [put, getD_terms]
  cases ht : terminal (termsAt t.root x.elems) x.cls with
  | some p => exact full_set h x v ht
  | none => exact full_upd _ _ _ (by simp) h

theorem full_update_op {t : Trie} (h : fullN t.root) (x : Key) (proc : Val → Val) (v : Val) : fullN (update t x proc (some v)).1.root := by
  rw [update.eq_def, getD_terms]
  dsimp only
  cases ht : terminal (termsAt t.root x.elems) x.cls with
  | some p => exact full_set h x _ ht
  | none => exact full_upd _ _ _ (by simp) h

theorem partial_complete {t : Trie} {l : List Nat} {k : Key} {v : Val} (hl : l <+: k.elems) (hne : k.elems ≠ l) (hk : lookup t k = some v) :
    partialKey t l = true := by
  obtain ⟨r, hr⟩ := hl
  cases r with
  | nil => rw [List.append_nil] at hr; exact absurd hr.symm hne
  | cons e r =>
    rw [lookup, ← hr, find_append] at hk
    rw [partialKey]
    cases hf : find t.root l with
    | none => rw [hf] at hk; cases hk
    | some n =>
      rw [hf, Option.bind_some, find] at hk
      dsimp only
      rw [nodeEmpty]
      cases ht : n.tab with
      | nil => rw [ht] at hk; cases hk
      | cons => rfl

theorem partial_sound {t : Trie} (h : Inv t) (hf : fullN t.root) {l : List Nat} (hp : partialKey t l = true) :
    ∃ k v, l <+: k.elems ∧ k.elems ≠ l ∧ lookup t k = some v := by
  rw [partialKey] at hp
  cases hn : find t.root l with
  | none => rw [hn] at hp; cases hp
  | some n =>
    rw [hn] at hp
    dsimp only at hp
    rw [nodeEmpty] at hp
    cases ht : n.tab with
    | nil => rw [ht] at hp; cases hp
    | cons e m r =>
      have h1 := (fullN_tab n).1 (full_find l _ n hf hn)
      have hu := (uniqN_tab n).1 (uniq_find l _ n h.uniq hn)
      rw [ht, fullT] at h1
      rw [ht, uniqT] at hu
      obtain ⟨⟨k, v⟩, hq⟩ := List.exists_mem_of_ne_nil _ h1.1
      obtain ⟨s, hs⟩ := (mem_entN _ m hu.2.1).1 hq
      have hs' : (k, v) ∈ termsAt t.root (l ++ e :: s) := by
        rw [termsAt_append hn, termsAt_cons, ht, Tab.get, if_pos rfl]; exact hs
      obtain ⟨he, hk⟩ := (mem_termsAt h k v _).1 hs'
      exact ⟨k, v, ⟨e :: s, he.symm⟩, by rw [he]; simp, hk⟩

end Gauche.Trie

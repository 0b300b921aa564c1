import Verif.Proof.ListDest
/-
Proofs about list primitives: delete, assoc-delete, delete-duplicates and their destructive variants.
-/
namespace Gauche.ListPrim

open Gauche.Spec.ConsGraph

/-! ### delete -/

theorem copyUpTo_spec {h0 : Heap} {c : Nat} (as : List Nat) : ∀ (fuel : Nat) (h : Heap) (v start last : Val) (fs : List Nat),
    Path h0 v as (.pair c) → c ∉ as → as.length < fuel → Built h0 h start last fs →
    ∃ h' start' last' fs', copyUpTo c fuel h v start last = .ok (h', start', last') ∧ Built h0 h' start' last' fs' ∧ elems h' fs' = elems h fs ++ elems h0 as := by
  induction as with
  | nil =>
    intro fuel h v start last fs p _ hf b
    cases fuel with
    | zero => simp at hf
    | succ fuel =>
      have p : v = .pair c := p
      refine ⟨h, start, last, fs, ?_, b, by simp [elems]⟩
      unfold copyUpTo
      rw [if_pos p]
  | cons a as ih =>
    intro fuel h v start last fs p hc hf b
    cases fuel with
    | zero => simp at hf
    | succ fuel =>
      obtain ⟨rfl, ha, p⟩ := p
      rw [List.mem_cons, not_or] at hc
      unfold copyUpTo
      rw [if_neg (by intro e; injection e with e; exact hc.1 e.symm)]
      dsimp only
      rw [(Step.keeps b ha).2]
      obtain ⟨b1, _, e2, _⟩ := b.append1 (h0.car a)
      generalize append1 h start last (h0.car a) = r at *
      rw [(Step.keeps b1 ha).1]
      obtain ⟨h', start', last', fs', h1, h2, h3⟩ := ih fuel r.1 _ r.2.1 r.2.2 _ p hc.2 (by rw [List.length_cons] at hf; omega) b1
      refine ⟨h', start', last', fs', h1, h2, ?_⟩
      rw [h3, e2, List.append_assoc]; rfl

/-- A test that does not depend on the pairs made. -/
def Steady (test : Heap → Val → Bool) (h0 : Heap) : Prop := ∀ h, Keeps h0 h → ∀ x, Exists h0 x → test h x = test h0 x

theorem steady_elt (eq : Val → Bool) (h0 : Heap) : Steady (eltTest eq) h0 := fun _ _ _ _ => rfl
theorem steady_entry (eq : Val → Bool) (h0 : Heap) : Steady (entryTest eq) h0 := by
  intro h k x hx
  cases x with
  | pair e => show eq (h.car e) = eq (h0.car e); rw [(k.2 e (hx e rfl)).1]
  | nil => rfl
  | atom n => rfl

/-- Whether the pair is to go. -/
def goes (test : Heap → Val → Bool) (h : Heap) (a : Nat) : Bool := test h (h.car a)

/-- The state in the loop: the pairs `done` are decided, the pairs `mid` are to stay. -/
structure DelInv (test : Heap → Val → Bool) (h0 h : Heap) (start last : Val) (fs done : List Nat) : Prop where
  built : Built h0 h start last fs
  els : elems h fs = elems h0 (done.filter fun a => !goes test h0 a)
  same : done = [] → h = h0
  lastGoes : ∀ es a, done = es ++ [a] → goes test h0 a = true

theorem deleteLoop_spec {test : Heap → Val → Bool} {h0 : Heap} (hc : Closed h0) (hs : Steady test h0) {t : Val} (ht : Val.Atomic t) (rest : List Nat) :
    ∀ (fuel : Nat) (h : Heap) (cp start last prev : Val) (fs done mid : List Nat),
    Path h0 cp rest t → Path h0 prev mid cp → (∀ a ∈ mid, goes test h0 a = false) → (mid ++ rest).Nodup → rest.length < fuel → DelInv test h0 h start last fs done →
    ∃ h' start' last' prev' fs' done' mid', deleteLoop test fuel h cp start last prev = .ok (h', start', last', prev') ∧ DelInv test h0 h' start' last' fs' done' ∧
      done ++ mid ++ rest = done' ++ mid' ∧ Path h0 prev' mid' t ∧ (∀ a ∈ mid', goes test h0 a = false) := by
  induction rest with
  | nil =>
    intro fuel h cp start last prev fs done mid p q hm hn hf I
    cases fuel with
    | zero => simp at hf
    | succ fuel =>
      have p : cp = t := p
      subst p
      refine ⟨h, start, last, prev, fs, done, mid, ?_, I, by rw [List.append_nil], q, hm⟩
      unfold deleteLoop
      cases cp with
      | nil => rfl
      | atom x => rfl
      | pair a => exact absurd rfl (ht a)
  | cons a rest ih =>
    intro fuel h cp start last prev fs done mid p q hm hn hf I
    cases fuel with
    | zero => simp at hf
    | succ fuel =>
      obtain ⟨rfl, ha, p⟩ := p
      unfold deleteLoop
      dsimp only
      have hca : h.car a = h0.car a := (I.built.keeps.2 a ha).1
      have htest : test h (h.car a) = goes test h0 a := by
        rw [hca, hs h I.built.keeps _ (hc a ha).1]; rfl
      rw [htest]
      have hn2 := List.nodup_append.1 hn
      have ham : a ∉ mid := fun hm => hn2.2.2 a hm a (by simp) rfl
      by_cases hg : goes test h0 a = true
      · rw [if_pos hg]
        have hml : mid.length ≤ h.size := by
          have h1 := path_mem q
          have : mid ⊆ List.range h.size := fun b hb => List.mem_range.2 (lt_of_lt_of_le (h1 b hb) I.built.keeps.1)
          have := (List.subperm_of_subset hn2.1 this).length_le
          rwa [List.length_range] at this
        obtain ⟨h1, start1, last1, fs1, e1, b1, el1⟩ := copyUpTo_spec mid (h.size + 1) h prev start last fs q ham (by omega) I.built
        rw [e1]
        dsimp only
        have hcd : h1.cdr a = h0.cdr a := (b1.keeps.2 a ha).2
        rw [hcd]
        have I1 : DelInv test h0 h1 start1 last1 fs1 (done ++ mid ++ [a]) := by
          refine ⟨b1, ?_, by simp, ?_⟩
          · rw [el1, I.els, List.filter_append, List.filter_append]
            have hmid : mid.filter (fun a => !goes test h0 a) = mid := List.filter_eq_self.2 (fun b hb => by rw [hm b hb]; rfl)
            rw [hmid, List.filter_cons, if_neg (by rw [hg]; simp), List.filter_nil, List.append_nil]
            unfold elems
            rw [List.map_append]
          · intro es b e
            have := List.append_inj' e rfl
            have := this.2
            injection this with this
            rw [← this]; exact hg
        obtain ⟨h', start', last', prev', fs', done', mid', r1, r2, r3, r4, r5⟩ := ih fuel h1 (h0.cdr a) start1 last1 (h0.cdr a) fs1 (done ++ mid ++ [a]) []
          p rfl (by simp) (List.nodup_cons.1 hn2.2.1).2 (by rw [List.length_cons] at hf; omega) I1
        refine ⟨h', start', last', prev', fs', done', mid', r1, r2, ?_, r4, r5⟩
        rw [← r3]
        simp
      · rw [if_neg hg]
        have hcd : h.cdr a = h0.cdr a := (I.built.keeps.2 a ha).2
        rw [hcd]
        have q1 : Path h0 prev (mid ++ [a]) (h0.cdr a) := (path_append _ _ _ _ _).2 ⟨_, q, rfl, ha, rfl⟩
        obtain ⟨h', start', last', prev', fs', done', mid', r1, r2, r3, r4, r5⟩ := ih fuel h (h0.cdr a) start last prev fs done (mid ++ [a])
          p q1 (by
            intro b hb
            rcases List.mem_append.1 hb with hb | hb
            · exact hm b hb
            · rw [List.mem_singleton] at hb; rw [hb]; simpa using hg)
          (by rw [List.append_assoc]; exact hn) (by rw [List.length_cons] at hf; omega) I
        refine ⟨h', start', last', prev', fs', done', mid', r1, r2, ?_, r4, r5⟩
        rw [← r3]
        simp

/-- A list without the elements to go: the pairs after the last of them are shared. -/
theorem deleteBy_spec {test : Heap → Val → Bool} {h : Heap} (hc : Closed h) (hs : Steady test h) {v : Val} {as : List Nat} (p : Path h v as .nil) (fuel : Nat) (hf : h.size < fuel) :
    ∃ h' v' fs ds ss, deleteBy test fuel h v = .ok (h', v') ∧ Keeps h h' ∧ New h fs ∧ as = ds ++ ss ∧ (∀ a ∈ ss, test h (h.car a) = false) ∧
      (∀ es a, ds = es ++ [a] → test h (h.car a) = true) ∧ Path h' v' (fs ++ ss) .nil ∧
      elems h' (fs ++ ss) = (elems h as).filter (fun x => !test h x) ∧ (ds = [] → v' = v ∧ h' = h) := by
  have hl := path_len atomic_nil p
  obtain ⟨h', start', last', prev', fs', done', mid', r1, r2, r3, r4, r5⟩ := deleteLoop_spec hc hs atomic_nil as fuel h v .nil .nil v [] [] []
    p rfl (by simp) (path_nodup atomic_nil p) (by omega) ⟨Built.init h, rfl, fun _ => rfl, by simp⟩
  have r3 : as = done' ++ mid' := r3
  have hfil : (elems h as).filter (fun x => !test h x) = elems h' fs' ++ elems h mid' := by
    have e1 : (elems h as).filter (fun x => !test h x) = elems h (as.filter fun a => !goes test h a) := List.filter_map
    rw [e1, r3, List.filter_append, r2.els]
    have hmid : mid'.filter (fun a => !goes test h a) = mid' := List.filter_eq_self.2 (fun b hb => by rw [r5 b hb]; rfl)
    rw [hmid]
    unfold elems
    rw [List.map_append]
  have hmidlt := path_mem r4
  have hel : ∀ h'', (∀ i, h''.car i = h'.car i) → elems h'' (fs' ++ mid') = (elems h as).filter (fun x => !test h x) := by
    intro h'' hcar
    rw [hfil]
    unfold elems
    rw [List.map_append]
    congr 1
    · exact List.map_congr_left fun a _ => hcar a
    · exact List.map_congr_left fun a ha => by rw [hcar]; exact (r2.built.keeps.2 a (hmidlt a ha)).1
  by_cases hv : v = .nil
  · have has : as = [] := by
      cases as with
      | nil => rfl
      | cons a as => have := p.1; rw [hv] at this; simp at this
    subst has
    refine ⟨h, .nil, [], [], [], ?_, Keeps.refl h, ⟨List.nodup_nil, by simp⟩, rfl, by simp, by simp, rfl, rfl, fun _ => ⟨hv.symm, rfl⟩⟩
    unfold deleteBy
    rw [if_pos hv]
  · have hprev : v = prev' ↔ done' = [] := by
      constructor
      · intro e
        rw [← e] at r4
        have := congrArg List.length (path_det atomic_nil atomic_nil p r4).1
        rw [r3, List.length_append] at this
        exact List.length_eq_zero_iff.1 (by omega)
      · intro e
        rw [r3, e] at p
        have q : Path h v mid' .nil := p
        -- both are the start of mid'
        cases mid' with
        | nil => have q : v = .nil := q; exact absurd q hv
        | cons m ms => rw [q.1, r4.1]
    have hdel : deleteBy test fuel h v = if v = prev' then .ok (h', v) else if start' = .nil then .ok (h', prev') else
        (match (generalizing := false) prev' with | .pair _ => .ok (h'.setCdrV last' prev', start') | _ => .ok (h', start')) := by
      unfold deleteBy
      rw [if_neg hv, r1]
      clear * -
      cases prev' <;> rfl
    rw [hdel]
    by_cases hd : done' = []
    · rw [if_pos (hprev.2 hd)]
      have hfs : fs' = [] := by
        have := congrArg List.length r2.els
        rw [elems_length, elems_length, hd] at this
        exact List.length_eq_zero_iff.1 this
      have hh := r2.same hd
      have hmid : as = mid' := by rw [r3, hd]; rfl
      refine ⟨h', v, [], [], mid', rfl, by rw [hh]; exact Keeps.refl h, ⟨List.nodup_nil, by simp⟩, hmid, r5, by simp, ?_, ?_, fun _ => ⟨rfl, hh⟩⟩
      · rw [hh, List.nil_append, ← hmid]; exact p
      · have := hel h' (fun _ => rfl)
        rw [hfs] at this
        exact this
    · rw [if_neg (fun e => hd (hprev.1 e))]
      by_cases hst : start' = .nil
      · have hfs : fs' = [] := (start_nil r2.built.path).1 hst
        rw [if_pos hst]
        refine ⟨h', prev', [], done', mid', rfl, r2.built.keeps, ⟨List.nodup_nil, by simp⟩, r3, r5, r2.lastGoes, path_keeps r2.built.keeps r4, ?_, fun e => absurd e hd⟩
        have := hel h' (fun _ => rfl)
        rw [hfs] at this
        exact this
      · have hfs : fs' ≠ [] := fun e => hst ((start_nil r2.built.path).2 e)
        rw [if_neg hst]
        cases mid' with
        | nil =>
          have r4 : prev' = .nil := r4
          rw [r4]
          refine ⟨h', start', fs', done', [], rfl, r2.built.keeps, r2.built.new, r3, by simp, r2.lastGoes, by rw [List.append_nil]; exact r2.built.path, hel h' (fun _ => rfl),
            fun e => absurd e hd⟩
        | cons m ms =>
          rw [r4.1]
          obtain ⟨k1, k2, k3⟩ := r2.built.setLast hfs (.pair m)
          refine ⟨_, start', fs', done', m :: ms, rfl, k1, r2.built.new, r3, r5, r2.lastGoes, ?_, ?_, fun e => absurd e hd⟩
          · refine (path_append _ _ _ _ _).2 ⟨.pair m, k2, path_keeps k1 ?_⟩
            have := r4
            rw [r4.1] at this
            exact this
          · apply hel
            intro i
            cases last' with
            | nil => rfl
            | atom n => rfl
            | pair a => rfl

/-! ### delete! -/

theorem deleteX_loop {eq : Val → Bool} {h0 : Heap} {t : Val} (ht : Val.Atomic t) (rest : List Nat) : ∀ (fuel : Nat) (h : Heap) (cp : Val) (prev : Option Nat) (list : Val) (ks : List Nat),
    Path h cp rest t → rest.length < fuel → (ks ++ rest).Nodup → Path h list ks cp → lastV ks = (match prev with | none => .nil | some p => .pair p) → ChangesCdrs ks h0 h →
    ∃ h' v', deleteX eq fuel h cp prev list = .ok (h', v') ∧ Path h' v' (ks ++ rest.filter fun a => !eq (h0.car a)) t ∧
      ChangesCdrs (ks ++ rest.filter fun a => !eq (h0.car a)) h0 h' := by
  induction rest with
  | nil =>
    intro fuel h cp prev list ks p hf hn q hl k
    cases fuel with
    | zero => simp at hf
    | succ fuel =>
      have p : cp = t := p
      subst p
      rw [List.filter_nil, List.append_nil]
      refine ⟨h, list, ?_, q, k⟩
      unfold deleteX
      cases cp with
      | nil => rfl
      | atom x => rfl
      | pair a => exact absurd rfl (ht a)
  | cons a rest ih =>
    intro fuel h cp prev list ks p hf hn q hl k
    cases fuel with
    | zero => simp at hf
    | succ fuel =>
      obtain ⟨rfl, ha, p⟩ := p
      rw [List.length_cons] at hf
      have hn2 := List.nodup_append.1 hn
      have hcar : h.car a = h0.car a := by rw [k.2.1]
      unfold deleteX
      dsimp only
      rw [hcar, List.filter_cons]
      by_cases he : eq (h0.car a) = true
      · rw [if_pos he, if_neg (by rw [he]; simp)]
        cases prev with
        | none =>
          have hks : ks = [] := by
            rcases eq_snoc ks with e | ⟨es, x, e⟩
            · exact e
            · rw [e, lastV_snoc] at hl; simp at hl
          subst hks
          exact ih fuel h (h.cdr a) none (h.cdr a) [] p (by omega) (List.nodup_cons.1 hn).2 rfl rfl k
        | some x =>
          rcases eq_snoc ks with e | ⟨es, y, e⟩
          · rw [e] at hl; simp [lastV] at hl
          · have hxy : y = x := by rw [e, lastV_snoc] at hl; injection hl
            subst hxy
            subst e
            have hya : y ≠ a := fun e => hn2.2.2 y (by simp) a (by simp) e
            have hyr : y ∉ rest := fun hm => hn2.2.2 y (by simp) y (by simp [hm]) rfl
            have hcd : (h.setCdr y (h.cdr a)).cdr a = h.cdr a := by
              show (if a = y then _ else h.cdr a) = _
              rw [if_neg (fun e => hya e.symm)]
            dsimp only
            rw [hcd]
            refine ih fuel (h.setCdr y (h.cdr a)) (h.cdr a) (some y) list (es ++ [y]) (path_setCdr hyr p) (by omega) ?_ (path_setLast hn2.1 q) hl
              (changes_setCdr k _ _ (fun c hc => hc) (by simp))
            exact List.Nodup.sublist (List.Sublist.append (List.Sublist.refl _) (List.sublist_cons_self a rest)) hn
      · rw [if_neg he, if_pos (by simpa using he)]
        have := ih fuel h (h.cdr a) (some a) list (ks ++ [a]) p (by omega) (by rw [List.append_assoc]; exact hn)
          ((path_append _ _ _ _ _).2 ⟨_, q, rfl, ha, rfl⟩) (lastV_snoc _ _) (changes_mono k _ (fun c hc => by simp [hc]))
        rw [List.append_assoc] at this
        exact this

theorem deleteX_spec {eq : Val → Bool} {h : Heap} {v t : Val} {as : List Nat} (ht : Val.Atomic t) (p : Path h v as t) (fuel : Nat) (hf : h.size < fuel) :
    ∃ h' v', deleteX eq fuel h v none v = .ok (h', v') ∧ Path h' v' (as.filter fun a => !eq (h.car a)) t ∧ ChangesCdrs (as.filter fun a => !eq (h.car a)) h h' := by
  have := path_len ht p
  exact deleteX_loop ht as fuel h v none v [] p (by omega) (path_nodup ht p) rfl rfl (ChangesCdrs.refl h)

/-! ### assoc-delete! -/

/-- No two in a row are to go. -/
def NoTwo (q : Nat → Bool) : List Nat → Prop
  | a :: b :: as => ¬ (q a = true ∧ q b = true) ∧ NoTwo q (b :: as)
  | _ => True

theorem NoTwo.tail {q : Nat → Bool} {a : Nat} {as : List Nat} (h : NoTwo q (a :: as)) : NoTwo q as := by
  cases as with
  | nil => trivial
  | cons b as => exact h.2

theorem assocDeleteX_loop {eq : Val → Bool} {h0 : Heap} {t : Val} (ht : Val.Atomic t) (rest : List Nat) :
    ∀ (fuel : Nat) (h : Heap) (cp : Val) (prev : Option Nat) (list : Val) (ks : List Nat),
    Path h cp rest t → rest.length < fuel → (ks ++ rest).Nodup → Path h list ks cp →
    (match prev with
      | none => ks = [] ∧ NoTwo (fun a => entryTest eq h0 (h0.car a)) (rest.dropWhile fun a => entryTest eq h0 (h0.car a))
      | some p => NoTwo (fun a => entryTest eq h0 (h0.car a)) rest ∧ (lastV ks = .pair p ∨ ∀ a as, rest = a :: as → entryTest eq h0 (h0.car a) = false)) →
    ChangesCdrs ks h0 h →
    ∃ h' v', assocDeleteX eq fuel h cp prev list = .ok (h', v') ∧ Path h' v' (ks ++ rest.filter fun a => !entryTest eq h0 (h0.car a)) t ∧
      ChangesCdrs (ks ++ rest.filter fun a => !entryTest eq h0 (h0.car a)) h0 h' := by
  induction rest with
  | nil =>
    intro fuel h cp prev list ks p hf hn q hl k
    cases fuel with
    | zero => simp at hf
    | succ fuel =>
      have p : cp = t := p
      subst p
      rw [List.filter_nil, List.append_nil]
      refine ⟨h, list, ?_, q, k⟩
      unfold assocDeleteX
      cases cp with
      | nil => rfl
      | atom x => rfl
      | pair a => exact absurd rfl (ht a)
  | cons a rest ih =>
    intro fuel h cp prev list ks p hf hn q hl k
    cases fuel with
    | zero => simp at hf
    | succ fuel =>
      obtain ⟨rfl, ha, p⟩ := p
      rw [List.length_cons] at hf
      have hn2 := List.nodup_append.1 hn
      have hcar : entryTest eq h (h.car a) = entryTest eq h0 (h0.car a) := by
        rw [k.2.1]
        cases h0.car a with
        | pair e => show eq (h.car e) = eq (h0.car e); rw [k.2.1]
        | nil => rfl
        | atom n => rfl
      unfold assocDeleteX
      dsimp only
      rw [hcar, List.filter_cons]
      by_cases he : entryTest eq h0 (h0.car a) = true
      · rw [if_pos he, if_neg (by rw [he]; simp)]
        cases prev with
        | none =>
          obtain ⟨hks, hno⟩ := hl
          subst hks
          rw [List.dropWhile_cons, if_pos he] at hno
          exact ih fuel h (h.cdr a) none (h.cdr a) [] p (by omega) (List.nodup_cons.1 hn).2 rfl ⟨rfl, hno⟩ k
        | some x =>
          obtain ⟨hno, hl⟩ := hl
          rcases hl with hl | hl
          swap
          · have := hl a rest rfl; rw [he] at this; simp at this
          rcases eq_snoc ks with e | ⟨es, y, e⟩
          · rw [e] at hl; simp [lastV] at hl
          · have hxy : y = x := by rw [e, lastV_snoc] at hl; injection hl
            subst hxy
            subst e
            have hya : y ≠ a := fun e => hn2.2.2 y (by simp) a (by simp) e
            have hyr : y ∉ rest := fun hm => hn2.2.2 y (by simp) y (by simp [hm]) rfl
            have hcd : (h.setCdr y (h.cdr a)).cdr a = h.cdr a := by
              show (if a = y then _ else h.cdr a) = _
              rw [if_neg (fun e => hya e.symm)]
            dsimp only
            rw [hcd]
            refine ih fuel (h.setCdr y (h.cdr a)) (h.cdr a) (some a) list (es ++ [y]) (path_setCdr hyr p) (by omega) ?_ (path_setLast hn2.1 q) ⟨hno.tail, Or.inr ?_⟩
              (changes_setCdr k _ _ (fun c hc => hc) (by simp))
            · exact List.Nodup.sublist (List.Sublist.append (List.Sublist.refl _) (List.sublist_cons_self a rest)) hn
            · intro b bs e
              rw [e] at hno
              have := hno.1
              by_contra hb
              exact this ⟨he, by simpa using hb⟩
      · rw [if_neg he, if_pos (by simpa using he)]
        have hno : NoTwo (fun a => entryTest eq h0 (h0.car a)) rest := by
          cases prev with
          | none =>
            obtain ⟨_, hno⟩ := hl
            rw [List.dropWhile_cons, if_neg he] at hno
            exact hno.tail
          | some x => exact hl.1.tail
        have := ih fuel h (h.cdr a) (some a) list (ks ++ [a]) p (by omega) (by rw [List.append_assoc]; exact hn)
          ((path_append _ _ _ _ _).2 ⟨_, q, rfl, ha, rfl⟩) ⟨hno, Or.inl (lastV_snoc _ _)⟩ (changes_mono k _ (fun c hc => by simp [hc]))
        rw [List.append_assoc] at this
        exact this

/-! ### delete-duplicates -/

theorem firsts_congr {eq : Val → Val → Bool} (xs : List Val) : ∀ (s s' : List Val), (∀ z, (s.any fun y => eq y z) = (s'.any fun y => eq y z)) → firsts eq s xs = firsts eq s' xs := by
  induction xs with
  | nil => intro s s' _; rfl
  | cons x xs ih =>
    intro s s' h
    have h' : ∀ z, ((s ++ [x]).any fun y => eq y z) = ((s' ++ [x]).any fun y => eq y z) := by
      intro z; rw [List.any_append, List.any_append, h z]
    unfold firsts
    rw [h x, ih _ _ h']

/-- Seen, or equal to one kept: the same. -/
theorem firsts_filter {eq : Val → Val → Bool} (htr : ∀ x y z, eq x y = true → eq y z = true → eq x z = true) (x : Val) (xs : List Val) : ∀ (s : List Val),
    firsts eq (s ++ [x]) xs = firsts eq s (xs.filter fun y => !eq x y) := by
  induction xs with
  | nil => intro s; rfl
  | cons y xs ih =>
    intro s
    rw [List.filter_cons]
    by_cases hxy : eq x y = true
    · rw [if_neg (by rw [hxy]; simp)]
      have e : firsts eq (s ++ [x]) (y :: xs) = firsts eq (s ++ [x] ++ [y]) xs := by
        show (if ((s ++ [x]).any fun z => eq z y) = true then _ else _) = _
        rw [if_pos]
        rw [List.any_append]
        simp [hxy]
      rw [e, ← ih]
      apply firsts_congr
      intro z
      rw [List.any_append (xs := s ++ [x])]
      by_cases hyz : eq y z = true
      · have := htr x y z hxy hyz
        rw [List.any_append]
        simp [this]
      · simp [hyz]
    · rw [if_pos (by simpa using hxy)]
      have ha : ((s ++ [x]).any fun z => eq z y) = s.any fun z => eq z y := by
        rw [List.any_append]; simp [hxy]
      have hr : firsts eq (s ++ [x] ++ [y]) xs = firsts eq (s ++ [y]) (xs.filter fun w => !eq x w) := by
        rw [← ih (s ++ [y])]
        apply firsts_congr
        intro z
        simp only [List.any_append]
        rw [Bool.or_assoc, Bool.or_assoc]
        congr 1
        exact Bool.or_comm _ _
      show (if ((s ++ [x]).any fun z => eq z y) = true then _ else _) = (if (s.any fun z => eq z y) = true then _ else _)
      rw [ha, hr]

theorem member_path {h : Heap} {eq : Val → Bool} (fs : List Nat) : ∀ (v : Val) (fuel : Nat), Path h v fs .nil → fs.length < fuel →
    ∃ r, member h eq fuel v = .ok r ∧ (r = none ↔ (elems h fs).any eq = false) := by
  induction fs with
  | nil =>
    intro v fuel p hf
    cases fuel with
    | zero => simp at hf
    | succ fuel =>
      have p : v = .nil := p
      subst p
      exact ⟨none, rfl, by simp [elems]⟩
  | cons c cs ih =>
    intro v fuel p hf
    cases fuel with
    | zero => simp at hf
    | succ fuel =>
      obtain ⟨rfl, _, p⟩ := p
      unfold member
      dsimp only
      by_cases he : eq (h.car c) = true
      · rw [if_pos he]
        refine ⟨some c, rfl, ?_⟩
        simp [elems, he]
      · rw [if_neg he]
        obtain ⟨r, e, hr⟩ := ih _ fuel p (by rw [List.length_cons] at hf; omega)
        refine ⟨r, e, ?_⟩
        rw [hr]
        simp [elems, he]

theorem dedupLoop_spec {eq : Val → Val → Bool} (hsym : ∀ x y, eq x y = true → eq y x = true) (htr : ∀ x y z, eq x y = true → eq y z = true → eq x z = true)
    {h0 : Heap} {t : Val} (ht : Val.Atomic t) (as : List Nat) : ∀ (fuel : Nat) (h : Heap) (v result tail : Val) (fs : List Nat) (seen : List Val),
    Path h0 v as t → as.length < fuel → Built h0 h result tail fs → (∀ z, (seen.any fun y => eq y z) = ((elems h fs).any fun y => eq y z)) →
    ∃ h' result' tail' fs', dedupLoop eq fuel h v result tail = .ok (h', result', tail', t) ∧ Built h0 h' result' tail' fs' ∧
      elems h' fs' = elems h fs ++ firsts eq seen (elems h0 as) := by
  induction as with
  | nil =>
    intro fuel h v result tail fs seen p hf b hseen
    cases fuel with
    | zero => simp at hf
    | succ fuel =>
      have p : v = t := p
      subst p
      refine ⟨h, result, tail, fs, ?_, b, by simp [elems, firsts]⟩
      unfold dedupLoop
      cases v with
      | nil => rfl
      | atom x => rfl
      | pair a => exact absurd rfl (ht a)
  | cons a as ih =>
    intro fuel h v result tail fs seen p hf b hseen
    cases fuel with
    | zero => simp at hf
    | succ fuel =>
      obtain ⟨rfl, ha, p⟩ := p
      rw [List.length_cons] at hf
      unfold dedupLoop
      dsimp only
      rw [(Step.keeps b ha).2]
      have hfl := path_len atomic_nil b.path
      obtain ⟨r, e, hr⟩ := member_path (eq := eq (h0.car a)) fs result (h.size + 1) b.path (by omega)
      rw [e]
      have hsw : (elems h fs).any (eq (h0.car a)) = seen.any fun y => eq y (h0.car a) := by
        rw [hseen]
        congr 1
        funext y
        by_cases h1 : eq (h0.car a) y = true
        · rw [h1, hsym _ _ h1]
        · have h2 : ¬ eq y (h0.car a) = true := fun h2 => h1 (hsym _ _ h2)
          rw [Bool.not_eq_true] at h1 h2
          rw [h1, h2]
      have hfirst : firsts eq seen (elems h0 (a :: as)) = if (seen.any fun y => eq y (h0.car a)) = true then firsts eq (seen ++ [h0.car a]) (elems h0 as)
          else h0.car a :: firsts eq (seen ++ [h0.car a]) (elems h0 as) := rfl
      cases r with
      | none =>
        have hno := hr.1 rfl
        rw [hsw] at hno
        dsimp only
        obtain ⟨b1, _, e2, _⟩ := b.append1 (h0.car a)
        generalize append1 h result tail (h0.car a) = r1 at *
        rw [(Step.keeps b1 ha).1]
        obtain ⟨h', result', tail', fs', q1, q2, q3⟩ := ih fuel r1.1 _ r1.2.1 r1.2.2 _ (seen ++ [h0.car a]) p (by omega) b1 (by
          intro z; rw [e2, List.any_append, List.any_append, hseen])
        refine ⟨h', result', tail', fs', q1, q2, ?_⟩
        rw [q3, e2, hfirst, if_neg (by rw [hno]; simp), List.append_assoc]; rfl
      | some m =>
        have hyes : (seen.any fun y => eq y (h0.car a)) = true := by
          rw [← hsw]
          by_contra hb
          have := hr.2 (by simpa using hb)
          simp at this
        dsimp only
        rw [(Step.keeps b ha).1]
        obtain ⟨h', result', tail', fs', q1, q2, q3⟩ := ih fuel h _ result tail fs (seen ++ [h0.car a]) p (by omega) b (by
          intro z
          rw [List.any_append, ← hseen]
          by_cases hz : eq (h0.car a) z = true
          · obtain ⟨y, hy1, hy2⟩ := List.any_eq_true.1 hyes
            have : (seen.any fun y => eq y z) = true := List.any_eq_true.2 ⟨y, hy1, htr _ _ _ hy2 hz⟩
            rw [this]; simp
          · simp [hz])
        refine ⟨h', result', tail', fs', q1, q2, ?_⟩
        rw [q3, hfirst, if_pos hyes]

theorem dedup_spec {eq : Val → Val → Bool} (hsym : ∀ x y, eq x y = true → eq y x = true) (htr : ∀ x y z, eq x y = true → eq y z = true → eq x z = true)
    {h : Heap} {v t : Val} {as : List Nat} (ht : Val.Atomic t) (hd : t = .nil ∨ as ≠ []) (p : Path h v as t) (fuel : Nat) (hf : h.size < fuel) :
    ∃ h' v' fs, dedup eq fuel h v = .ok (h', v') ∧ Keeps h h' ∧ New h fs ∧ Path h' v' fs t ∧ elems h' fs = firsts eq [] (elems h as) := by
  have hl := path_len ht p
  obtain ⟨h', result', tail', fs', q1, q2, q3⟩ := dedupLoop_spec hsym htr ht as fuel h v .nil .nil [] [] p (by omega) (Built.init h) (by simp [elems])
  have e : dedup eq fuel h v = .ok (if t ≠ .nil ∧ tail' ≠ .nil then h'.setCdrV tail' t else h', result') := by
    unfold dedup
    rw [q1]
  rw [e]
  by_cases htn : t = .nil
  · rw [if_neg (by rw [htn]; simp)]
    refine ⟨h', result', fs', rfl, q2.keeps, q2.new, by rw [htn]; exact q2.path, ?_⟩
    rw [q3]; rfl
  · have hfs : fs' ≠ [] := by
      intro e0
      rw [e0] at q3
      have hne : as ≠ [] := hd.resolve_left htn
      cases as with
      | nil => exact hne rfl
      | cons a as => simp [elems, firsts] at q3
    have htail : tail' ≠ .nil := by
      rw [q2.last]
      rcases eq_snoc fs' with e | ⟨gs, g, e⟩
      · exact absurd e hfs
      · rw [e, lastV_snoc]; simp
    rw [if_pos ⟨htn, htail⟩]
    obtain ⟨k1, k2, k3⟩ := q2.setLast hfs t
    exact ⟨_, result', fs', rfl, k1, q2.new, k2, by rw [k3, q3]; rfl⟩

/-! ### delete-duplicates! -/

theorem dedupX_loop {eq : Val → Val → Bool} (htr : ∀ x y z, eq x y = true → eq y z = true → eq x z = true) {t list : Val} (ht : Val.Atomic t) (fuel : Nat) :
    ∀ (h : Heap) (v : Val) (as : List Nat), Path h v as t → as.length < fuel →
    ∃ h' ks, dedupX eq list fuel h v = .ok (h', list) ∧ ks.Sublist as ∧ Path h' v ks t ∧ elems h ks = firsts eq [] (elems h as) ∧ ChangesCdrs as h h' := by
  induction fuel with
  | zero => intro h v as p hf; omega
  | succ fuel ih =>
    intro h v as p hf
    unfold dedupX
    cases as with
    | nil =>
      have p : v = t := p
      subst p
      refine ⟨h, [], ?_, List.Sublist.refl _, rfl, rfl, ChangesCdrs.refl h⟩
      cases v with
      | nil => rfl
      | atom x => rfl
      | pair a => exact absurd rfl (ht a)
    | cons a as =>
      have hnd := path_nodup ht p
      obtain ⟨rfl, ha, p⟩ := p
      rw [List.length_cons] at hf
      dsimp only
      obtain ⟨h1, tail, e1, p1, k1⟩ := deleteX_spec (eq := eq (h.car a)) ht p (h.size + 1) (by omega)
      rw [e1]
      dsimp only
      generalize hfl : as.filter (fun b => !eq (h.car a) (h.car b)) = fl at *
      have hflsub : fl.Sublist as := by rw [← hfl]; exact List.filter_sublist
      have haf : a ∉ fl := fun hm => (List.nodup_cons.1 hnd).1 (hflsub.subset hm)
      generalize hh2 : (if h1.cdr a = tail then h1 else h1.setCdr a tail) = h2
      have hcd2 : h2.cdr a = tail := by
        rw [← hh2]
        by_cases hc : h1.cdr a = tail
        · rw [if_pos hc]; exact hc
        · rw [if_neg hc]
          show (if a = a then tail else _) = _
          rw [if_pos rfl]
      have k2 : ChangesCdrs (a :: as) h h2 := by
        rw [← hh2]
        by_cases hc : h1.cdr a = tail
        · rw [if_pos hc]; exact changes_mono k1 _ (fun c hc => by simp [hflsub.subset hc])
        · rw [if_neg hc]; exact changes_setCdr k1 _ _ (fun c hc => by simp [hflsub.subset hc]) (by simp)
      have p2 : Path h2 tail fl t := by
        rw [← hh2]
        by_cases hc : h1.cdr a = tail
        · rw [if_pos hc]; exact p1
        · rw [if_neg hc]; exact path_setCdr haf p1
      rw [hcd2]
      obtain ⟨h', ks, q1, q2, q3, q4, q5⟩ := ih h2 tail fl p2 (by have := hflsub.length_le; omega)
      have hcars : h2.car = h.car := k2.2.1
      refine ⟨h', a :: ks, q1, (q2.trans hflsub).cons₂ a, ⟨rfl, ?_, ?_⟩, ?_, ?_⟩
      · rw [q5.1, k2.1]; exact ha
      · rw [q5.2.2 a haf, hcd2]; exact q3
      · have e4 : elems h2 ks = elems h ks := by unfold elems; rw [hcars]
        have e5 : elems h2 fl = elems h fl := by unfold elems; rw [hcars]
        rw [e4, e5] at q4
        show h.car a :: elems h ks = firsts eq [] (h.car a :: elems h as)
        have e6 : firsts eq [] (h.car a :: elems h as) = h.car a :: firsts eq ([] ++ [h.car a]) (elems h as) := by
          show (if (([] : List Val).any fun y => eq y (h.car a)) = true then _ else _) = _
          rw [if_neg (by simp)]
        rw [e6, firsts_filter htr, q4]
        congr 2
        rw [← hfl]
        exact (List.filter_map (f := h.car) (p := fun y => !eq (h.car a) y)).symm
      · refine ⟨q5.1.trans k2.1, q5.2.1.trans k2.2.1, fun i hi => ?_⟩
        rw [q5.2.2 i (fun hm => hi (by simp [hflsub.subset hm]))]
        exact k2.2.2 i hi

end Gauche.ListPrim

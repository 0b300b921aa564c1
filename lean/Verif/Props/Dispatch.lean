import Verif.Proof.DispatchAcc
/-
C77: calls of generic functions select and order methods by specificity.
C78: the dispatch accelerator does not change the meaning of a call.

`hf` is the hash function of the accelerator, which depends on addresses; it is arbitrary everywhere.
-/
namespace Gauche.Dispatch
open Spec

theorem holds_empty (b : Nat) (hb : 0 < b) : Holds b (fun _ => False) ({} : GF) :=
  { distinct := List.Pairwise.nil, req := by simp, set := by simp, bound := hb }

/-- A generic function that has been through the history `ops` (from no methods, all with fewer than 32 required arguments)
calls the applicable methods it has then in the order of specificity: the first on the call, the following one
whenever the present one calls `(next-method)`, and the fallback (which signals "no applicable method") after the
last one.  (`leaf` methods do not call `next-method`, so nothing is said about what comes after one.) -/
theorem C77_call_order (hf : HashFn) (w : World) (ops : List Op) (args : List Nat)
    (hreq : ∀ m, Op.add m ∈ ops → m.specs.length < 32) (hb : ∀ c ∈ args, c ≠ w.bottom) :
    ∃ gf L, runOps hf ops {} = some gf ∧ CallOrder w (live ops fun _ => False) args L ∧
      ∀ i, i ≤ L.length → (∀ (j : Nat) (m : Method), j < i → L[j]? = some m → m.leaf = false) →
        (∀ m, L[i]? = some m → ∃ nm, callChain hf w gf args i = some (.invoke m nm)) ∧
        (L[i]? = none → callChain hf w gf args i = some .fallback) := by
  obtain ⟨gf, e, hd⟩ := runOps_total hf ops {} rfl
  have hh := runOps_holds hf ops _ {} gf (holds_empty 32 (by decide)) hreq e
  have hc := computeApplicable_spec hf w gf args hh.toGFOk hb (Or.inl hh.bound) hd
  have happ : ∀ m ∈ applicableOf w args gf.methods, Applicable w m args := fun m hm => (mem_applicableOf.1 hm).2.2
  obtain ⟨L, p, s, hcall⟩ := callGeneric_of hf w gf args _ hc (hh.distinct.sublist List.filter_sublist) happ
  refine ⟨gf, L, e, ⟨fun m => ?_, ?_, s⟩, fun i hi hl => ?_⟩
  · rw [p.mem_iff, mem_applicableOf, hh.set]
  · exact p.nodup_iff.2 (hh.nodup.sublist List.filter_sublist)
  · have h := callChain_of hf w gf args L (fun m hm => happ m (p.mem_iff.1 hm)) hcall i hi hl
    rw [h]
    constructor
    · intro m hm
      obtain ⟨hlt, hm'⟩ := List.getElem?_eq_some_iff.1 hm
      rw [List.drop_eq_getElem_cons hlt, hm']
      exact ⟨_, rfl⟩
    · intro hn
      rw [List.drop_eq_nil_of_le (List.getElem?_eq_none_iff.1 hn)]
      rfl

/-- The order is determined by the methods and the classes of the arguments: the order in which the methods were
defined does not matter. -/
theorem C77_order_unique (w : World) (S : Method → Prop) (args : List Nat) (l l' : List Method)
    (h : CallOrder w S args l) (h' : CallOrder w S args l') : l = l' := by
  have hp : l.Perm l' := (List.perm_ext_iff_of_nodup h.2.1 h'.2.1).2 fun m => by rw [h.1, h'.1]
  refine hp.eq_of_pairwise (le := MoreSpecific w args) (fun a b _ _ h1 h2 => ?_) h.2.2 h'.2.2
  exact absurd (moreSpecific_trans w args a b a h1 h2) (moreSpecific_irrefl w args a)

theorem fillApply_spec (cap : Nat) : ∀ (l : List Nat) (nsel : Int) (acc : List Nat), acc.length + nsel ≤ cap →
    fillApply cap l nsel acc = some (acc ++ l.take nsel.toNat) := by
  intro l
  induction l with
  | nil => intro nsel acc _; simp [fillApply]
  | cons c l ih =>
    intro nsel acc h
    unfold fillApply
    by_cases h1 : 0 ≤ nsel - 1
    · rw [if_pos h1, if_pos (by omega), ih (nsel - 1) (acc ++ [c]) (by simp; omega)]
      have : nsel.toNat = (nsel - 1).toNat + 1 := by omega
      rw [this]
      simp
    · rw [if_neg h1, ih (nsel - 1) acc (by omega)]
      have e1 : (nsel - 1).toNat = 0 := by omega
      have e2 : nsel.toNat = 0 := by omega
      rw [e1, e2]
      simp

/-- `(apply gf a ... '(b ...))` does what `(gf a ... b ...)` does, unless as many arguments are given before the list as the
generic function has (ever had) required arguments at most, and the list is not empty. -/
theorem C77_apply_partial (hf : HashFn) (w : World) (ops : List Op) (gf : GF) (args rest : List Nat)
    (hreq : ∀ m, Op.add m ∈ ops → m.specs.length < 32) (hb : ∀ c ∈ args ++ rest, c ≠ w.bottom)
    (h : runOps hf ops {} = some gf) (hne : args.length ≠ gf.maxReqargs ∨ rest = []) :
    callGeneric hf w gf args (some rest) = callGeneric hf w gf (args ++ rest) none := by
  obtain ⟨gf', e, hd⟩ := runOps_total hf ops {} rfl
  rw [h] at e
  cases e
  have hh := runOps_holds hf ops _ {} gf (holds_empty 32 (by decide)) hreq h
  have key : ∃ typev, typevArgc gf args (some rest) = some (typev, (args ++ rest).length) ∧
      ∀ i, i < gf.maxReqargs → typev[i]? = (args ++ rest)[i]? := by
    unfold typevArgc
    have hcap : 32 ≤ typevCap gf := by unfold typevCap preallocSize; split <;> omega
    have hbd := hh.bound
    rw [fillTypev_spec (typevCap gf) args gf.maxReqargs [] (by simp; omega)]
    simp only [Option.bind_some, List.nil_append]
    by_cases h0 : ((gf.maxReqargs : Int) - (min args.length (gf.maxReqargs + 1) : Nat)) ≠ 0
    · rw [if_pos h0, fillApply_spec _ rest _ _ (by rw [List.length_take]; omega)]
      refine ⟨_, by rw [Option.map_some, List.length_append], fun i hi => ?_⟩
      by_cases h1 : i < args.length
      · rw [List.getElem?_append_left (by rw [List.length_take]; omega), List.getElem?_append_left h1,
          List.getElem?_take, if_pos (by omega)]
      · rw [List.getElem?_append_right (by rw [List.length_take]; omega), List.getElem?_append_right (by omega),
          List.getElem?_take, if_pos (by rw [List.length_take]; omega)]
        congr 1
        rw [List.length_take]; omega
    · rw [if_neg h0]
      have h1 : args.length = gf.maxReqargs := by omega
      have h2 : rest = [] := hne.resolve_left (by omega)
      subst h2
      refine ⟨_, by rw [List.append_nil], fun i hi => ?_⟩
      rw [List.append_nil, List.getElem?_take, if_pos (by omega)]
  obtain ⟨typev, k1, k2⟩ := key
  have hc : computeApplicable hf w gf args (some rest) = computeApplicable hf w gf (args ++ rest) none := by
    rw [computeApplicable_spec hf w gf (args ++ rest) hh.toGFOk hb (Or.inl hh.bound) hd]
    unfold computeApplicable
    by_cases h0 : gf.methods = []
    · rw [if_pos h0, h0]; rfl
    · rw [if_neg h0, k1, hd]
      simp only [Option.bind_some]
      exact selectMethods_spec w typev (args ++ rest) hb gf.methods
        (fun m hm i hi _ => k2 i (by have := hh.req m hm; omega))
  unfold callGeneric
  rw [hc]
  simp

/-- A small world for the examples: class 1 (say `<integer>`) and class 2 are subclasses of 4; 9 is `<top>`, 8 `<bottom>`. -/
def exWorld : World := { cpl := fun c => if c = 1 then [1, 4, 9] else if c = 2 then [2, 4, 9] else if c = 4 then [4, 9] else [c, 9]
                         top := 9
                         bottom := 8 }

/-- A run with a dispatcher: a history, `generic-build-dispatcher!`, another history. -/
def runWith (hf : HashFn) (ops : List Op) (axis : Nat) (ops' : List Op) : Option GF :=
  ((runOps hf ops {}).bind fun gf => genericBuildDispatcher hf gf axis).bind fun gf => runOps hf ops' gf

section Bugs

/-- A generic function with a method for one integer and one for an integer and more arguments: `(f 1 1)` calls the
second, but `(apply f 1 '(1))` selects the first and fails with a wrong number of arguments. -/
theorem C77_bug_apply (hf : HashFn) :
    let m1 : Method := { id := 1, specs := [1] }
    let m2 : Method := { id := 2, specs := [1], opt := true }
    ∃ gf, runOps hf [.add m1, .add m2] {} = some gf ∧
      callGeneric hf exWorld gf [1, 1] none = some (.invoke m2 (some [])) ∧
      callGeneric hf exWorld gf [1] (some [1]) = some .wrongArgs := by
  exact ⟨_, rfl, rfl, rfl⟩

/-- With a method of 32 required arguments and a rest argument, a call with 33 arguments writes past the end of an array. -/
theorem C77_bug_overflow (hf : HashFn) :
    let m : Method := { id := 1, specs := List.replicate 32 9, opt := true }
    ∃ gf, runOps hf [.add m] {} = some gf ∧ callGeneric hf exWorld gf (List.replicate 33 1) none = none := by
  exact ⟨_, rfl, rfl⟩

end Bugs

/-- If the accelerator is built for the first argument, and since then only methods of new signatures have been
added, a call does what it would do without the accelerator, provided that (1) it does not have four arguments or no
method takes optional arguments, and (2) if some method is specialized exactly on the class of the first
argument and accepts the number of arguments, one such method is applicable.  Missing from the full property: the
histories with deletions and redefinitions, the other axes, and the calls excluded by (1) and (2); the accelerator does
change their meaning, see the theorems `C78_bug_...`. -/
theorem C78_dispatcher_partial (hf : HashFn) (w : World) (ops : List Op) (news : List Method) (c : Nat) (as : List Nat)
    (hreq : ∀ m, Op.add m ∈ ops ++ news.map .add → m.specs.length < 32) (hb : ∀ x ∈ c :: as, x ≠ w.bottom)
    (hnew : news.Pairwise fun a b => ¬ SameSig b a)
    (hnew' : ∀ m ∈ news, ∀ x, live ops (fun _ => False) x → ¬ SameSig m x) :
    ∃ gf gf0, runWith hf ops 0 (news.map .add) = some gf ∧ runOps hf (ops ++ news.map .add) {} = some gf0 ∧
      (let S := live (ops ++ news.map .add) fun _ => False
       ((c :: as).length ≠ 4 ∨ ∀ m, S m → m.opt = false) →
       ((∃ m, S m ∧ m.specs[0]? = some c ∧ Accepts m (c :: as).length) →
         ∃ m, S m ∧ m.specs[0]? = some c ∧ m.placeholder = false ∧ Applicable w m (c :: as)) →
       ∀ i, callChain hf w gf (c :: as) i = callChain hf w gf0 (c :: as) i) := by
  obtain ⟨g1, e1, d1⟩ := runOps_total hf ops {} rfl
  have hh1 := runOps_holds hf ops _ {} g1 (holds_empty 32 (by decide)) (fun m hm => hreq m (by simp [hm])) e1
  obtain ⟨h2, b1, b2⟩ := build_has hf g1.methods 0 hh1.nodup
  have hbuild : genericBuildDispatcher hf g1 0 = some { g1 with dispatcher := some { axis := 0, hash := h2 } } := by
    unfold genericBuildDispatcher maxNargs
    rw [if_pos (by decide), b1]
    rfl
  have hrunapp : ∀ (o1 o2 : List Op) (g : GF), runOps hf (o1 ++ o2) g = (runOps hf o1 g).bind fun g => runOps hf o2 g := by
    intro o1
    induction o1 with
    | nil => intro o2 g; rfl
    | cons op o1 ih =>
      intro o2 g
      cases op with
      | add m =>
        simp only [List.cons_append, runOps]
        cases addMethod hf g m with
        | none => rfl
        | some g' => simp [ih]
      | del m =>
        simp only [List.cons_append, runOps]
        cases deleteMethod hf g m with
        | none => rfl
        | some g' => simp [ih]
  have hadds : ∀ (ns : List Method) (S : Method → Prop) (g : GF), Holds 32 S g.plain → DispOk hf g →
      ns.Pairwise (fun a b => ¬ SameSig b a) → (∀ m ∈ ns, ∀ x, S x → ¬ SameSig m x) → (∀ m ∈ ns, m.specs.length < 32) →
      ∃ g', runOps hf (ns.map .add) g = some g' ∧ DispOk hf g' ∧ runOps hf (ns.map .add) g.plain = some g'.plain := by
    intro ns
    induction ns with
    | nil => intro S g hs hd _ _ _; exact ⟨g, rfl, hd, rfl⟩
    | cons m ns ih =>
      intro S g hs hd hp hn hl
      rw [List.pairwise_cons] at hp
      obtain ⟨g', a1, a2, a3⟩ := addMethod_disp hd m (fun x hx => hn m (by simp) x ((hs.set x).1 hx))
      have hs' := addMethod_holds hf hs m (hl m (by simp)) a3
      obtain ⟨g'', c1, c2, c3⟩ := ih _ g' hs' a2 hp.2 (by
        intro y hy x hx
        have hx' : x = m ∨ S x := by
          unfold step at hx
          rcases hx with hx | ⟨hx | hx, _⟩
          · exact Or.inr hx.1
          · exact Or.inl hx
          · exact Or.inr hx.1
        rcases hx' with rfl | hx'
        · exact hp.1 y hy
        · exact hn y (by simp [hy]) x hx') (fun y hy => hl y (by simp [hy]))
      refine ⟨g'', ?_, c2, ?_⟩
      · simp only [List.map_cons, runOps, a1, Option.bind_some]; exact c1
      · simp only [List.map_cons, runOps, a3, Option.bind_some]; exact c3
  have hplain1 : ({ g1 with dispatcher := some { axis := 0, hash := h2 } } : GF).plain = g1 := by
    unfold GF.plain
    cases g1
    simp at d1
    subst d1
    rfl
  obtain ⟨gf, c1, c2, c3⟩ := hadds news _ { g1 with dispatcher := some { axis := 0, hash := h2 } }
    (by rw [hplain1]; exact hh1) ⟨h2, rfl, b2⟩ hnew hnew' (fun m hm => hreq m (by simp [hm]))
  rw [hplain1] at c3
  have hall : runOps hf (ops ++ news.map .add) {} = some gf.plain := by
    rw [hrunapp, e1]
    exact c3
  have hh := runOps_holds hf _ _ {} gf.plain (holds_empty 32 (by decide)) hreq hall
  refine ⟨gf, gf.plain, ?_, hall, fun h4 hit i => ?_⟩
  · unfold runWith
    rw [e1]
    simp only [Option.bind_some]
    rw [hbuild]
    exact c1
  · apply callChain_congr
    have hok : GFOk gf := ⟨hh.distinct, hh.req⟩
    refine call_disp hf w gf c as hok c2 hb hh.bound ?_ ?_
    · rcases h4 with h4 | h4
      · exact Or.inl h4
      · exact Or.inr fun m hm => h4 m ((hh.set m).1 hm)
    · rintro ⟨m, a1, a2, a3⟩
      obtain ⟨m', b1, b2, b3, b4⟩ := hit ⟨m, (hh.set m).1 a1, a2, a3⟩
      exact ⟨m', (hh.set m').2 b1, b2, b3, b4⟩

/-- A method for `(1, 2)` and one for any two objects: with the accelerator, a call with other second arguments finds no
applicable method.  (So is the built-in `ref`: once `(define-method ref ((x <c>) (i <integer>)) ...)` is
there, `(ref x 'slot)` no longer reaches the method for all objects and symbols.) -/
theorem C78_bug_shadow :
    let m1 : Method := { id := 1, specs := [1, 2], leaf := true }
    let m2 : Method := { id := 2, specs := [9, 9], leaf := true }
    let hf : HashFn := fun k n => k.getD 0 + n
    (runWith hf [.add m2, .add m1] 0 []).bind (fun gf => callGeneric hf exWorld gf [1, 4] none) = some .fallback ∧
    (runOps hf [.add m2, .add m1] {}).bind (fun gf => callGeneric hf exWorld gf [1, 4] none) = some (.invoke m2 none) := by
  decide +kernel

/-- In calls with four arguments, methods with optional arguments are not seen. -/
theorem C78_bug_four_arguments :
    let m1 : Method := { id := 1, specs := [1, 9, 9, 9], leaf := true }
    let m2 : Method := { id := 2, specs := [1, 2], opt := true, leaf := true }
    let hf : HashFn := fun k n => k.getD 0 + n
    (runWith hf [.add m1, .add m2] 0 []).bind (fun gf => callGeneric hf exWorld gf [1, 2, 3, 3] none) =
      some (.invoke m1 none) ∧
    (runOps hf [.add m1, .add m2] {}).bind (fun gf => callGeneric hf exWorld gf [1, 2, 3, 3] none) =
      some (.invoke m2 none) := by
  decide +kernel

/-- A method is redefined, and a more specific method that calls `next-method` is no longer seen. -/
theorem C78_bug_redefine :
    let m1 : Method := { id := 1, specs := [1, 2] }
    let m2 : Method := { id := 2, specs := [1, 9], leaf := true }
    let m3 : Method := { id := 3, specs := [1, 9], leaf := true }
    let hf : HashFn := fun k n => k.getD 0 + n
    (runWith hf [.add m1, .add m2] 0 []).bind (fun gf => callGeneric hf exWorld gf [1, 2] none) =
      some (.invoke m1 (some [m2])) ∧
    (runWith hf [.add m1, .add m2] 0 [.add m3]).bind (fun gf => callGeneric hf exWorld gf [1, 2] none) =
      some (.invoke m3 none) := by
  decide +kernel

/-- A deleted method is still called (after the deletion of another one whose key has the same hash value). -/
theorem C78_bug_deleted :
    let m1 : Method := { id := 1, specs := [1], leaf := true }
    let m2 : Method := { id := 2, specs := [2], leaf := true }
    let m3 : Method := { id := 3, specs := [3], leaf := true }
    let hf : HashFn := fun _ _ => 0
    (runWith hf [.add m3, .add m1, .add m2] 0 [.del m2, .del m1]).bind (fun gf => callGeneric hf exWorld gf [1] none) =
      some (.invoke m1 none) := by
  decide +kernel

/-- With the accelerator built for the second argument, a less specific method is called. -/
theorem C78_bug_axis :
    let m1 : Method := { id := 1, specs := [1, 9], leaf := true }
    let m2 : Method := { id := 2, specs := [9, 2], leaf := true }
    let hf : HashFn := fun k n => k.getD 0 + n
    (runWith hf [.add m1, .add m2] 1 []).bind (fun gf => callGeneric hf exWorld gf [1, 2] none) =
      some (.invoke m2 none) ∧
    (runOps hf [.add m1, .add m2] {}).bind (fun gf => callGeneric hf exWorld gf [1, 2] none) =
      some (.invoke m1 none) := by
  decide +kernel

/-! ### Non-vacuity -/

/-- Three methods, one replaced; the call goes through two of them and ends at the fallback. -/
example :
    let m1 : Method := { id := 1, specs := [4] }
    let m2 : Method := { id := 2, specs := [1] }
    let m3 : Method := { id := 3, specs := [2] }
    let m4 : Method := { id := 4, specs := [4] }
    let hf : HashFn := fun k n => k.getD 0 + n
    (runOps hf [.add m2, .add m1, .add m3, .add m4] {}).bind (fun gf => callChain hf exWorld gf [1] 0) =
      some (.invoke m2 (some [m4])) ∧
    (runOps hf [.add m2, .add m1, .add m3, .add m4] {}).bind (fun gf => callChain hf exWorld gf [1] 1) =
      some (.invoke m4 (some [])) ∧
    (runOps hf [.add m2, .add m1, .add m3, .add m4] {}).bind (fun gf => callChain hf exWorld gf [1] 2) = some .fallback := by
  decide +kernel

/-- A case of C78_dispatcher_partial where the accelerator is used, with a method added later. -/
example :
    let m1 : Method := { id := 1, specs := [4, 9], leaf := true }
    let m2 : Method := { id := 2, specs := [1, 9], leaf := true }
    let m3 : Method := { id := 3, specs := [1, 2], leaf := true }
    let hf : HashFn := fun k n => k.getD 0 + n
    (runWith hf [.add m1, .add m2] 0 [.add m3]).bind (fun gf => callGeneric hf exWorld gf [1, 2] none) = some (.invoke m3 none) ∧
    (runOps hf [.add m1, .add m2, .add m3] {}).bind (fun gf => callGeneric hf exWorld gf [1, 2] none) = some (.invoke m3 none) ∧
    ((runWith hf [.add m1, .add m2] 0 [.add m3]).bind fun gf => gf.dispatcher.map fun d => mhashProbe hf d.hash (some 1) 2) =
      some (some (some [m3, m2])) := by
  decide +kernel

end Gauche.Dispatch

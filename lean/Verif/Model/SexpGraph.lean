import Verif.Model.Sexp
/-
Model of writing and reading data with shared and circular structure: the walk that counts references (src/libio.scm:881-923 `%write-walk-rec`), the writer with its own
stack and table of labels (src/write.c:614-834 `write_rec`), and the read references that the reader puts in the place of data that are not complete
(src/read.c:1582-1658 `read_num_prefixed`, src/read.c:316-351 `read_context_flush`).

Data are a heap of pairs, vectors and strings; everything else is an immediate value (interned symbols and numbers get no labels).  Not modelled: the limit of
2^24 on the length of a list in the walk, uninterned symbols, uniform vectors, boxes, dictionaries, other objects, write controls.
-/
namespace Gauche.Sexp

/-- A value: an immediate, the address of an object, or a read reference (only in the reader; `k` stands for the reference registered under the label `k`). -/
inductive V where
  | imm (a : Atom)
  | ptr (p : Nat)
  | ref (k : Nat)
deriving DecidableEq, Repr

/-- An object. -/
inductive Cell where
  | str (s : List Char)
  | pair (a d : V)
  | vec (l : List V)
deriving DecidableEq, Repr

/-- A heap: the object at an address.  (An address outside of the heap does not occur; it is given an empty string.) -/
def cellAt (H : List Cell) (p : Nat) : Cell := H.getD p (.str [])

/-- `write-need-recurse?` (src/libio.scm) for an object, and the same test in src/write.c:614-834 `write_rec`: empty strings and vectors are treated like immediates. -/
def Cell.plain : Cell → Bool
  | .str s => s.isEmpty
  | .vec l => l.isEmpty
  | .pair _ _ => false

/-- The parts of an object in the order of the walk. -/
def Cell.parts : Cell → List V
  | .str _ => []
  | .pair a d => [a, d]
  | .vec l => l

/-- The table `sharedTable`. -/
abbrev Tab := Nat → Option Int

/-- `hash-table-put!` and `hash-table-delete!`. -/
def Tab.set (t : Tab) (p : Nat) (x : Option Int) : Tab := fun q => if q = p then x else t q

/-- Walk over the parts one after another. -/
def walkL (f : Tab → V → Option Tab) : Tab → List V → Option Tab
  | t, [] => some t
  | t, v :: vs =>
    match f t v with
    | none => none
    | some t' => walkL f t' vs

/-- src/libio.scm:881-923 `%write-walk-rec`; `shared` is `(%port-writing-shared? port)`.  The first argument bounds the depth of the recursion. -/
def walk (H : List Cell) (shared : Bool) : Nat → Tab → V → Option Tab
  | 0, _, _ => none
  | n + 1, t, v =>
    match v with
    | .ptr p =>
      if (cellAt H p).plain then some t
      else
        match t p with
        | some k => some (t.set p (some (k + 1)))
        | none =>
          match walkL (walk H shared n) (t.set p (some 1)) (cellAt H p).parts with
          | none => none
          | some t' => some (if shared = false ∧ t' p = some 1 then t'.set p none else t')
    | _ => some t

/-! ### writing -/

/-- `sharedTable` and `sharedCounter` of the write state. -/
structure WSt where
  tab : Tab
  cnt : Nat

/-- `Scm_HashTableRef(ht, obj, SCM_MAKE_INT(1))`. -/
def WSt.val (st : WSt) (p : Nat) : Int := (st.tab p).getD 1

/-- The elements of the stack of src/write.c:614-834 `write_rec`: the rest of a list, or a vector and the index of its next element. -/
inductive Frame where
  | list (rest : V)
  | vec (i p : Nat)

/-- The labels `write1` (with the variable `obj`) and `next` of src/write.c:614-834 `write_rec`. -/
inductive Ctl where
  | write1 (v : V)
  | next

/-- The test for the abbreviation of quoting forms in src/write.c:614-834 `write_rec`: the prefix and the second element. -/
def quoteForm (H : List Cell) (st : WSt) (a d : V) : Option (Quoter × V) :=
  match d with
  | .ptr q =>
    match cellAt H q with
    | .pair x y =>
      if y = .imm .nil ∧ st.tab q = none then
        if a = .imm (.sym Quoter.quote.name) then some (.quote, x)
        else if a = .imm (.sym Quoter.quasi.name) then some (.quasi, x)
        else if a = .imm (.sym Quoter.unquote.name) then some (.unquote, x)
        else if a = .imm (.sym Quoter.splice.name) then some (.splice, x)
        else none
      else none
    | _ => none
  | _ => none

/-- src/write.c:614-834 `write_rec`; the first argument bounds the number of steps, `out` is the text written so far.  For a vector after a dot the code calls itself and then
writes the parenthesis; here the rest of the list is set to `()` as for other objects, which writes the same text. -/
def writeRec (e : Env) (H : List Cell) : Nat → Ctl → List Frame → WSt → List Char → Option (List Char × WSt)
  | 0, _, _, _, _ => none
  | n + 1, .write1 v, stk, st, out =>
    match v with
    | .imm a => writeRec e H n .next stk st (out ++ writeAtom e a)
    | .ref _ => none
    | .ptr p =>
      let body := fun (st : WSt) (out : List Char) =>
        match cellAt H p with
        | .str s => writeRec e H n .next stk st (out ++ writeString e.cat s)
        | .vec [] => writeRec e H n .next stk st (out ++ "#()".toList)
        | .vec (x :: _) => writeRec e H n (.write1 x) (.vec 1 p :: stk) st (out ++ "#(".toList)
        | .pair a d =>
          match quoteForm H st a d with
          | some (q, x) => writeRec e H n (.write1 x) stk st (out ++ q.mark)
          | none => writeRec e H n (.write1 a) (.list d :: stk) st (out ++ ['('])
      if (cellAt H p).plain then body st out
      else if st.val p ≤ 0 then writeRec e H n .next stk st (out ++ ('#' :: decText (-st.val p).toNat ++ ['#']))
      else if st.val p > 1 then body ⟨st.tab.set p (some (-st.cnt)), st.cnt + 1⟩ (out ++ ('#' :: decText st.cnt ++ ['=']))
      else body st out
  | n + 1, .next, stk, st, out =>
    match stk with
    | [] => some (out, st)
    | .vec i p :: stk' =>
      match (cellAt H p).parts[i]? with
      | none => writeRec e H n .next stk' st (out ++ [')'])
      | some x => writeRec e H n (.write1 x) (.vec (i + 1) p :: stk') st (out ++ [' '])
    | .list v :: stk' =>
      let dot := writeRec e H n (.write1 v) (.list (.imm .nil) :: stk') st (out ++ " . ".toList)
      match v with
      | .imm .nil => writeRec e H n .next stk' st (out ++ [')'])
      | .ptr q =>
        match cellAt H q with
        | .pair a d => if st.val q ≠ 1 then dot else writeRec e H n (.write1 a) (.list d :: stk') st (out ++ [' '])
        | _ => dot
      | _ => dot

/-- src/write.c:858-885 `write_ss`: `write` and `write-shared`. -/
def writeGraph (e : Env) (shared : Bool) (fuel : Nat) (H : List Cell) (v : V) : Option (List Char) :=
  match walk H shared fuel (fun _ => none) v with
  | none => none
  | some t => (writeRec e H fuel (.write1 v) [] ⟨t, 0⟩ []).map (·.1)

/-! ### reading -/

/-- The state of the reader: the objects made so far; the table of read references (registered, or with a value); the list `pending`. -/
structure RSt where
  heap : List Cell
  labels : Nat → Option (Option V)
  pending : List Nat

/-- `SCM_READ_REFERENCE_P`. -/
def V.isRef : V → Bool
  | .ref _ => true
  | _ => false

/-- A new object. -/
def RSt.alloc (st : RSt) (c : Cell) : V × RSt := (.ptr st.heap.length, { st with heap := st.heap ++ [c] })
/-- src/read.c:303-308 `ref_register` and setting the value of a reference. -/
def RSt.setLabel (st : RSt) (k : Nat) (x : Option V) : RSt := { st with labels := fun j => if j = k then some x else st.labels j }
/-- src/read.c:290-293 `ref_push` for the object of a value. -/
def RSt.push (st : RSt) (v : V) : RSt :=
  match v with
  | .ptr i => { st with pending := i :: st.pending }
  | _ => st

/-- Whether a tree is a list read with parentheses. -/
def Tree.isPair : Tree → Bool
  | .pair _ _ => true
  | _ => false

/-- The end of src/read.c:1014-1033 `read_list`: a list that has a read reference is pending. -/
def finish (t : Tree) (r : V × Bool × RSt) : V × RSt := (r.1, if t.isPair && r.2.1 then r.2.2.push r.1 else r.2.2)

mutual
/-- What the reader builds for a datum, from the tree of the text it has read, and the flag `ref_seen` of src/read.c:948-1004 `read_list_int`.  For a list, the objects are those
of src/read.c:948-1004 `read_list_int`; src/read.c:1035-1046 `read_vector`; src/read.c:1582-1658 `read_num_prefixed`.  A list after a dot is taken as a part of the list (the writer writes no
dot before a list without a label), and the pairs of a quoting form as a list (the code has the second pair pending, not the first). -/
def build : Tree → RSt → Option (V × Bool × RSt)
  | .atom (.str s), st => some ((st.alloc (.str s)).1, false, (st.alloc (.str s)).2)
  | .atom a, st => some (.imm a, false, st)
  | .ref k, st =>
    match st.labels k with
    | none => none
    | some none => some (.ref k, true, st)
    | some (some v) => some (v, v.isRef, st)
  | .lab k t, st =>
    match st.labels k with
    | some _ => none
    | none =>
      match build t (st.setLabel k none) with
      | none => none
      | some r =>
        let (v, st') := finish t r
        if v = .ref k then none else some (v, v.isRef, st'.setLabel k (some v))
  | .pair a d, st =>
    match build a st with
    | none => none
    | some r =>
      let (va, st1) := finish a r
      match build d st1 with
      | none => none
      | some (vd, fd, st2) => some ((st2.alloc (.pair va vd)).1, va.isRef || fd, (st2.alloc (.pair va vd)).2)
  | .vec l, st =>
    match buildL l st with
    | none => none
    | some (vs, st1) =>
      let (v, st2) := st1.alloc (.vec vs)
      some (v, false, if vs.any V.isRef then st2.push v else st2)
  | .abbr _ _, _ => none
/-- The elements of a vector. -/
def buildL : List Tree → RSt → Option (List V × RSt)
  | [], st => some ([], st)
  | t :: ts, st =>
    match build t st with
    | none => none
    | some r =>
      let (v, st1) := finish t r
      match buildL ts st1 with
      | none => none
      | some (vs, st2) => some (v :: vs, st2)
end

/-- src/read.c:295-301 `ref_val` if the value is a reference. -/
def resolve (labels : Nat → Option (Option V)) : V → Option V
  | .ref k =>
    match labels k with
    | some (some v) => some v
    | _ => none
  | v => some v

/-- The loop over the pairs of one list in src/read.c:316-351 `read_context_flush`; the first argument bounds the number of steps. -/
def flushList (labels : Nat → Option (Option V)) : Nat → List Cell → V → Option (List Cell)
  | 0, _, _ => none
  | n + 1, G, ep =>
    match ep with
    | .ptr i =>
      match cellAt G i with
      | .pair a d =>
        match resolve labels a with
        | none => none
        | some a' =>
          if d.isRef then
            match resolve labels d with
            | none => none
            | some d' => some (G.set i (.pair a' d'))
          else flushList labels n (G.set i (.pair a' d)) d
      | _ => some G
    | _ => some G

/-- The elements of a vector in src/read.c:316-351 `read_context_flush`. -/
def resolveL (labels : Nat → Option (Option V)) : List V → Option (List V)
  | [] => some []
  | v :: vs =>
    match resolve labels v, resolveL labels vs with
    | some v', some vs' => some (v' :: vs')
    | _, _ => none

/-- src/read.c:316-351 `read_context_flush`. -/
def flush (labels : Nat → Option (Option V)) (fuel : Nat) : List Cell → List Nat → Option (List Cell)
  | G, [] => some G
  | G, i :: is =>
    match cellAt G i with
    | .pair _ _ =>
      match flushList labels fuel G (.ptr i) with
      | none => none
      | some G' => flush labels fuel G' is
    | .vec l =>
      match resolveL labels l with
      | none => none
      | some l' => flush labels fuel (G.set i (.vec l')) is
    | .str _ => none

/-- `(read-from-string s)`: the objects, the value and the rest of the text; `none` is an error, or a loop that does not end. -/
def readGraph (e : Env) (fuel : Nat) (s : List Char) : Option (List Cell × V × List Char) :=
  match read e s with
  | .datum t rest =>
    match build t ⟨[], fun _ => none, []⟩ with
    | none => none
    | some r =>
      match flush (finish t r).2.labels fuel (finish t r).2.heap (finish t r).2.pending with
      | none => none
      | some G => some (G, (finish t r).1, rest)
  | _ => none

end Gauche.Sexp

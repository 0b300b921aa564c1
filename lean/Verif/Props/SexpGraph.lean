import Verif.Proof.SexpCopy
import Verif.Props.Sexp
/-
C70, C71: shared and circular structure is written and read back.
-/
namespace Gauche.Sexp
open Gauche.Spec Gauche.Rational Gauche.Flonum

/-- The symbols, numbers and so on in the graph are those that C68 covers. -/
def HeapReadable (cat : Char → Cat) (est : Flo → Int) (H : List Cell) (v : V) : Prop :=
  (∀ a, v = .imm a → AtomReadable cat est a) ∧ ∀ c ∈ H, ∀ a, V.imm a ∈ c.parts → AtomReadable cat est a

/-! ### the tree can be read -/

theorem emitL_readable {H : List Cell} {t0 : Tab} {cat : Char → Cat} {est : Flo → Int} {f : WSt → V → Option (Tree × WSt)} :
    ∀ (l : List V) st ts st', emitL f st l = some (ts, st') → (∀ st1 v t st2, v ∈ l → f st1 v = some (t, st2) → StOk t0 st1 → Step H t0 st1 st2) →
      (∀ st1 v t st2, v ∈ l → f st1 v = some (t, st2) → StOk t0 st1 → st2.cnt ≤ 2 ^ 63 → Readable cat est t) → StOk t0 st → st'.cnt ≤ 2 ^ 63 → ReadableL cat est ts := by
  intro l
  induction l with
  | nil => intro st ts st' h _ _ _ _; rw [emitL] at h; injection h with h; injection h with h _; subst h; rw [ReadableL]; trivial
  | cons v vs ih =>
    intro st ts st' h hs hr hok hc
    rw [emitL] at h
    cases h1 : f st v with
    | none => rw [h1] at h; cases h
    | some r =>
      obtain ⟨t, st1⟩ := r
      rw [h1] at h
      simp only [] at h
      cases h2 : emitL f st1 vs with
      | none => rw [h2] at h; cases h
      | some r2 =>
        obtain ⟨ts', st2⟩ := r2
        rw [h2] at h
        injection h with h; injection h with h3 h4; subst h3; subst h4
        have s1 := hs st v t st1 (by simp) h1 hok
        have s2 := emitL_step' vs st1 ts' st2 h2 (fun s1 w t s2 hw => hs s1 w t s2 (List.mem_cons_of_mem _ hw)) s1.ok
        rw [ReadableL]
        exact ⟨hr st v t st1 (by simp) h1 hok (le_trans s2.cnt hc),
          ih st1 ts' st2 h2 (fun s1 w t s2 hw => hs s1 w t s2 (List.mem_cons_of_mem _ hw)) (fun s1 w t s2 hw => hr s1 w t s2 (List.mem_cons_of_mem _ hw)) s1.ok hc⟩

theorem emit_readable {H : List Cell} (hH : Closed H) {t0 : Tab} (hpos : Pos t0) {cat : Char → Cat} {est : Flo → Int}
    (hat : ∀ p a, V.imm a ∈ (cellAt H p).parts → AtomReadable cat est a) (n : Nat) :
    ∀ b st v t st', emit H n b st v = some (t, st') → InHeap H v → (∀ a, v = .imm a → AtomReadable cat est a) → StOk t0 st → st'.cnt ≤ 2 ^ 63 → Readable cat est t := by
  induction n with
  | zero => intro b st v t st' h; cases h
  | succ n ih =>
    intro b st v t st' h hv ha hs hc
    have body : ∀ b st st' p t, emitBody H (emit H n) b st (cellAt H p) = some (t, st') → StOk t0 st → st'.cnt ≤ 2 ^ 63 → Readable cat est t := by
      intro b st st' p t h hs hc
      have hin := hH p
      have hap := hat p
      unfold emitBody at h
      cases hcell : cellAt H p with
      | str s => rw [hcell] at h; injection h with h; injection h with h1 h2; subst h1; rw [Readable]; trivial
      | vec l =>
        rw [hcell] at h hin hap
        simp only [] at h
        cases h1 : emitL (emit H n false) st l with
        | none => rw [h1] at h; cases h
        | some r =>
          obtain ⟨ts, st1⟩ := r
          rw [h1] at h
          injection h with h; injection h with h2 h3; subst h2; subst h3
          rw [Readable]
          exact emitL_readable (H := H) (t0 := t0) l st ts st1 h1 (fun s1 v t s2 hm he hok => emit_step hH hpos n false s1 v t s2 he (hin v hm) hok)
            (fun s1 v t s2 hm he hok hle => ih false s1 v t s2 he (hin v hm) (fun a hva => hap a (by rw [← hva]; exact hm)) hok hle) hs hc
      | pair a d =>
        rw [hcell] at h hin hap
        simp only [] at h
        cases hq : (if b = true then none else quoteForm H st a d) with
        | some r =>
          obtain ⟨q, x⟩ := r
          rw [hq] at h
          simp only [] at h
          cases h1 : emit H n false st x with
          | none => rw [h1] at h; cases h
          | some r =>
            obtain ⟨t', st1⟩ := r
            rw [h1] at h
            injection h with h; injection h with h2 h3; subst h2; subst h3
            have hq' : quoteForm H st a d = some (q, x) := by cases b <;> simp at hq; exact hq
            obtain ⟨p', _, e2, _, _⟩ := quoteForm_eq hq'
            rw [Readable]
            exact ih false st x t' st1 h1 (hH p' x (by rw [e2]; simp [Cell.parts])) (fun b hb => hat p' b (by rw [e2, hb]; simp [Cell.parts])) hs hc
        | none =>
          rw [hq] at h
          simp only [] at h
          cases h1 : emit H n false st a with
          | none => rw [h1] at h; cases h
          | some r =>
            obtain ⟨ta, st1⟩ := r
            rw [h1] at h
            simp only [] at h
            cases h2 : emit H n true st1 d with
            | none => rw [h2] at h; cases h
            | some r2 =>
              obtain ⟨td, st2⟩ := r2
              rw [h2] at h
              injection h with h; injection h with h3 h4; subst h3; subst h4
              have s1 := emit_step hH hpos n false st a ta st1 h1 (hin a (by simp [Cell.parts])) hs
              have s2 := emit_step hH hpos n true st1 d td st2 h2 (hin d (by simp [Cell.parts])) s1.ok
              rw [Readable]
              exact ⟨ih false st a ta st1 h1 (hin a (by simp [Cell.parts])) (fun b hb => hap b (by rw [hb]; simp [Cell.parts])) hs (le_trans s2.cnt hc),
                ih true st1 d td st2 h2 (hin d (by simp [Cell.parts])) (fun b hb => hap b (by rw [hb]; simp [Cell.parts])) s1.ok hc⟩
    cases v with
    | imm a => rw [emit] at h; injection h with h; injection h with h1 h2; subst h1; rw [Readable]; exact ha a rfl
    | ref k => cases h
    | ptr p =>
      rw [emit] at h
      cases hpl : (cellAt H p).plain with
      | true => rw [hpl, if_pos rfl] at h; exact body b st st' p t h hs hc
      | false =>
        rw [hpl, if_neg (by decide)] at h
        by_cases h0 : st.val p ≤ 0
        · rw [if_pos h0] at h; injection h with h; injection h with h1 h2; subst h1; subst h2
          obtain ⟨k, hk, htab⟩ : ∃ k : Nat, k < st.cnt ∧ st.tab p = some (-(k : Int)) := by
            rcases hs.tab p with h1 | ⟨_, h1⟩
            · exfalso
              unfold WSt.val at h0
              cases htp : st.tab p with
              | none => rw [htp] at h0; simp at h0
              | some k =>
                rw [htp] at h1 h0
                have := hpos p k h1.symm
                simp at h0; omega
            · exact h1
          have hval : (-st.val p).toNat = k := by unfold WSt.val; rw [htab]; simp
          rw [hval, Readable]
          omega
        rw [if_neg h0] at h
        by_cases h1 : st.val p > 1
        · rw [if_pos h1] at h
          obtain ⟨s1, _⟩ := step_mark hpos (hv p rfl) hs h1
          cases h2 : emitBody H (emit H n) false (st.mark p) (cellAt H p) with
          | none => rw [h2] at h; cases h
          | some r =>
            obtain ⟨t', st1⟩ := r
            rw [h2] at h
            injection h with h; injection h with h3 h4; subst h3; subst h4
            have s2 := emitBody_step hH (emit_step hH hpos n) h2 s1.ok
            have hcc := s2.cnt
            have hmk : (st.mark p).cnt = st.cnt + 1 := rfl
            rw [Readable]
            exact ⟨by omega, body false _ _ p t' h2 s1.ok hc⟩
        · rw [if_neg h1] at h; exact body b st st' p t h hs hc

theorem readable_parts {cat : Char → Cat} {est : Flo → Int} {H : List Cell} {v : V} (h : HeapReadable cat est H v) (p : Nat) (a : Atom)
    (ha : V.imm a ∈ (cellAt H p).parts) : AtomReadable cat est a := by
  by_cases hp : p < H.length
  · exact h.2 _ (List.mem_of_getElem? (cellAt_lt hp)) a ha
  · rw [cellAt_big (by omega)] at ha; cases ha

/-! ### writing and reading -/

/-- Everything about one graph. -/
theorem round_trip {cat : Char → Cat} (hsp : SpacesOk cat) {est : Flo → Int} {lo hi : Int} (hlo : -20 ≤ lo) (hhi : hi ≤ 17) {H : List Cell} {v : V} (hH : HeapOk H) (hv : Value H v)
    (hr : HeapReadable cat est H v) (hsz : H.length ≤ 2 ^ 63) (shared : Bool) :
    ∃ N, ∀ fuel, N ≤ fuel → ∃ txt M, (∀ m, M ≤ m → writeGraph ⟨cat, est, lo, hi, fuel⟩ shared m H v = some txt) ∧ ∀ rest, Delimited rest →
      (∀ m G w rest', readGraph ⟨cat, est, lo, hi, fuel⟩ m (txt ++ rest) = some (G, w, rest') →
        rest' = rest ∧ IsCopy H v G w ∧ (shared = true → IsExactCopy H v G w)) ∧
      (ListsEnd H → ∃ M', ∀ m, M' ≤ m → ∃ G w, readGraph ⟨cat, est, lo, hi, fuel⟩ m (txt ++ rest) = some (G, w, rest)) := by
  obtain ⟨t0, tr, st', K, hpos, hok, hem, hwr, hcnt⟩ := write_ok hH hv shared
  obtain ⟨hwk, he⟩ := hem K (le_refl K)
  have hread := emit_readable (heap_closed hH) hpos (readable_parts hr) K false _ v tr st' he hv.inHeap hr.1 hok (by omega)
  obtain ⟨N, hN⟩ := C68_read_write_partial hsp hlo hhi hread
  obtain ⟨r, X, h, hb, hperm, htok, hin, hfi, hcov, hpend, hrel, hnr⟩ := build_ok hH hv hpos hok he
  refine ⟨N, fun fuel hf => ?_⟩
  obtain ⟨M, hM⟩ := hwr ⟨cat, est, lo, hi, fuel⟩
  refine ⟨_, M, hM, fun rest hrest => ⟨?_, ?_⟩⟩
  · intro m G w rest' hg
    unfold readGraph at hg
    rw [hN fuel hf rest hrest] at hg
    simp only [hb] at hg
    cases hfl : flush (finish (strip tr) r).2.labels m (finish (strip tr) r).2.heap (finish (strip tr) r).2.pending with
    | none => rw [hfl] at hg; cases hg
    | some G' =>
      rw [hfl] at hg
      injection hg with hg; injection hg with h1 hg; injection hg with h2 h3
      subst h1; subst h2; subst h3
      obtain ⟨i1, i2⟩ := flush_ok m _ _ _ hfi hpend hcov hfl
      have hcopy := copy_of_inv i1 i2 hin hrel hnr
      refine ⟨rfl, ⟨_, hcopy⟩, fun hs => ⟨_, hcopy, ?_⟩⟩
      intro p i j hp1 hp2 hi hj
      subst hs
      have htinv := htok [] [] (tinv_start (heap_closed hH) hwk hv.inHeap)
      have hnd := htinv.nodup
      rw [List.append_nil] at hnd
      have hnd' := ((hperm.filter _).nodup_iff).2 hnd
      rw [List.Nodup, List.pairwise_filter] at hnd'
      have hplain : (cellAt H p).plain = false := by
        have hlt := cellAt_lt (hin p (List.mem_of_getElem? hi))
        rw [hlt] at hp1 hp2
        cases hc : cellAt H p with
        | pair a d => rfl
        | str s => rw [hc] at hp1; cases s with
          | nil => exact absurd rfl hp1
          | cons _ _ => rfl
        | vec l => rw [hc] at hp2; cases l with
          | nil => exact absurd rfl hp2
          | cons _ _ => rfl
      obtain ⟨hi1, hi2⟩ := List.getElem?_eq_some_iff.1 hi
      obtain ⟨hj1, hj2⟩ := List.getElem?_eq_some_iff.1 hj
      rcases Nat.lt_trichotomy i j with hij | hij | hij
      · have := (List.pairwise_iff_getElem.1 hnd') i j hi1 hj1 hij
        rw [hi2, hj2] at this
        exact absurd rfl (this (by simp [hplain]) (by simp [hplain]))
      · exact hij
      · have := (List.pairwise_iff_getElem.1 hnd') j i hj1 hi1 hij
        rw [hi2, hj2] at this
        exact absurd rfl (this (by simp [hplain]) (by simp [hplain]))
  · intro hl
    obtain ⟨M', hM'⟩ := flush_ends (lam := lamOf st') (h := h) (L := (finish (strip tr) r).2.labels) (cdr_wf hl)
    refine ⟨M', fun m hm => ?_⟩
    obtain ⟨G, hG⟩ := hM' m hm (finish (strip tr) r).2.pending _ hfi hpend
    refine ⟨G, (finish (strip tr) r).1, ?_⟩
    unfold readGraph
    rw [hN fuel hf rest hrest]
    simp only [hb, hG]

/-! ## C70 -/

/-- For every finite graph of pairs, vectors and strings, shared and circular in any way: `write` (and `write-shared`) comes to an end; and whatever reader makes of
the text is a copy of the graph, if the reader comes to an end. -/
theorem C70_never_wrong {cat : Char → Cat} (hsp : SpacesOk cat) {est : Flo → Int} {lo hi : Int} (hlo : -20 ≤ lo) (hhi : hi ≤ 17) {H : List Cell} {v : V} (hH : HeapOk H) (hv : Value H v)
    (hr : HeapReadable cat est H v) (hsz : H.length ≤ 2 ^ 63) (shared : Bool) :
    ∃ N, ∀ fuel, N ≤ fuel → ∃ txt M, (∀ m, M ≤ m → writeGraph ⟨cat, est, lo, hi, fuel⟩ shared m H v = some txt) ∧
      ∀ rest, Delimited rest → ∀ m G w rest', readGraph ⟨cat, est, lo, hi, fuel⟩ m (txt ++ rest) = some (G, w, rest') → rest' = rest ∧ IsCopy H v G w := by
  obtain ⟨N, hN⟩ := round_trip hsp hlo hhi hH hv hr hsz shared
  refine ⟨N, fun f hf => ?_⟩
  obtain ⟨txt, M, h1, h2⟩ := hN f hf
  exact ⟨txt, M, h1, fun rest hrest m G w rest' hg => ⟨((h2 rest hrest).1 m G w rest' hg).1, ((h2 rest hrest).1 m G w rest' hg).2.1⟩⟩

/-- The reader comes to an end, and its result is a copy.  Partial because circular lists (not circles through a car or a vector) are excluded: `C70_bug_hang` shows
that the reader may not come to an end for those. -/
theorem C70_read_write_partial {cat : Char → Cat} (hsp : SpacesOk cat) {est : Flo → Int} {lo hi : Int} (hlo : -20 ≤ lo) (hhi : hi ≤ 17) {H : List Cell} {v : V} (hH : HeapOk H) (hv : Value H v)
    (hr : HeapReadable cat est H v) (hsz : H.length ≤ 2 ^ 63) (shared : Bool) (hl : ListsEnd H) :
    ∃ N, ∀ fuel, N ≤ fuel → ∃ txt M, (∀ m, M ≤ m → writeGraph ⟨cat, est, lo, hi, fuel⟩ shared m H v = some txt) ∧
      ∀ rest, Delimited rest → ∃ M', ∀ m, M' ≤ m → ∃ G w, readGraph ⟨cat, est, lo, hi, fuel⟩ m (txt ++ rest) = some (G, w, rest) ∧ IsCopy H v G w := by
  obtain ⟨N, hN⟩ := round_trip hsp hlo hhi hH hv hr hsz shared
  refine ⟨N, fun f hf => ?_⟩
  obtain ⟨txt, M, h1, h2⟩ := hN f hf
  refine ⟨txt, M, h1, fun rest hrest => ?_⟩
  obtain ⟨M', hM'⟩ := (h2 rest hrest).2 hl
  refine ⟨M', fun m hm => ?_⟩
  obtain ⟨G, w, hg⟩ := hM' m hm
  exact ⟨G, w, hg, ((h2 rest hrest).1 m G w rest hg).2.1⟩

/-! ## C71 -/

/-- `write-shared` and `read` preserve identity: two places of the graph that hold the same object hold the same object in the copy, and different objects are
different objects in the copy. -/
theorem C71_shared_partial {cat : Char → Cat} (hsp : SpacesOk cat) {est : Flo → Int} {lo hi : Int} (hlo : -20 ≤ lo) (hhi : hi ≤ 17) {H : List Cell} {v : V} (hH : HeapOk H) (hv : Value H v)
    (hr : HeapReadable cat est H v) (hsz : H.length ≤ 2 ^ 63) (hl : ListsEnd H) :
    ∃ N, ∀ fuel, N ≤ fuel → ∃ txt M, (∀ m, M ≤ m → writeGraph ⟨cat, est, lo, hi, fuel⟩ true m H v = some txt) ∧
      ∀ rest, Delimited rest → ∃ M', ∀ m, M' ≤ m → ∃ G w, readGraph ⟨cat, est, lo, hi, fuel⟩ m (txt ++ rest) = some (G, w, rest) ∧ IsExactCopy H v G w := by
  obtain ⟨N, hN⟩ := round_trip hsp hlo hhi hH hv hr hsz true
  refine ⟨N, fun f hf => ?_⟩
  obtain ⟨txt, M, h1, h2⟩ := hN f hf
  refine ⟨txt, M, h1, fun rest hrest => ?_⟩
  obtain ⟨M', hM'⟩ := (h2 rest hrest).2 hl
  refine ⟨M', fun m hm => ?_⟩
  obtain ⟨G, w, hg⟩ := hM' m hm
  exact ⟨G, w, hg, ((h2 rest hrest).1 m G w rest hg).2.2 rfl⟩

/-- The same for circular lists, if the reader comes to an end. -/
theorem C71_never_wrong {cat : Char → Cat} (hsp : SpacesOk cat) {est : Flo → Int} {lo hi : Int} (hlo : -20 ≤ lo) (hhi : hi ≤ 17) {H : List Cell} {v : V} (hH : HeapOk H) (hv : Value H v)
    (hr : HeapReadable cat est H v) (hsz : H.length ≤ 2 ^ 63) :
    ∃ N, ∀ fuel, N ≤ fuel → ∃ txt M, (∀ m, M ≤ m → writeGraph ⟨cat, est, lo, hi, fuel⟩ true m H v = some txt) ∧
      ∀ rest, Delimited rest → ∀ m G w rest', readGraph ⟨cat, est, lo, hi, fuel⟩ m (txt ++ rest) = some (G, w, rest') → rest' = rest ∧ IsExactCopy H v G w := by
  obtain ⟨N, hN⟩ := round_trip hsp hlo hhi hH hv hr hsz true
  refine ⟨N, fun f hf => ?_⟩
  obtain ⟨txt, M, h1, h2⟩ := hN f hf
  exact ⟨txt, M, h1, fun rest hrest m G w rest' hg => ⟨((h2 rest hrest).1 m G w rest' hg).1, ((h2 rest hrest).1 m G w rest' hg).2.2 rfl⟩⟩

/-! ## the reader does not come to an end -/

/-- `(let ((x (circular-list 'a))) (let ((y (cons #f x))) (set-car! y y) y))` -/
def hangHeap : List Cell := [.pair (.ptr 0) (.ptr 1), .pair (.imm (.sym ['a'])) (.ptr 1)]

/-- The text of `hangHeap`. -/
def hangText : List Char := "#0=(#0# . #1=(a . #1#))".toList

/-- Its tree. -/
def hangTree : Tree := .lab 0 (.pair (.ref 0) (.lab 1 (.pair (.atom (.sym ['a'])) (.ref 1))))

theorem hang_text (e : Env) : writeTree e hangTree = hangText := by
  have h : writeAtom e (.sym ['a']) = ['a'] := by rfl
  simp only [writeTree, hangTree, writeBoth, h]
  decide +kernel

/-- The table after the walk. -/
def hangTab : Tab := Tab.set (Tab.set (Tab.set (Tab.set (fun _ => none) 0 (some 1)) 0 (some 2)) 1 (some 1)) 1 (some 2)

theorem hang_write (e : Env) : ∃ M, ∀ m, M ≤ m → writeGraph e false m hangHeap (.ptr 0) = some hangText := by
  have hw : ∀ n, walk hangHeap false (n + 3) (fun _ => none) (.ptr 0) = some hangTab := by
    intro n; rfl
  have he : Emits hangHeap false ⟨hangTab, 0⟩ (.ptr 0) hangTree
      ⟨Tab.set (Tab.set hangTab 0 (some 0)) 1 (some (-1)), 2⟩ := by
    refine ⟨4, fun n hn => ?_⟩
    obtain ⟨k, rfl⟩ : ∃ k, n = k + 4 := ⟨n - 4, by omega⟩
    rfl
  obtain ⟨M, hM⟩ := writeRec_emit (e := e) he
  refine ⟨M + 3, fun m hm => ?_⟩
  obtain ⟨n, rfl⟩ : ∃ n, m = n + 3 := ⟨m - 3, by omega⟩
  unfold writeGraph
  rw [hw n]
  simp only []
  rw [hM (n + 3) (by omega), hang_text]
  rfl

theorem hang_read (e : Env) (hsp : SpacesOk e.cat) : read e hangText = .datum hangTree [] := by
  have hok : TreeOk e hangTree := by
    simp only [hangTree, TreeOk, AtomOk, labelMax]
    refine ⟨by omega, by omega, by omega, Or.inr ?_, by omega⟩
    intro c hc hge
    simp at hc; subst hc
    exact absurd hge (by decide)
  have := read_write hsp hok (rest := []) (by intro c r h; cases h)
  rw [hang_text, List.append_nil] at this
  exact this

/-- `write` writes a text that `read` never finishes reading: after the second pending list was filled in through the first one, the loop along its cdrs goes round for ever.  (It is
not an error: the text has been read, and all read references have their values.) -/
theorem C70_bug_hang (e : Env) (hsp : SpacesOk e.cat) :
    (∃ M, ∀ m, M ≤ m → writeGraph e false m hangHeap (.ptr 0) = some hangText) ∧ (∀ m, readGraph e m hangText = none) ∧
    ∃ t r, read e hangText = .datum t [] ∧ build t ⟨[], fun _ => none, []⟩ = some r ∧ ∀ k, (finish t r).2.labels k ≠ some none := by
  have hbl : ∃ r, build hangTree ⟨[], fun _ => none, []⟩ = some r ∧
      (finish hangTree r).2.heap = [.pair (.imm (.sym ['a'])) (.ref 1), .pair (.ref 0) (.ptr 0)] ∧
      (finish hangTree r).2.pending = [1, 0] ∧
      (finish hangTree r).2.labels = fun j => if j = 0 then some (some (.ptr 1)) else if j = 1 then some (some (.ptr 0)) else none := by
    refine ⟨_, rfl, rfl, rfl, ?_⟩
    funext j
    simp [hangTree, finish, RSt.setLabel, RSt.push, RSt.alloc, Tree.isPair, V.isRef]
    by_cases h0 : j = 0 <;> by_cases h1 : j = 1 <;> simp [h0, h1]
  obtain ⟨r, hb, hh, hp, hl⟩ := hbl
  have loop : ∀ n, flushList (fun j => if j = 0 then some (some (.ptr 1)) else if j = 1 then some (some (.ptr 0)) else none) n
      [.pair (.imm (.sym ['a'])) (.ptr 0), .pair (.ptr 1) (.ptr 0)] (.ptr 0) = none := by
    intro n
    induction n with
    | zero => rfl
    | succ n ih => exact ih
  refine ⟨hang_write e, fun m => ?_, _, r, hang_read e hsp, hb, fun k => ?_⟩
  · unfold readGraph
    rw [hang_read e hsp]
    simp only [hb, hh, hp, hl]
    have : flush (fun j => if j = 0 then some (some (.ptr 1)) else if j = 1 then some (some (.ptr 0)) else none) m
        [.pair (.imm (.sym ['a'])) (.ref 1), .pair (.ref 0) (.ptr 0)] [1, 0] = none := by
      cases m with
      | zero => rfl
      | succ m =>
        cases m with
        | zero => rfl
        | succ m =>
          have h1 := loop (m + 2)
          show (match flushList _ (m + 2) [.pair (.imm (.sym ['a'])) (.ptr 0), .pair (.ptr 1) (.ptr 0)] (.ptr 0) with
            | none => none
            | some G' => flush _ (m + 2) G' []) = none
          rw [h1]
    rw [this]
  · rw [hl]
    simp only []
    by_cases h0 : k = 0
    · simp [h0]
    · by_cases h1 : k = 1 <;> simp [h0, h1]

/-! ## examples -/

/-- A list that contains itself in a vector, a string that it contains twice, and a quoting form. -/
def graphSample : List Cell :=
  [.pair (.ptr 1) (.ptr 2), .str "ab".toList, .pair (.ptr 3) (.ptr 4), .vec [.ptr 0, .ptr 1], .pair (.ptr 5) (.imm .nil), .pair (.imm (.sym "quote".toList)) (.ptr 6), .pair (.imm (.sym ['q'])) (.imm .nil)]

/-- An environment for the examples. -/
def sampleEnv : Env := ⟨asciiCat, fun _ => 0, -3, 10, 0⟩

example : writeGraph sampleEnv false 40 graphSample (.ptr 0) = some "#0=(\"ab\" #(#0# \"ab\") 'q)".toList := by decide +kernel
example : writeGraph sampleEnv true 40 graphSample (.ptr 0) = some "#0=(#1=\"ab\" #(#0# #1#) (quote q))".toList := by decide +kernel

/-- What is read from the text of `write-shared`: the same graph with other addresses. -/
example : readGraph sampleEnv 40 "#0=(#1=\"ab\" #(#0# #1#) (quote q))".toList =
    some ([.str "ab".toList, .vec [.ptr 6, .ptr 0], .pair (.imm (.sym ['q'])) (.imm .nil), .pair (.imm (.sym "quote".toList)) (.ptr 2), .pair (.ptr 3) (.imm .nil), .pair (.ptr 1) (.ptr 4),
      .pair (.ptr 0) (.ptr 5)], .ptr 6, []) := by decide +kernel

/-- A circular list alone is read. -/
example : writeGraph sampleEnv false 40 [.pair (.imm (.bool true)) (.ptr 1), .pair (.imm (.bool false)) (.ptr 0)] (.ptr 0) = some "#0=(#t #f . #0#)".toList ∧
    readGraph sampleEnv 40 "#0=(#t #f . #0#)".toList = some ([.pair (.imm (.bool false)) (.ptr 1), .pair (.imm (.bool true)) (.ptr 0)], .ptr 1, []) := by decide +kernel

/-- The hypotheses of `C70_read_write_partial` and `C71_shared_partial` are met by `graphSample`. -/
example : HeapOk graphSample ∧ Value graphSample (.ptr 0) ∧ ListsEnd graphSample ∧ HeapReadable asciiCat (fun _ => 0) graphSample (.ptr 0) := by
  have hp : ∀ p, p < 7 → Value graphSample (.ptr p) := fun p hp => Or.inr ⟨p, hp, rfl⟩
  have hi : ∀ a, (∀ s, a ≠ Atom.str s) → Value graphSample (.imm a) := fun a ha => Or.inl ⟨a, rfl, ha⟩
  have hname : ∀ s : List Char, (∀ c ∈ s, c.toNat < 128) → PlainName asciiCat s := by
    intro s hs c hc hge; have := hs c hc; omega
  refine ⟨?_, hp 0 (by decide), ?_, ?_, ?_⟩
  · intro c hc
    simp only [graphSample, List.mem_cons, List.not_mem_nil, or_false] at hc
    rcases hc with rfl | rfl | rfl | rfl | rfl | rfl | rfl
    · exact ⟨hp 1 (by decide), hp 2 (by decide)⟩
    · trivial
    · exact ⟨hp 3 (by decide), hp 4 (by decide)⟩
    · intro v hv
      simp only [List.mem_cons, List.not_mem_nil, or_false] at hv
      rcases hv with rfl | rfl
      · exact hp 0 (by decide)
      · exact hp 1 (by decide)
    · exact ⟨hp 5 (by decide), hi _ (by intro s hs; cases hs)⟩
    · exact ⟨hi _ (by intro s hs; cases hs), hp 6 (by decide)⟩
    · exact ⟨hi _ (by intro s hs; cases hs), hi _ (by intro s hs; cases hs)⟩
  · rintro ⟨f, hf⟩
    have hlt : ∀ n, f n < f (n + 1) ∧ f n < 7 := by
      intro n
      obtain ⟨a, ha⟩ := hf n
      have h7 : f n < 7 := (List.getElem?_eq_some_iff.1 ha).1
      refine ⟨?_, h7⟩
      generalize f n = x at ha h7
      generalize f (n + 1) = y at ha
      have : x = 0 ∨ x = 1 ∨ x = 2 ∨ x = 3 ∨ x = 4 ∨ x = 5 ∨ x = 6 := by omega
      rcases this with rfl | rfl | rfl | rfl | rfl | rfl | rfl <;> simp [graphSample] at ha <;> omega
    have hge : ∀ n, n ≤ f n := by
      intro n
      induction n with
      | zero => omega
      | succ n ih => have := (hlt n).1; omega
    have := hge 7
    have := (hlt 7).2
    omega
  · intro a ha; cases ha
  · intro c hc a ha
    simp only [graphSample, List.mem_cons, List.not_mem_nil, or_false] at hc
    rcases hc with rfl | rfl | rfl | rfl | rfl | rfl | rfl <;> simp [Cell.parts] at ha
    · subst ha; trivial
    · subst ha; exact hname _ (by decide)
    · rcases ha with rfl | rfl
      · exact hname _ (by decide)
      · trivial

end Gauche.Sexp

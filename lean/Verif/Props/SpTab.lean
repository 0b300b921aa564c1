import Verif.Proof.SpTab

/-!
# C21: sparse tables are finite maps up to the comparator's equality

`Verif/Spec/SparseTab.lean` says what a history does to such a map and what it is
for a list to enumerate it.  Keys whose hash values collide share a leaf.
-/

namespace Gauche.SpTab

open Gauche.CTrie Gauche.SparseTab

/-- After every history of `set!`, `delete!`, `clear!` and `copy`, with any keys and
any proper comparator, a sparse table answered each call as the map would; looking
up a key gives its entry or the fallback; the iteration ends and visits every entry
exactly once; the number of entries is exact; the consistency check passes. -/
theorem C21_table {K V : Type} (c : Cmp K) (cc : Comparator c.hash c.eq) (g0 g1 : Nat)
    (ops : List (Op K V)) :
    ∃ st, tabRun c g0 g1 (tabMake K V) ops = some (st, (runMap c.eq (fun _ => none) ops).2) ∧
      (∀ key fb, tabRef c st key fb =
        some (((runMap c.eq (fun _ => none) ops).1 key).orElse (fun _ => fb))) ∧
      (∃ E, Lists c.eq E (runMap c.eq (fun _ => none) ops).1 ∧
        (∀ fuel, E.length < fuel → tabCollect st fuel (tIterInit K V) [] = some E.reverse) ∧
        st.numEntries = E.length % 2 ^ 64) ∧
      trieCheck st.trie = some true := tab_history cc g0 g1 ops

/-- A bad hash function: three values only; equality ignores the sign. -/
def absCmp : Cmp Int := ⟨fun k => k.natAbs % 3 * 2 ^ 62, fun a b => a.natAbs == b.natAbs⟩

theorem absCmp_ok : Comparator absCmp.hash absCmp.eq where
  refl := fun a => by simp [absCmp]
  symm := fun a b h => by simp only [absCmp, beq_iff_eq] at h ⊢; exact h.symm
  trans := fun a b c h1 h2 => by simp only [absCmp, beq_iff_eq] at h1 h2 ⊢; exact h1.trans h2
  compat := fun a b h => by simp only [absCmp, beq_iff_eq] at h ⊢; rw [h]
  word := fun a => by
    show a.natAbs % 3 * 2 ^ 62 < 2 ^ 64
    have := Nat.mod_lt a.natAbs (show 3 > 0 by decide)
    omega

def tabSample : List (Op Int Int) :=
  [.set 1 10, .set 4 40, .set 7 70, .set 2 20, .set (-4) 41, .delete (-7), .copy, .delete 1,
   .set 5 50, .delete 9, .set 3 30]

example : (tabRun absCmp 9 9 (tabMake Int Int) tabSample).bind
      (fun r => tabCollect r.1 20 (tIterInit _ _) []) =
    some [(2, 20), (5, 50), (4, 41), (3, 30)] := by decide +kernel

example : (tabRun absCmp 9 9 (tabMake Int Int) tabSample).map (fun r => r.1.numEntries) =
    some 4 := by decide +kernel

/-- `SCM_DICT_NO_CREATE` is to leave a table without the key alone.  It does only
if no other key has the same hash value: here `4` is created.  (No caller in
`sparse.scm` passes the flag.) -/
theorem C21_bug_no_create :
    ((tabSet absCmp 0 0 (tabMake Int Int) 4 40 true).bind
      (fun r => tabRef absCmp r.1 4 none)) = some none ∧
    ((tabRun absCmp 0 0 (tabMake Int Int) [.set 1 10]).bind
      (fun r => (tabSet absCmp 0 0 r.1 4 40 true).bind (fun r => tabRef absCmp r.1 4 none))) =
        some (some 40) := by decide +kernel

end Gauche.SpTab

/-
Conversions between concurrent and non-concurrent containers, and systems made of both.
Source: /repo/include/boost/unordered/detail/foa/concurrent_table.hpp:499-521 (concurrent from non-concurrent),
/repo/include/boost/unordered/detail/foa/table.hpp:378-379, 588-611 (non-concurrent from concurrent);
public: concurrent_flat_map(unordered_flat_map&&), unordered_flat_map(concurrent_flat_map&&) and the set/node versions.
-/
import Verif.Foa.Refine
import Verif.Conc.TabInv

namespace Conc.Interop
open Foa Conc.Tab
open Spec (upd)
variable {K V : Type}

/-- What a container is left with when its arrays have been taken: `x.arrays=ah.release()` with `ah=x.make_empty_arrays()`,
`x.size_ctrl.ml=x.initial_max_load()`, `x.size_ctrl.size=0` (concurrent_table.hpp:514-516, 519-520; table.hpp:601-603, 609). The
moved-from function objects are taken to be unchanged (the standard leaves them valid). Allocation of the empty arrays (only
for fancy pointers) is taken to succeed. -/
def emptied (cfg : Cfg) (x : Table K V) : Table K V :=
  { x with arr := Arrays.new_ cfg x.al 0, ml := Table.initMl (Arrays.new_ cfg x.al 0 : Arrays K V), size := 0 }

/-- `concurrent_table(compatible_nonconcurrent_table&&)` (concurrent_table.hpp:499-521): the arrays, `ml` and `size` are taken
over, new insertion counters (all zero) and unlocked group locks are allocated. Result: (new container, source). -/
def toConc (cfg : Cfg) (x : Table K V) : Mem K V × Table K V := (⟨x, fun _ => 0⟩, emptied cfg x)

/-- `table(compatible_concurrent_table&&)` (table.hpp:378-379, 588-611), under the exclusive lock of the source: the arrays, `ml`
and `size` are taken over, the group locks and insertion counters deleted. Result: (new container, source). -/
def toSeq (cfg : Cfg) (m : Mem K V) : Table K V × Mem K V := (m.tab, ⟨emptied cfg m.tab, fun _ => 0⟩)

/-- Variables holding non-concurrent containers, and concurrent containers each with the threads working on it. -/
structure World (K V : Type) where
  tab : Nat → Table K V
  conc : Nat → State K V

/-- The abstract objects in the variables. -/
def World.abs (w : World K V) : Nat → Spec.Obj K V := fun r => ⟨(w.tab r).fns.eq, (w.tab r).al, (w.tab r).contents⟩

/-- Worlds a program can produce, starting from empty containers: calls on the variables that respect the documented
preconditions, steps of threads on the concurrent containers, and conversions both ways. A conversion to a non-concurrent
container needs the exclusive lock of the source: nobody is inside; threads may be waiting. A concurrent container is replaced
only when no call on it is in progress. -/
inductive WReach (c : MCfg) (veq : K × V → K × V → Bool) (f : Fns K) : World K V → Prop where
  | start (al n : Nat → Nat) : WReach c veq f ⟨fun _ => Table.mk_ c.toCfg f 0 0, fun i => init c.toCfg f (al i) (n i)⟩
  | call {w s' o} (op : Spec.Op K V) : WReach c veq f w → Spec.Pre c.traits op w.abs → Foa.step c veq w.tab op = some (s', o) →
      WReach c veq f ⟨s', w.conc⟩
  | thread {w i s'} : WReach c veq f w → NoWrap (w.conc i) → Step c.toCfg (w.conc i) s' →
      WReach c veq f ⟨w.tab, fun j => if j = i then s' else w.conc j⟩
  | toConc {w} (i r : Nat) : WReach c veq f w → (∀ t, (w.conc i).pc t = .idle ∨ ∃ q, (w.conc i).pc t = .done q) →
      WReach c veq f ⟨upd w.tab r (toConc c.toCfg (w.tab r)).2,
        fun j => if j = i then ⟨(toConc c.toCfg (w.tab r)).1, fun _ => .idle⟩ else w.conc j⟩
  | toSeq {w} (r i : Nat) : WReach c veq f w → (∀ t, ((w.conc i).pc t).inside = false) → (w.tab r).destroy = some () →
      WReach c veq f ⟨upd w.tab r (toSeq c.toCfg (w.conc i).mem).1,
        fun j => if j = i then ⟨(toSeq c.toCfg (w.conc i).mem).2, (w.conc i).pc⟩ else w.conc j⟩

theorem emptied_inv (cfg : Cfg) {x : Table K V} (h : x.Inv) : (emptied cfg x).Inv :=
  ⟨h.law, new_inv cfg _ _ _, fun _ => new_al cfg _ _, by
    show 0 = (Arrays.new_ cfg x.al 0 : Arrays K V).contents.length
    rw [new_contents]; rfl, Nat.zero_le _, le_rfl⟩

theorem emptied_contents (cfg : Cfg) (x : Table K V) : (emptied cfg x).contents = [] := new_contents cfg _ _

/-- Every container of a reachable world satisfies the invariants. -/
theorem WReach.inv {c : MCfg} {veq : K × V → K × V → Bool} {f : Fns K} (hf : f.Lawful) {w : World K V} (h : WReach c veq f w) :
    (∀ r, (w.tab r).Inv) ∧ ∀ i, SInv (w.conc i) := by
  induction h with
  | start al n =>
    exact ⟨fun _ => mk_inv _ hf _ _, fun i => SInv.of_inv (mk_inv _ hf _ _) (fun _ => rfl) (fun _ => trivial)⟩
  | @call w s' o op _ hp hs ih =>
    refine ⟨fun r => ?_, ih.2⟩
    obtain ⟨s'', o', e1, _, e3⟩ := step_refines c veq (s := w.tab) (a := w.abs)
      (fun r => ⟨ih.1 r, rfl, rfl, List.Perm.refl _⟩) op hp
    rw [hs] at e1
    rw [(Prod.mk.inj (Option.some.inj e1)).1]
    exact (e3 r).inv
  | @thread w i s' _ hw hs ih =>
    refine ⟨ih.1, fun j => ?_⟩
    obtain ⟨t, ht⟩ := hs
    by_cases hj : j = i
    · subst hj; simp only [if_true]; exact (ih.2 j).step hw ht
    · simp only [if_neg hj]; exact ih.2 j
  | @toConc w i r _ hq ih =>
    refine ⟨fun q => ?_, fun j => ?_⟩
    · by_cases hqr : q = r
      · subst hqr; simp only [Spec.upd, if_true]; exact emptied_inv _ (ih.1 q)
      · simp only [Spec.upd, if_neg hqr]; exact ih.1 q
    · by_cases hj : j = i
      · subst hj; simp only [if_true]
        exact SInv.of_inv (ih.1 r) (fun _ => rfl) (fun _ => trivial)
      · simp only [if_neg hj]; exact ih.2 j
  | @toSeq w r i _ hq hd ih =>
    have hi := (ih.2 i).quiescent hq
    refine ⟨fun q => ?_, fun j => ?_⟩
    · by_cases hqr : q = r
      · subst hqr; simp only [Spec.upd, if_true]; exact hi
      · simp only [Spec.upd, if_neg hqr]; exact ih.1 q
    · by_cases hj : j = i
      · subst hj; simp only [if_true]
        refine SInv.of_inv (emptied_inv _ hi) hq (fun u => ?_)
        have h1 := hq u
        have h2 := (ih.2 j).pcs u
        show PcOk _ ((w.conc j).pc u)
        generalize (w.conc j).pc u = p at h1 h2 ⊢
        cases p <;> first | (cases h1; done) | exact h2 | trivial
      · simp only [if_neg hj]; exact ih.2 j

end Conc.Interop

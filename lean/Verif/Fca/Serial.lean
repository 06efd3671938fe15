/-
Model of serialization of the closed-addressing containers.
Source: /repo/include/boost/unordered/detail/serialize_container.hpp. Simplifications as in `Verif/Foa/Serial.lean`; address
tracking is left out (nodes do not move; that the bucket array does not either is `C47_reserve_then_insert_no_rehash_partial`).
-/
import Verif.SpecSer
import Verif.Fca.Refine

namespace Fca
open SpecSer (Archive Outcome Loads NoDup)
open SpecC (Obj Inserts LStep Has Absent)
open Spec (Res)
variable {K V : Type}

namespace Table

/-- `load_or_save_unordered_set<Set,true>` / `..._map<Map,true>` (serialize_container.hpp:50-70, 104-139). -/
def save (t : Table K V) : Option (Archive (K × V)) := t.iterate.map (fun l => ⟨t.size, l⟩)

/-- The loop of `load_or_save_unordered_set<Set,false>` / `..._map<Map,false>` (serialize_container.hpp:89-98, 163-178). For
multi containers `adapt_insert_return_type` (serialize_container.hpp:36-40) supplies `true`, which `opInsert` answers in that
case. -/
def loadLoop (u : Bool) : Nat → List (K × V) → Table K V → Option (Table K V × Outcome)
  | 0, _, t => some (t, .done)
  | _ + 1, [], t => some (t, .archiveError)
  | n + 1, x :: xs, t =>
    match t.opInsert u x with
    | some (t', .ins _ true) => loadLoop u n xs t'
    | some (t', .ins _ false) => some (t', .badArchive)
    | _ => none

/-- Loading (serialize_container.hpp:72-100, 141-180): `clear`, `reserve(count)`, then the loop. -/
def load (u : Bool) (t : Table K V) (ar : Archive (K × V)) : Option (Table K V × Outcome) :=
  (t.clear.bind (·.reserve ar.count)).bind (loadLoop u ar.count ar.items)

end Table

theorem save_spec {u : Bool} {t : Table K V} {o : Obj K V} (h : R u t o) (hd : o.defined = true) :
    ∃ ar, t.save = some ar ∧ SpecSer.Saves o.elems ar ∧ SpecC.Contig o.eq ar.items := by
  obtain ⟨t', res, o', h1, h2, h3⟩ := lstep_refines h .iterate (by exact hd)
  simp only [Table.lstep, Option.map_eq_some_iff, Prod.mk.injEq] at h1
  obtain ⟨l, h4, rfl, rfl⟩ := h1
  obtain ⟨rfl, l', h5, h6, h7⟩ := h2
  cases h5
  refine ⟨⟨t.size, l⟩, by unfold Table.save; rw [h4]; rfl, ⟨?_, h6⟩, h7⟩
  exact h.size hd

theorem loadLoop_spec (u : Bool) : ∀ (n : Nat) (xs pre : List (K × V)) (t : Table K V) (o : Obj K V),
    R u t o → o.defined = true → o.elems.Perm pre → (u = true → NoDup o.eq pre) →
    ∃ t' out l, Table.loadLoop u n xs t = some (t', out) ∧ R u t' { o with elems := l } ∧
      Loads u o.eq ⟨pre.length + n, pre ++ xs⟩ out l := by
  intro n
  induction n with
  | zero =>
    intro xs pre t o hr hdf hp hd
    refine ⟨t, .done, o.elems, by cases xs <;> rfl, hr, ?_⟩
    refine .done (by simp) (fun hu => ?_) ?_
    · simpa using hd hu
    · simpa using hp
  | succ n ih =>
    intro xs pre t o hr hdf hp hd
    cases xs with
    | nil =>
      refine ⟨t, .archiveError, o.elems, rfl, hr, ?_⟩
      refine .short (by simp) (fun hu => ?_) ?_
      · simpa using hd hu
      · simpa using hp
    | cons x xs =>
      obtain ⟨t', e, b, o', h1, h2, h3⟩ := opInsert_refines hr hdf x
      simp only [Table.loadLoop, h1]
      rcases h2 with ⟨hu, ⟨hm, he⟩, rfl, rfl⟩ | ⟨ha, rfl, rfl, rfl⟩
      · refine ⟨t', .badArchive, o'.elems, rfl, h3, ?_⟩
        refine .dup pre.length x (by simp) (by simp) hu (by simpa using hd hu) ?_ (by simpa using hp)
        exact ⟨e, by simpa using hp.subset hm, he⟩
      · have happ : (pre ++ [e]) ++ xs = pre ++ e :: xs := by simp
        have hfin : (pre ++ [e]).length + n = pre.length + (n + 1) := by simp; omega
        obtain ⟨t2, out, l, e1, e2, e3⟩ := ih xs (pre ++ [e]) t' { o with elems := e :: o.elems } h3 hdf
          ((List.Perm.cons e hp).trans (List.perm_append_singleton e pre).symm) (by
            intro hu
            have hd := hd hu
            have ha := ha hu
            unfold NoDup at hd ⊢
            simp only [List.pairwise_append, List.pairwise_singleton, List.mem_singleton, forall_eq, true_and]
            refine ⟨hd, fun a haa => ?_⟩
            have h5 := ha a (hp.symm.subset haa)
            by_contra hc
            have hc : o.eq a.1 e.1 = true := by simpa using hc
            have := hr.law.symm _ _ (show t.fns.eq a.1 e.1 = true by rw [hr.eq]; exact hc)
            rw [hr.eq, h5] at this; cases this)
        rw [hfin, happ] at e3
        exact ⟨t2, out, l, e1, e2, e3⟩

theorem load_spec {u : Bool} {t : Table K V} {o : Obj K V} (hr : R u t o) (ar : Archive (K × V)) :
    ∃ t' out l, t.load u ar = some (t', out) ∧ R u t' { o with elems := l, defined := true } ∧ Loads u o.eq ar out l := by
  obtain ⟨t1, res1, o1, a1, a2, a3⟩ := lstep_refines hr .clear trivial
  obtain ⟨_, rfl⟩ := a2
  obtain ⟨t2, res2, o2, b1, b2, b3⟩ := lstep_refines a3 (.reserve ar.count) rfl
  obtain ⟨_, rfl⟩ := b2
  simp only [Table.lstep, Option.map_eq_some_iff, Prod.mk.injEq] at a1 b1
  obtain ⟨_, a4, rfl, _⟩ := a1
  obtain ⟨_, b4, rfl, _⟩ := b1
  obtain ⟨t', out, l, e1, e2, e3⟩ := loadLoop_spec u ar.count ar.items [] _ _ b3 rfl (List.Perm.refl _)
    (fun _ => List.Pairwise.nil)
  refine ⟨t', out, l, ?_, e2, by simpa using e3⟩
  unfold Table.load
  rw [a4]; simp only [Option.bind_some]; rw [b4]; exact e1

end Fca

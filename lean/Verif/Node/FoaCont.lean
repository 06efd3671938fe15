/-
Node containers (unordered_node_map/set) as containers of node pointers.
Source: /repo/include/boost/unordered/unordered_node_map.hpp (likewise unordered_node_set.hpp),
/repo/include/boost/unordered/detail/foa/table.hpp, detail/foa/core.hpp via `Verif/Foa/Table.lean`.
-/
import Verif.Node.Laws
import Verif.Foa.Refine

namespace Node
open Foa (Table Fns)
variable {K : Type}

/-- `extract(k)` (unordered_node_map.hpp:568-572, table.hpp:514-520): find, move the pointer out of the slot, erase the slot
(`erase_on_exit`; `destroy_element` finds a null pointer and frees nothing). -/
def foaExtract (t : Table K Nat) (k : K) : Option (Table K Nat × Option (K × Nat)) :=
  match t.find k with
  | none => none
  | some none => some (t, none)
  | some (some p) =>
    match t.deref p with
    | none => none
    | some e => (t.eraseAt p).map (fun t' => (t', some e))

/-- `erase(k)` (table.hpp:484-496, core.hpp:1692-1704): find, destroy the element (frees the node), recover the slot. -/
def foaErase (t : Table K Nat) (k : K) : Option (Table K Nat × List (K × Nat)) :=
  match t.find k with
  | none => none
  | some none => some (t, [])
  | some (some p) =>
    match t.deref p with
    | none => none
    | some e => (t.eraseAt p).map (fun t' => (t', [e]))

/-- all elements in the order of `for_all_elements` (core.hpp:2058-2076) -/
def foaAll (t : Table K Nat) : Option (List (K × Nat)) := t.derefAll t.arr.occ

/-- The operations of a node container. Hints are ignored (unordered_node_map.hpp:371-387). `merge` asserts equal allocators
(unordered_node_map.hpp:589, 598). Move assignment with unequal, not propagating allocators moves elements into new nodes and
is not modelled here. -/
def foaCont (cfg : Foa.Cfg) : ContImpl K (Table K Nat) where
  new_ h e al := Table.mk_ cfg ⟨h, e⟩ al 0
  al t := t.al
  emplace t x := (t.emplaceImpl cfg x).map (fun r => (r.1, r.2.2))
  insertNode t x := (t.emplaceImpl cfg x).map (fun r => (r.1, r.2.2))
  insertHint t _ x := (t.emplaceImpl cfg x).map (fun r => (r.1, r.2.2))
  extract := foaExtract
  erase := foaErase
  clear t := (foaAll t).map (fun l => (t.clear, l))
  destroy t := (foaAll t).bind (fun l => t.destroy.map (fun _ => l))
  merge t x := if t.al ≠ x.al then none else t.merge cfg x
  swap pocs t x := t.swap { cfg with pocs := pocs } x
  moveAssign pocma t x :=
    if pocma = true ∨ t.al = x.al then
      (foaAll t).bind (fun l => (t.moveAssign { cfg with pocma := pocma } x).map (fun r => (r.1, r.2, l)))
    else none

namespace FoaLaws
open Foa
variable {t x : Table K Nat}

theorem r_self (h : t.Inv) : R t ⟨t.fns.eq, t.al, t.contents⟩ := ⟨h, rfl, rfl, List.Perm.refl _⟩

theorem foaAll_eq (h : t.Inv) : foaAll t = some t.contents := by
  unfold foaAll
  rw [derefAll_eq t _ (slots_of_occ h.arr)]
  rfl

theorem ins_law (cfg : Foa.Cfg) (x : K × Nat) (h : t.Inv) :
    Ins true Table.contents Table.Inv (fun t => t.fns.eq) Table.al t x
      ((t.emplaceImpl cfg x).map (fun r => (r.1, r.2.2))) := by
  rcases emplaceImpl_spec cfg h x with ⟨g, j, y, he, -, hs, hy⟩ | ⟨t', g, j, he, hi, hf, ha, hno, -, hp, -, -⟩
  · refine ⟨t, false, by rw [he]; rfl, h, rfl, rfl, Or.inl ⟨rfl, rfl, List.Perm.refl _, y, h.mem.2 ⟨g, j, hs⟩, hy⟩⟩
  · exact ⟨t', true, by rw [he]; rfl, hi, by show t'.fns.eq = _; rw [hf], ha, Or.inr ⟨rfl, hp, fun _ => hno⟩⟩

theorem extract_law (k : K) (h : t.Inv) :
    (∃ t' e, foaExtract t k = some (t', some e) ∧ foaErase t k = some (t', [e]) ∧ t'.Inv ∧ t'.fns = t.fns ∧ t'.al = t.al ∧
      t.contents.Perm (e :: t'.contents) ∧ t.fns.eq k e.1 = true) ∨
    (foaExtract t k = some (t, none) ∧ foaErase t k = some (t, []) ∧ ∀ e ∈ t.contents, t.fns.eq k e.1 = false) := by
  rcases h.find_spec k with ⟨g, j, y, hf, hs, hy⟩ | ⟨hf, hn⟩
  · obtain ⟨t', he, hi, hfn, ha, -, -, -, -, hp, -⟩ := eraseAt_spec h hs
    left
    refine ⟨t', y, ?_, ?_, hi, hfn, ha, hp, hy⟩
    · simp [foaExtract, hf, Table.deref, hs, he]
    · simp [foaErase, hf, Table.deref, hs, he]
  · right
    refine ⟨by simp [foaExtract, hf], by simp [foaErase, hf], ?_⟩
    intro e hm
    obtain ⟨g, j, hs⟩ := h.mem.1 hm
    exact hn g j e hs

/-- unordered_node_map/set satisfy the laws. -/
def foaLaws (cfg : Foa.Cfg) : Laws (foaCont (K := K) cfg) true false where
  contents := Table.contents
  Inv := Table.Inv
  eq t := t.fns.eq
  new_ hash e al hl := ⟨mk_inv cfg (lawful_iff hl) al 0, rfl, rfl, mk_contents cfg _ al 0⟩
  distinct _ t h := contents_pairwise h
  symm t h a b hab := by
    have := h.law.symm a b
    rw [← this]; exact hab
  emplace t x h := ins_law cfg x h
  insertNode t x h := ins_law cfg x h
  insertHint t _ x h _ := ins_law cfg x h
  extract t k h := by
    rcases extract_law k h with ⟨t', e, he, -, hi, hf, ha, hp, hk⟩ | ⟨he, -, hn⟩
    · exact ⟨t', some e, he, hi, by rw [hf], ha, Or.inl ⟨e, rfl, hp, hk⟩⟩
    · exact ⟨t, none, he, h, rfl, rfl, Or.inr ⟨rfl, List.Perm.refl _, hn⟩⟩
  erase t k h := by
    rcases extract_law k h with ⟨t', e, -, he, hi, hf, ha, hp, hk⟩ | ⟨-, he, hn⟩
    · refine ⟨t', [e], he, hi, by rw [hf], ha, hp, by simpa using hk, ?_⟩
      intro y hy
      have hpw := (hp.pairwise_iff (fun {a b} hab => Ineq.symm h.law hab)).1 (contents_pairwise h)
      have hey : t.fns.eq e.1 y.1 = false := (List.pairwise_cons.1 hpw).1 y hy
      rw [Bool.eq_false_iff] at hey ⊢
      intro hky
      exact hey (h.law.trans _ _ _ (by rw [h.law.symm]; exact hk) hky)
    · exact ⟨t, [], he, h, rfl, rfl, List.Perm.refl _, by simp, hn⟩
  clear t h := by
    obtain ⟨hi, hc, hf, ha, -⟩ := clear_spec h
    exact ⟨t.clear, t.contents, by simp [foaCont, foaAll_eq h], hi, by rw [hf], ha, List.Perm.refl _, hc⟩
  destroy t h := ⟨t.contents, by simp [foaCont, foaAll_eq h, (r_self h).destroy], List.Perm.refl _⟩
  merge t x h hx hal hk := by
    obtain ⟨t', x', hm, hi, hix, hf, ha, hfx, hax, hp, hpx⟩ := merge_spec cfg h hx (hk rfl)
    refine ⟨t', x', x.contents.filter (fun e => !hasKey t.fns t.contents e.1), ?_, hi, hix, by rw [hf], by rw [hfx], ha, hax,
      ?_, hp, ?_, by simp⟩
    · have : t.al = x.al := hal
      simp [foaCont, this, hm]
    · refine List.Perm.trans ?_ (List.Perm.append_left _ hpx.symm)
      have := List.filter_append_perm (fun e : K × Nat => !hasKey t.fns t.contents e.1) x.contents
      simp only [Bool.not_not] at this
      exact this.symm
    · intro _
      refine ⟨?_, ?_, ?_⟩
      · intro e he y hy
        have := (List.mem_filter.1 he).2
        simp [hasKey] at this
        exact this _ _ hy
      · have hpw := contents_pairwise hx
        have h2 : x.contents.Pairwise (fun a b => t.fns.eq a.1 b.1 = false) := by
          refine hpw.imp ?_
          intro a b hab
          have he : t.fns.eq = x.fns.eq := hk rfl
          rw [he]; exact hab
        exact h2.sublist List.filter_sublist
      · intro e he
        left
        have := (List.mem_filter.1 (hpx.mem_iff.1 he)).2
        simp only [hasKey, List.any_eq_true] at this
        exact this
  swap pocs t x h hx hp := by
    have := swap_spec { cfg with pocs := pocs } h hx hp
    exact ⟨x, t, this, hx, h, rfl, rfl, rfl, rfl, List.Perm.refl _, List.Perm.refl _⟩
  moveAssign pocma t x h hx hp := by
    obtain ⟨t', x', hm, hi, hf, ha, hc, hix, hfx, hax, hcx⟩ := moveAssign_spec { cfg with pocma := pocma } h hx
    have hp' : pocma = true ∨ t.al = x.al := hp
    refine ⟨t', x', t.contents, ?_, hi, hix, by rw [hf], Or.inl (by rw [hfx]), ?_, hax, hc, hcx, List.Perm.refl _⟩
    · simp [foaCont, hp', foaAll_eq h, hm]
    · show t'.al = x.al
      rw [ha]
      cases pocma
      · simp at hp'; simpa using hp'
      · simp

end FoaLaws
end Node

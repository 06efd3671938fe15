/-
Property theorems C36 (memory blocks of the open-addressing containers). Model: `Verif/Foa/Heap.lean`.
-/
import Verif.Foa.HeapLemmas
import Verif.Props.FoaMap

namespace Props
open Foa
open Spec (Op Res)
variable {K V : Type}

/-- C36. Any program over `R` containers - any calls, any propagation traits, fancy pointers or not - that respects the
preconditions runs without a faulty deallocation: `hrun` would be `none` if a block were freed twice, freed with an allocator
other than the one that allocated it, or freed with another size. At every end of such a program
* the answers are those of the abstract map (as in C01);
* no two live blocks have the same address, and the live blocks are exactly one for each container that holds arrays: its
  address, its current allocator, its size;
* destroying the containers frees every block. -/
theorem C36_blocks_freed_exactly_once (c : MCfg) (veq : K × V → K × V → Bool) (hs : K → Nat) (e : K → K → Bool)
    (hl : Spec.Lawful hs e) (R : Nat) (ops : List (Op K V)) (hv : ∀ op ∈ ops, ∀ r ∈ opVars op, r < R)
    (hp : Spec.PreAll c.traits veq ops (Spec.start e)) :
    ∃ s heap outs, hrun c veq ops (hstart c hs e R) = some ((s, heap), outs) ∧
      AgreeAll outs (Spec.run c.traits veq ops (Spec.start e)).2 ∧
      (heap.blocks.map Prod.fst).Nodup ∧
      (∀ r < R, (s r).t.arr.hasElems = true → ((s r).id, (s r).t.al, (s r).t.arr.k) ∈ heap.blocks) ∧
      (∀ b ∈ heap.blocks, ∃ r < R, (s r).t.arr.hasElems = true ∧ b = ((s r).id, (s r).t.al, (s r).t.arr.k) ∧
        ∀ q < R, (s q).t.arr.hasElems = true → (s q).id = (s r).id → q = r) ∧
      ∃ heap', hfinish s R heap = some heap' ∧ heap'.blocks = [] := by
  obtain ⟨h1, h2⟩ := hstart_own (K := K) (V := V) c hs e R
  have hrs : RS (hstart c hs e R : HState K V).tables (Spec.start e) := by rw [h1]; exact start_related c hl
  obtain ⟨s', outs, e1, e2, e3⟩ := run_refines c veq ops _ _ hrs hp
  obtain ⟨⟨s, heap⟩, f1, f2, f3⟩ := hrun_own c veq ops _ _ _ _ h2 hv hrs hp e1
  have hinv : ∀ r, (s r).t.Inv := fun r => by
    have := (e3 r).inv
    rw [← f2] at this
    exact this
  have hcell : ∀ r, (s r).t.arr.hasElems = true → (s r).cells = [((s r).id, (s r).t.al, (s r).t.arr.k)] := by
    intro r hr
    unfold HTable.cells cell
    rw [if_pos hr, (hinv r).al hr]
  have hmem : ∀ r < R, (s r).t.arr.hasElems = true → ((s r).id, (s r).t.al, (s r).t.arr.k) ∈ heap.blocks := by
    intro r hr he
    refine f3.perm.symm.subset (List.mem_flatMap.2 ⟨r, List.mem_range.2 hr, ?_⟩)
    rw [hcell r he]; simp
  refine ⟨s, heap, outs, f1, e2, f3.ok.nodup, hmem, ?_, ?_⟩
  · intro b hb
    obtain ⟨r, hr, hb⟩ := List.mem_flatMap.1 (f3.perm.subset hb)
    have hr := List.mem_range.1 hr
    have he : (s r).t.arr.hasElems = true := by
      by_contra hc
      unfold HTable.cells cell at hb
      rw [if_neg hc] at hb
      cases hb
    rw [hcell r he, List.mem_singleton] at hb
    refine ⟨r, hr, he, hb, ?_⟩
    intro q hq hqe hid
    by_contra hne
    -- two containers with the same address: the block would be listed twice
    have hsp := (f3.split2 hq hr hne).perm
    have hnd2 := (hsp.map Prod.fst).nodup_iff.1 f3.ok.nodup
    simp only at hnd2
    rw [hcell q hqe, hcell r he] at hnd2
    simp [hid] at hnd2
  · exact hfinish_own R heap f3 (fun r => (hinv r).delete_)

/-- A program with unequal allocators, propagation on move and swap but not on copy: growth, copy assignment across allocators,
move assignment, swap, move construction. Five blocks have been allocated and freed along the way or are alive at the end; the
two containers that hold arrays own the last two. -/
def memProgram : List (Op Nat Nat) :=
  [.construct 0 sampleHash natEq 1 0, .construct 1 sampleHash natEq 2 10, .insert 0 (1, 1), .insert 1 (2, 2), .insert 1 (3, 3),
   .copyAssign 0 1, .moveAssign 1 0, .insert 0 (7, 7), .swap 0 1, .moveConstruct 2 0, .rehash 2 100]

set_option maxRecDepth 100000 in
example : ((hrun { pocma := true, pocs := true } pairEq memProgram (hstart { pocma := true, pocs := true } sampleHash natEq 3)).map
    (fun r => (r.1.2.blocks, r.1.2.next, (r.1.1 2).id, (r.1.1 2).t.al))) = some ([(4, 1, 3), (3, 1, 1)], 5, 4, 1) := by
  decide +kernel

set_option maxRecDepth 100000 in
/-- The same program with fancy pointers: every container always owns a block, also an empty one. -/
example : ((hrun { pocma := true, pocs := true, fancy := true } pairEq memProgram
      (hstart { pocma := true, pocs := true, fancy := true } sampleHash natEq 3)).map
    (fun r => (r.1.2.blocks, r.1.2.next, (r.1.1 2).id, (r.1.1 2).t.al))) =
      some ([(8, 1, 3), (7, 1, 1), (6, 1, 1)], 9, 8, 1) := by
  decide +kernel

/-- The program meets the hypotheses of `C36_blocks_freed_exactly_once` with three containers. -/
example : (∀ op ∈ memProgram, ∀ r ∈ opVars op, r < 3) ∧
    Spec.PreAll (MCfg.traits { pocma := true, pocs := true }) pairEq memProgram (Spec.start natEq) := by
  refine ⟨by decide, sample_lawful, sample_lawful, trivial, trivial, trivial, trivial, trivial, trivial, Or.inl rfl, ?_,
    trivial, trivial⟩
  exact (by decide : (2 : Nat) ≠ 0)

end Props

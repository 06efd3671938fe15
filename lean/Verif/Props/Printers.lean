/-
C63 (the GDB pretty-printers list exactly the container's elements) and C64 (the Visual Studio visualizers likewise).
-/
import Verif.Debug.Printers
import Verif.Props.FoaMap
import Verif.Props.FcaMap

namespace Props.Printers
open Debug
variable {K V : Type}

/-! ## Specification -/

/-- What the debugger should receive for a container whose elements are `l`: for a map, key and mapped value of each element
in turn; for a set, the running number 0,1,2,... and the element. -/
def Expected (isMap : Bool) (l : List (K × V)) : List (Item K V) :=
  if isMap then l.flatMap (fun x => [.first x.1, .second x.2])
  else l.zipIdx.flatMap (fun p => [.index p.2, .value p.1])

theorem listing_map (l : List (K × V)) (c : Nat) : listing true l c = l.flatMap (fun x => [.first x.1, .second x.2]) := by
  induction l generalizing c with
  | nil => rfl
  | cons x xs ih => simp [listing, items, ih]

theorem listing_set (l : List (K × V)) (c : Nat) :
    listing false l c = (l.zipIdx c).flatMap (fun p => [.index p.2, .value p.1]) := by
  induction l generalizing c with
  | nil => rfl
  | cons x xs ih => simp [listing, items, ih]

theorem listing_expected (isMap : Bool) (l : List (K × V)) : listing isMap l 0 = Expected isMap l := by
  unfold Expected
  cases isMap with
  | true => rw [if_pos rfl]; exact listing_map l 0
  | false => simp only [Bool.false_eq_true, if_false]; exact listing_set l 0

/-! ## C63: GDB -/

/-- C63, open addressing. For every reachable container, in either metadata layout and byte order, whatever memory holds its
groups: the GDB script, reading only groups inside the group array and slots that hold an element, ends after at most
`size()+1` rounds and shows exactly the elements that iterating the container shows, in the same order, each once; their
number is the `size` it prints in the header. -/
theorem C63_gdb_open_addressing (c : Foa.MCfg) (t : Foa.Table K V) (h : Props.Reachable c t) (be : Bool)
    (mem : Nat → Option Mem) (hm : InMemory be mem t.arr) (isMap : Bool) :
    ∃ l, Props.Iterates c t l ∧ l.length = t.size ∧ ∀ sfuel fuel, 2 ^ t.arr.k ≤ sfuel → t.size < fuel →
      foaChildren mem t.arr.hasElems (elemOf t.arr) isMap sfuel fuel = some (Expected isMap l) := by
  refine ⟨t.contents, (Props.iterates_iff h).mpr rfl, ?_, ?_⟩
  · have := Props.C04_size_exact c t h
    obtain ⟨l, h1, h2⟩ := this
    rw [(Props.iterates_iff h).mp h1] at h2
    exact h2.1.symm
  · intro sfuel fuel h1 h2
    rw [← listing_expected]
    exact foaChildren_eq hm h.inv.arr isMap sfuel fuel h1 (by rw [Foa.occ_length h.inv]; exact h2)

/-- every container lies in memory in this sense, in each layout -/
theorem C63_has_memory (regular be : Bool) (t : Foa.Table K V) : ∃ mem, InMemory be mem t.arr :=
  ⟨_, memOf_inMemory regular be t.arr⟩

example : ∃ (t : Foa.Table Nat Nat) (mem : Nat → Option Mem), Props.Reachable {} t ∧ t.size = 36 ∧ InMemory true mem t.arr := by
  obtain ⟨t, h1, h2⟩ := Props.sample_reachable
  exact ⟨t, _, h1, h2, memOf_inMemory false true t.arr⟩

/-- the sample used below: four elements, two of them colliding, after an erasure -/
def smallRun : Option (Foa.Table Nat Nat) :=
  (Foa.run {} Props.pairEq [.insert 0 (3, 30), .insert 0 (6, 60), .insert 0 (4, 40), .insert 0 (5, 50), .erase 0 6]
    (Foa.start {} Props.sampleHash Props.natEq)).map (fun r => r.1 0)

set_option maxRecDepth 100000 in
/-- A concrete container, printed from the portable (interleaved) layout and from the byte layout. -/
example : ∀ reg : Bool, smallRun.bind (fun t => foaChildren (memOf reg false t.arr) t.arr.hasElems (elemOf t.arr) true 2 4) =
    some [.first 3, .second 30, .first 4, .second 40, .first 5, .second 50] := by
  decide +kernel

/-- C63, closed addressing. For every reachable container the GDB script ends and shows exactly the elements of buckets 0,
1, ..., `bucket_count()-1` in the order of local iteration: the elements of the container, each as often as it occurs; their
number is the `size` it prints. -/
theorem C63_gdb_closed_addressing (c : Fca.MCfg K V) (t : Fca.Table K V) (h : Props.Closed.Reachable c t) (isMap : Bool) :
    ∃ l it, t.iterate = some it ∧ l.Perm it ∧ l.length = t.size ∧
      (∃ ls, (List.range t.bucketCount).mapM t.localIterate = some ls ∧ l = ls.flatten) ∧
      ∀ fuel, t.bucketCount ≤ fuel → fcaChildren t.b isMap fuel = some (Expected isMap l) := by
  obtain ⟨it, h1, h2, h3, _⟩ := Fca.iterate_spec h.good.inv
  refine ⟨t.contents, it, h1, h2.symm, by rw [← h3]; exact h2.length_eq.symm, ⟨(List.range t.bucketCount).map t.b.chain, ?_, ?_⟩, ?_⟩
  · have hget : ∀ b ∈ List.range t.bucketCount, t.localIterate b = some (t.b.chain b) := by
      intro b hb
      rw [List.mem_range] at hb
      unfold Fca.Table.bucketCount at hb
      unfold Fca.Table.localIterate Fca.Gba.get
      rw [if_neg (by omega), if_pos ⟨by omega, by show b ≤ t.b.size; omega⟩]
    have gen : ∀ l : List Nat, (∀ b ∈ l, t.localIterate b = some (t.b.chain b)) →
        l.mapM t.localIterate = some (l.map t.b.chain) := by
      intro l
      induction l with
      | nil => intro _; rfl
      | cons x xs ih =>
        intro hx
        rw [List.mapM_cons, hx x (by simp), ih (fun b hb => hx b (by simp [hb]))]; rfl
    exact gen _ hget
  · unfold Fca.Table.contents Fca.Gba.contents Fca.Table.bucketCount
    rw [List.flatMap_def]
  · intro fuel hf
    rw [← listing_expected]
    exact fcaChildren_eq t.b isMap fuel hf

example : ∃ t : Fca.Table Nat Nat, Props.Closed.Reachable Props.Closed.multi t ∧ t.size = 42 :=
  Props.Closed.sample_reachable_multi

/-! ## C64: Visual Studio -/

/-- C64, open addressing. The Natvis list of a reachable container: its masks are those of the GDB script
(`natvisWords`), its loop is the same, and it shows exactly the elements iteration shows, in that order, numbered (the view
`ShowElementsByIndex`; the map view labels the same elements with their keys instead). -/
theorem C64_natvis_open_addressing (c : Foa.MCfg) (t : Foa.Table K V) (h : Props.Reachable c t) (be : Bool)
    (mem : Nat → Option Mem) (hm : InMemory be mem t.arr) :
    (∀ m0 m1, Mem.natvisWords m0 m1 = (Mem.words m0 m1).matchOccupied) ∧
    ∃ l, Props.Iterates c t l ∧ l.length = t.size ∧ ∀ sfuel fuel, 2 ^ t.arr.k ≤ sfuel → t.size < fuel →
      foaChildren mem t.arr.hasElems (elemOf t.arr) false sfuel fuel = some (Expected false l) :=
  ⟨natvis_matchOccupied, C63_gdb_open_addressing c t h be mem hm false⟩

/-- The claim for the closed-addressing containers: the list is shown for every container. -/
def C64_claim : Prop := ∀ (c : Fca.MCfg Nat Nat) (t : Fca.Table Nat Nat), Props.Closed.Reachable c t →
  ∃ l it, t.iterate = some it ∧ l.Perm it ∧ natvisFca t.b false t.bucketCount = some (Expected false l)

/-- C64 fails for a container without buckets (default-constructed, moved-from): before looking at the bucket count the
visualizer reads the first bucket through the null array pointer. -/
theorem C64_natvis_reads_null_buckets : ¬ C64_claim := by
  intro h
  obtain ⟨l, it, _, _, h3⟩ := h Props.Closed.multi (Fca.Table.mk_ ⟨Props.sampleHash, Props.natEq⟩ 0 0)
    ⟨Props.sampleHash, Props.natEq, [], Fca.start Props.sampleHash Props.natEq, [], 0, Props.sample_lawful, trivial, rfl, rfl,
      by intro a ha; cases ha; rfl⟩
  have : natvisFca (Fca.Table.mk_ ⟨Props.sampleHash, Props.natEq⟩ 0 0 : Fca.Table Nat Nat).b false
      (Fca.Table.mk_ ⟨Props.sampleHash, Props.natEq⟩ 0 0 : Fca.Table Nat Nat).bucketCount = none := rfl
  rw [this] at h3; cases h3

/-- C64, closed addressing, as far as it is true: containers that have a bucket array. -/
theorem C64_natvis_closed_addressing_partial (c : Fca.MCfg K V) (t : Fca.Table K V) (h : Props.Closed.Reachable c t)
    (hb : t.bucketCount ≠ 0) (isMap : Bool) :
    ∃ l it, t.iterate = some it ∧ l.Perm it ∧ l.length = t.size ∧
      ∀ fuel, t.bucketCount ≤ fuel → natvisFca t.b isMap fuel = some (Expected isMap l) := by
  obtain ⟨l, it, h1, h2, h3, _, h5⟩ := C63_gdb_closed_addressing c t h isMap
  refine ⟨l, it, h1, h2, h3, fun fuel hf => ?_⟩
  unfold natvisFca rdBucket
  rw [if_pos ⟨hb, by omega⟩, Option.bind_some]
  exact h5 fuel hf

example : ∃ t : Fca.Table Nat Nat, Props.Closed.Reachable Props.Closed.multi t ∧ t.bucketCount ≠ 0 := by
  obtain ⟨t, h1, h2⟩ := Props.Closed.sample_reachable_multi
  exact ⟨t, h1, fun hz => h1.good.inv.pos (by omega) hz⟩

end Props.Printers

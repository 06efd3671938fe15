/-
Property theorems C01-C12, C36, C37: the open-addressing containers (unordered_flat_map/set, unordered_node_map/set).
-/
import Verif.Foa.Refine

namespace Props
open Foa
open Spec (Op Res)
variable {K V : Type}

/-- A container that some program, run from start-up and respecting the documented preconditions, can produce. -/
def Reachable (c : MCfg) (t : Table K V) : Prop :=
  ∃ (veq : K × V → K × V → Bool) (h : K → Nat) (e : K → K → Bool) (ops : List (Op K V)) (s : Nat → Table K V)
    (outs : List (Res K V)) (r : Nat),
    Spec.Lawful h e ∧ Spec.PreAll c.traits veq ops (Spec.start e) ∧ Foa.run c veq ops (Foa.start c h e) = some (s, outs) ∧
    t = s r

theorem start_related (c : MCfg) {h : K → Nat} {e : K → K → Bool} (hl : Spec.Lawful h e) :
    RS (Foa.start c h e : Nat → Table K V) (Spec.start e) := fun _ =>
  ⟨mk_inv c.toCfg (lawful_iff hl) 0 0, rfl, rfl, by
    show (Table.mk_ c.toCfg ⟨h, e⟩ 0 0 : Table K V).contents.Perm []
    rw [mk_contents]⟩

theorem Reachable.inv {c : MCfg} {t : Table K V} (h : Reachable c t) : t.Inv := by
  obtain ⟨veq, hs, e, ops, s, outs, r, h1, h2, h3, rfl⟩ := h
  obtain ⟨s', outs', e1, _, e3⟩ := run_refines c veq ops _ _ (start_related c h1) h2
  rw [h3] at e1; cases e1
  exact (e3 r).inv

/-- what `for(it=begin();it!=end();++it)` sees -/
def Iterates (c : MCfg) (t : Table K V) (l : List (K × V)) : Prop := t.opIterate c.regular = some (.list l)

theorem iterates_iff {c : MCfg} {t : Table K V} (h : Reachable c t) {l : List (K × V)} :
    Iterates c t l ↔ l = t.contents := by
  unfold Iterates; rw [opIterate_eq h.inv]
  constructor
  · intro h; cases h; rfl
  · rintro rfl; rfl

/-! A concrete program used to show that the hypotheses below are satisfiable. -/

/-- a program that inserts, erases, copies, merges and grows; `k % 3` as hash forces collisions -/
def sample : List (Op Nat Nat) :=
  [.insertRange 0 ((List.range 40).map (fun i => (i, 10 * i))), .erase 0 7, .insert 0 (7, 1), .insertOrAssign 0 8 5,
   .copyConstruct 1 0 0, .eraseIf 1 (fun x => x.1 % 2 == 0), .moveAssign 2 1, .insert 1 (100, 3), .merge 1 0,
   .reserve 1 100, .eraseWalk 1 (fun x => x.1 < 5), .swap 1 2]

def sampleHash (k : Nat) : Nat := (k % 3) * 2 ^ 62 + k % 3
def natEq (a b : Nat) : Bool := a == b
def pairEq (a b : Nat × Nat) : Bool := a == b

theorem sample_lawful : Spec.Lawful sampleHash natEq := by
  refine ⟨?_, ?_, ?_, ?_, ?_⟩
  · intro k; unfold sampleHash; omega
  · intro k; simp [natEq]
  · intro a b; simp [natEq]; intro h; exact h.symm
  · intro a b c; simp [natEq]; intro h1 h2; exact h1.trans h2
  · intro a b; simp [natEq]; rintro rfl; rfl

theorem sample_pre : Spec.PreAll (V := Nat) ⟨false, false, false⟩ pairEq sample (Spec.start natEq) := by
  refine ⟨trivial, trivial, trivial, trivial, ?_, trivial, trivial, trivial, ?_, trivial, trivial, ?_, trivial⟩
  · exact Nat.one_ne_zero
  · rfl
  · exact Or.inr rfl

set_option maxRecDepth 100000 in
/-- the program runs; variable 2 ends up holding 35 elements, variable 1 holding 20 -/
theorem sample_run : ((Foa.run {} pairEq sample (Foa.start {} sampleHash natEq)).map
    (fun r => ((r.1 0).size, (r.1 1).size, (r.1 2).size, (r.1 2).capacity))) = some (0, 20, 36, 119) := by
  decide +kernel

/-- a reachable non-empty container -/
theorem sample_reachable : ∃ t : Table Nat Nat, Reachable {} t ∧ t.size = 36 := by
  have h := sample_run
  cases hr : Foa.run {} pairEq sample (Foa.start {} sampleHash natEq) with
  | none => rw [hr] at h; cases h
  | some p =>
    rw [hr] at h
    simp only [Option.map_some, Option.some.injEq, Prod.mk.injEq] at h
    exact ⟨p.1 2, ⟨pairEq, sampleHash, natEq, sample, p.1, p.2, 2, sample_lawful, sample_pre, hr, rfl⟩, h.2.2.1⟩


/-! ### C01 -/

/-- C01. Every program that respects the documented preconditions runs without undefined behaviour (no read of a dead slot,
no write to the shared dummy groups, no endless probe, no foreign deallocation, no counter wrap-around), and every answer
agrees with the one of the abstract map, whatever the hash functions, initial capacities, rehashes, allocator propagation
traits, pointer kind and group layout. -/
theorem C01_program_refines_abstract_map (c : MCfg) (veq : K × V → K × V → Bool) (h : K → Nat) (e : K → K → Bool)
    (hl : Spec.Lawful h e) (ops : List (Op K V)) (hp : Spec.PreAll c.traits veq ops (Spec.start e)) :
    ∃ s outs, Foa.run c veq ops (Foa.start c h e) = some (s, outs) ∧
      List.Forall₂ Res.Agrees outs (Spec.run c.traits veq ops (Spec.start e)).2 := by
  obtain ⟨s, outs, h1, h2, _⟩ := run_refines c veq ops _ _ (start_related c hl) hp
  exact ⟨s, outs, h1, h2⟩

example : Spec.Lawful sampleHash natEq ∧
    Spec.PreAll (MCfg.traits {}) pairEq sample (Spec.start natEq) := ⟨sample_lawful, sample_pre⟩

/-- C01 (final contents): afterwards each variable iterates exactly over the elements of its abstract counterpart. -/
theorem C01_program_final_contents (c : MCfg) (veq : K × V → K × V → Bool) (h : K → Nat) (e : K → K → Bool)
    (hl : Spec.Lawful h e) (ops : List (Op K V)) (hp : Spec.PreAll c.traits veq ops (Spec.start e)) :
    ∃ s outs, Foa.run c veq ops (Foa.start c h e) = some (s, outs) ∧
      ∀ r, ∃ l, Iterates c (s r) l ∧ l.Perm ((Spec.run c.traits veq ops (Spec.start e)).1 r).elems := by
  obtain ⟨s, outs, h1, _, h3⟩ := run_refines c veq ops _ _ (start_related c hl) hp
  exact ⟨s, outs, h1, fun r => ⟨_, opIterate_eq (h3 r).inv c.regular, (h3 r).elems⟩⟩

/-! ### C02 -/

/-- C02. In every reachable container, for every key: if iteration shows an element with an equivalent key, `find` returns
exactly that element; otherwise `find` returns end(). -/
theorem C02_find_exact (c : MCfg) (t : Table K V) (h : Reachable c t) (k : K) :
    ∃ l, Iterates c t l ∧
      ((∃ y ∈ l, t.fns.eq k y.1 = true ∧ t.lookup k = some (some y) ∧ ∀ z ∈ l, t.fns.eq k z.1 = true → z = y) ∨
       ((∀ y ∈ l, t.fns.eq k y.1 = false) ∧ t.lookup k = some none)) := by
  have hi := h.inv
  refine ⟨t.contents, opIterate_eq hi c.regular, ?_⟩
  have hr : R t ⟨t.fns.eq, t.al, t.contents⟩ := ⟨hi, rfl, rfl, List.Perm.refl _⟩
  rcases hr.find k with ⟨g, j, y, h1, h2, h3, h4⟩ | ⟨h1, h2, h3⟩
  · left
    refine ⟨y, hi.mem.mpr ⟨g, j, h2⟩, h3, by rw [hr.lookup, h4], ?_⟩
    intro z hz hz2
    have := hr.lookup_some hz hz2
    rw [h4] at this; cases this; rfl
  · right; exact ⟨h3, by rw [hr.lookup, h2]⟩

example : ∃ t : Table Nat Nat, Reachable {} t ∧ t.size = 36 := sample_reachable

/-! ### C03 -/

/-- C03. No two elements shown by iteration have equivalent keys, and an insertion into the container reports "inserted"
exactly when no equivalent element was there; in that case the new element is the one the result points at, otherwise it
points at the element already present and nothing changes. -/
theorem C03_keys_unique (c : MCfg) (t : Table K V) (h : Reachable c t) (x : K × V) :
    ∃ l, Iterates c t l ∧ l.Pairwise (fun a b => t.fns.eq a.1 b.1 = false) ∧
      ∃ t' p b y, t.emplaceImpl c.toCfg x = some (t', p, b) ∧ t'.deref p = some y ∧
        (b = true ↔ ∀ z ∈ l, t.fns.eq x.1 z.1 = false) ∧
        (b = true → y = x ∧ t'.contents.Perm (x :: l)) ∧
        (b = false → t' = t ∧ y ∈ l ∧ t.fns.eq x.1 y.1 = true) := by
  have hi := h.inv
  refine ⟨t.contents, opIterate_eq hi c.regular, contents_pairwise hi, ?_⟩
  rcases emplaceImpl_spec c.toCfg hi x with ⟨g, j, y, h1, _, h3, h4⟩ | ⟨t', g, j, h1, _, _, _, h5, h6, h7, _⟩
  · have hm := hi.mem.mpr ⟨g, j, h3⟩
    refine ⟨t, (g, j), false, y, h1, h3, ?_, (fun hc => by cases hc), fun _ => ⟨rfl, hm, h4⟩⟩
    constructor
    · intro hc; cases hc
    · intro hc; rw [hc y hm] at h4; cases h4
  · exact ⟨t', (g, j), true, x, h1, h6, ⟨fun _ => h5, fun _ => rfl⟩, fun _ => ⟨rfl, h7⟩, (fun hc => by cases hc)⟩

/-! ### C04 -/

/-- C04. `size()` is the number of elements iteration shows, and `size() <= max_load() <= bucket_count()`. (That the
unsigned counters never wrap below zero is part of C01: a wrap would be a fault.) -/
theorem C04_size_exact (c : MCfg) (t : Table K V) (h : Reachable c t) :
    ∃ l, Iterates c t l ∧ t.size = l.length ∧ t.size ≤ t.ml ∧ t.ml ≤ t.capacity :=
  ⟨_, opIterate_eq h.inv c.regular, h.inv.size, h.inv.size_le, h.inv.ml_le⟩

/-! ### C05 -/

/-- C05. While `size() < max_load()`, inserting a new key finds a slot: the probe loop over at most (number of groups)
positions ends, the slot chosen was free, lies within the arrays and is not the end marker, and no other slot or
metadata byte changes. -/
theorem C05_insert_finds_free_slot (c : MCfg) (t : Table K V) (h : Reachable c t) (x : K × V)
    (hnew : ∀ z ∈ t.contents, t.fns.eq x.1 z.1 = false) (hroom : t.size < t.ml) :
    ∃ t' g j, t.emplaceImpl c.toCfg x = some (t', (g, j), true) ∧
      g < 2 ^ t.arr.k ∧ j < 15 ∧ ¬ (g = 2 ^ t.arr.k - 1 ∧ j = 14) ∧
      t.arr.slot g j = none ∧
      (∀ i l, t'.arr.slot i l = if i = g ∧ l = j then some x else t.arr.slot i l) ∧
      (∀ i l, ¬ (i = g ∧ l = j) → (t'.arr.grp i).md l = (t.arr.grp i).md l) ∧
      (probeSeq t.arr.mask (t.arr.posFor (t.fns.hash x.1))).length = 2 ^ t.arr.k := by
  have hi := h.inv
  rcases emplaceImpl_spec c.toCfg hi x with ⟨g, j, y, _, _, h3, h4⟩ | ⟨t', g, j, h1, _, _, _, _, _, _, h8, _⟩
  · rw [hnew y (hi.mem.mpr ⟨g, j, h3⟩)] at h4; cases h4
  · obtain ⟨_, _, _, hp⟩ := h8 hroom
    obtain ⟨v1, v2, v3⟩ := hp.valid
    refine ⟨t', g, j, h1, v1, v2, v3, hp.free, hp.slot, ?_, ?_⟩
    · intro i l hne; rw [hp.md, if_neg hne]
    · exact probeSeq_length _ _ (position_lt _ _ (hi.law.hash_lt _))

set_option maxRecDepth 100000 in
/-- the hypotheses are met, even with every element in one probe chain -/
example : ((Foa.run {} pairEq ((List.range 20).map (fun i => Op.insert 0 (i, i)))
    (Foa.start {} (fun _ => 7) natEq)).map (fun r => ((r.1 0).size, (r.1 0).ml))) = some (20, 29) := by decide +kernel

/-! ### C06 -/

/-- C06. For every number of groups 2^k and every starting position, the prober (advanced until `next` answers false)
visits every group exactly once. -/
theorem C06_prober_visits_each_group_once (k pos : Nat) (hp : pos < 2 ^ k) (fuel : Nat) (hf : 2 ^ k ≤ fuel) :
    (Prober.run (2 ^ k - 1) fuel (Prober.init pos)).Perm (List.range (2 ^ k)) := by
  have := Nat.two_pow_pos k
  rw [Prober.run_fuel _ _ _ (by omega)]
  exact probeSeq_perm k pos hp

example : (5 : Nat) < 2 ^ 3 ∧ 2 ^ 3 ≤ 8 ∧ Prober.run 7 8 (Prober.init 5) = [5, 6, 0, 3, 7, 4, 2, 1] := by decide

/-! ### C07 -/

/-- C07. Walking from begin() to end() with `++`, in both group layouts, terminates after exactly `size()` increments and
visits every live slot exactly once and nothing else. -/
theorem C07_iteration_exact (c : MCfg) (t : Table K V) (h : Reachable c t) :
    ∃ ps : List Pos, (∀ n, t.size ≤ n → (t.arr.begin_ c.regular).bind (t.arr.walk c.regular n) = some ps) ∧ ps.Nodup ∧
      ps.length = t.size ∧ ∀ g j, (g, j) ∈ ps ↔ ∃ x, t.arr.slot g j = some x := by
  have hi := h.inv
  refine ⟨t.arr.occ, fun n hn => walk_begin hi.arr _ (by rw [occ_length hi]; exact hn), nodup_occ _, occ_length hi, ?_⟩
  intro g j
  rcases hi.arr with ⟨he, hl⟩ | ⟨he, hd⟩
  · exact hl.mem_occ he
  · constructor
    · intro hm; exact slots_of_occ hi.arr _ hm
    · rintro ⟨x, hx⟩; rw [hd.slot] at hx; cases hx

/-! ### C08 -/

/-- C08. `erase(it)` for any valid iterator removes exactly that element, leaves every other element in its slot, and yields
an iterator to the element that followed (or end()); the iteration order of the others is unchanged. -/
theorem C08_erase_iterator (c : MCfg) (t : Table K V) (h : Reachable c t) (pre post : List Pos) (p : Pos)
    (ho : (t.arr.begin_ c.regular).bind (t.arr.walk c.regular t.size) = some (pre ++ p :: post)) :
    ∃ t' it, t.eraseIt c.regular (itAt p) = some (t', it) ∧ t'.size + 1 = t.size ∧
      (t'.arr.begin_ c.regular).bind (t'.arr.walk c.regular t'.size) = some (pre ++ post) ∧
      (∀ g j, (g, j) ≠ p → t'.arr.slot g j = t.arr.slot g j) ∧ t'.arr.slot p.1 p.2 = none ∧
      (match post with | [] => it.p = none | q :: _ => it = itAt q) := by
  have hi := h.inv
  rw [walk_begin hi.arr _ (Nat.le_of_eq (occ_length hi))] at ho
  have ho : t.arr.occ = pre ++ p :: post := by simpa using ho
  obtain ⟨t', it, x, h1, h2, _, _, h5, h6, h7, h8, h9⟩ := eraseIt_spec hi ho c.regular
  have hs : t'.size + 1 = t.size := by
    rw [← occ_length h2, ← occ_length hi, h5, ho]; simp; omega
  refine ⟨t', it, h1, hs, ?_, h8, ?_, ?_⟩
  · rw [walk_begin h2.arr _ (Nat.le_of_eq (occ_length h2)), h5]
  · obtain ⟨t2, e1, _, _, _, _, _, e7, _⟩ := eraseAt_spec hi (g := p.1) (j := p.2) h7
    rw [h9] at e1; cases e1
    rw [e7]; simp
  · cases post with
    | nil => exact h6
    | cons q _ => exact h6

set_option maxRecDepth 100000 in
/-- a non-trivial instance of the hypothesis: a walk over 20 colliding elements has a middle position -/
example : ((Foa.run {} pairEq ((List.range 20).map (fun i => Op.insert 0 (i, i)))
    (Foa.start {} (fun _ => 7) natEq)).bind (fun r => (((r.1 0).arr.begin_ true).bind ((r.1 0).arr.walk true (r.1 0).size)))) =
    some ((List.range 15).map (fun j => (0, j)) ++ (1, 0) :: [(1, 1), (1, 2), (1, 3), (1, 4)]) := by decide +kernel

/-- C08 (idiom). `for(it=begin();it!=end();) if(pr(*it)) it=erase(it); else ++it;` sees every original element exactly once,
in iteration order, and leaves exactly the elements not satisfying `pr`, in the same order. -/
theorem C08_erase_while_iterating (c : MCfg) (t : Table K V) (h : Reachable c t) (pr : K × V → Bool) :
    ∃ t' l, Iterates c t l ∧ t.opEraseWalk c.regular pr = some (t', .list l) ∧
      t'.opIterate c.regular = some (.list (l.filter (fun x => !pr x))) := by
  obtain ⟨t', h1, h2, _, _, h5⟩ := opEraseWalk_eq h.inv c.regular pr
  exact ⟨t', t.contents, opIterate_eq h.inv c.regular, h1, by rw [opIterate_eq h2, h5]⟩

/-- C08 (range). `erase(first,last)` removes exactly the elements between the two iterators and keeps the order and the
slots of all others. -/
theorem C08_erase_range (c : MCfg) (t : Table K V) (h : Reachable c t) (pre mid post : List Pos) (first last : It)
    (ho : (t.arr.begin_ c.regular).bind (t.arr.walk c.regular t.size) = some (pre ++ (mid ++ post)))
    (h1 : IsAt (mid ++ post) first) (h2 : IsAt post last) :
    ∃ t', t.eraseRange c.regular mid.length first last = some t' ∧
      (t'.arr.begin_ c.regular).bind (t'.arr.walk c.regular t'.size) = some (pre ++ post) ∧
      (∀ p ∈ pre ++ post, t'.arr.slot p.1 p.2 = t.arr.slot p.1 p.2) := by
  have hi := h.inv
  rw [walk_begin hi.arr _ (Nat.le_of_eq (occ_length hi))] at ho
  have ho : t.arr.occ = pre ++ (mid ++ post) := by simpa using ho
  obtain ⟨t', e1, e2, _, _, e5, e6⟩ := eraseRange_spec c.regular mid.length t first last pre mid post hi ho
    h1 h2 (Nat.le_refl _)
  exact ⟨t', e1, by rw [walk_begin e2.arr _ (Nat.le_of_eq (occ_length e2)), e5], e6⟩

/-! ### C09 -/

/-- C09. `erase_if(c,pred)` leaves exactly the elements for which `pred` is false and returns the number removed. -/
theorem C09_erase_if (c : MCfg) (t : Table K V) (h : Reachable c t) (pr : K × V → Bool) :
    ∃ t' n l l', Iterates c t l ∧ t.eraseIf pr = some (t', n) ∧ t'.opIterate c.regular = some (.list l') ∧
      l'.Perm (l.filter (fun x => !pr x)) ∧ n = (l.filter pr).length ∧ t'.size = l'.length := by
  obtain ⟨t', h1, h2, _, _, h5⟩ := eraseIf_spec h.inv pr
  exact ⟨t', _, t.contents, t'.contents, opIterate_eq h.inv _, h1, opIterate_eq h2 _, h5, rfl, h2.size⟩

/-! ### C10 -/

/-- C10 as stated is FALSE of the code. A program that inserts 16 elements with one hash value, erases six of them (which lowers
the maximum load, "anti-drift"), and calls reserve(25) ends with max_load()==23: `reserve` does nothing because the
capacity 29 already is what 25 elements call for (core.hpp:1824-1831). -/
def driftProgram : List (Op Nat Nat) :=
  (List.range 16).map (fun i => Op.insert 0 (i, i)) ++ (List.range 6).map (fun i => Op.erase 0 i) ++ [Op.reserve 0 25]

set_option maxRecDepth 100000 in
theorem C10_reserve_counterexample :
    ((Foa.run {} pairEq driftProgram (Foa.start {} (fun _ => 7) natEq)).map
      (fun r => ((r.1 0).ml, (r.1 0).size, (r.1 0).capacity))) = some (23, 10, 29) ∧ 23 < 25 := by
  decide +kernel

/-- the full claim of C10 for `reserve` -/
def C10_claim : Prop := ∀ (t : Table Nat Nat), Reachable {} t → ∀ n t', t.reserve {} n = some t' → n ≤ t'.ml

set_option maxRecDepth 100000 in
theorem C10_reserve_claim_false : ¬ C10_claim := by
  intro hc
  let ops := (List.range 16).map (fun i => Op.insert 0 (i, i)) ++ (List.range 6).map (fun i => (Op.erase 0 i : Op Nat Nat))
  have h : ((Foa.run {} pairEq ops (Foa.start {} (fun _ => 7) natEq)).bind
      (fun r => ((r.1 0).reserve {} 25).map (fun t => t.ml))) = some 23 := by decide +kernel
  cases hr : Foa.run {} pairEq ops (Foa.start {} (fun _ => 7) natEq) with
  | none => rw [hr] at h; cases h
  | some p =>
    rw [hr, Option.bind_some] at h
    cases ht : (p.1 0).reserve {} 25 with
    | none => rw [ht] at h; cases h
    | some t' =>
      rw [ht] at h
      have hlaw : Spec.Lawful (fun _ : Nat => 7) natEq := by
        refine ⟨?_, ?_, ?_, ?_, ?_⟩
        · intro k; norm_num
        · intro k; simp [natEq]
        · intro a b; simp [natEq]; intro h; exact h.symm
        · intro a b c; simp [natEq]; intro h1 h2; exact h1.trans h2
        · intro a b _; rfl
      have hpre : Spec.PreAll (MCfg.traits {}) pairEq ops (Spec.start natEq) := by
        have hall : ∀ op ∈ ops, ∀ a, Spec.Pre (MCfg.traits {}) op a := by
          intro op hop a
          simp only [ops, List.mem_append, List.mem_map] at hop
          rcases hop with ⟨i, _, rfl⟩ | ⟨i, _, rfl⟩ <;> trivial
        have gen : ∀ (l : List (Op Nat Nat)) a, (∀ op ∈ l, ∀ a, Spec.Pre (MCfg.traits {}) op a) →
            Spec.PreAll (MCfg.traits {}) pairEq l a := by
          intro l
          induction l with
          | nil => intro _ _; trivial
          | cons o l ih => intro a hl; exact ⟨hl o (by simp) a, ih _ (fun q hq => hl q (by simp [hq]))⟩
        exact gen ops _ hall
      have := hc (p.1 0) ⟨pairEq, _, natEq, ops, p.1, p.2, 0, hlaw, hpre, hr, rfl⟩ 25 t' ht
      simp only [Option.map_some, Option.some.injEq] at h
      omega

/-- C10, the part that holds: after `reserve(n)`, for every n (float32 rounding included), the bucket count is large enough for
an un-drifted maximum load of n, and `max_load() >= n` unless `reserve` left alone a container whose maximum load had been
lowered by earlier erasures. Missing from the full claim: exactly that drifted case. -/
theorem C10_reserve_partial (c : MCfg) (t : Table K V) (h : Reachable c t) (n : Nat) :
    ∃ t', t.reserve c.toCfg n = some t' ∧ n ≤ Table.initMl t'.arr ∧ n ≤ t'.capacity ∧
      (t' ≠ t ∨ t.ml = Table.initMl t.arr → n ≤ t'.ml) := by
  obtain ⟨t', h1, h2, _, _, _, h6, h7⟩ := reserve_spec' c.toCfg h.inv n
  refine ⟨t', h1, h7, h7.trans (initMl_le _), ?_⟩
  intro hor
  rcases h6 with rfl | h6
  · rcases hor with hor | hor
    · exact absurd rfl hor
    · rw [hor]; exact h7
  · rw [h6]; exact h7

theorem insertRange_stays (cfg : Cfg) : ∀ (xs : List (K × V)) (t : Table K V), t.Inv → t.size + xs.length ≤ t.ml →
    ∃ t', Table.insertRange cfg xs t = some t' ∧ t'.Inv ∧ t'.arr.k = t.arr.k ∧ t'.arr.hasElems = t.arr.hasElems ∧
      t'.ml = t.ml ∧ ∀ g j y, t.arr.slot g j = some y → t'.arr.slot g j = some y := by
  intro xs
  induction xs with
  | nil => intro t hi _; exact ⟨t, rfl, hi, rfl, rfl, rfl, fun _ _ _ h => h⟩
  | cons x xs ih =>
    intro t hi hlen
    simp only [List.length_cons] at hlen
    rcases emplaceImpl_spec cfg hi x with ⟨g, j, y, h1, _, _, _⟩ | ⟨t', g, j, h1, h2, _, _, _, _, h7, h8, _⟩
    · obtain ⟨t2, e1, e2⟩ := ih t hi (by omega)
      exact ⟨t2, by unfold Table.insertRange; rw [h1]; exact e1, e2⟩
    · obtain ⟨m1, m2, m3, hp⟩ := h8 (by omega)
      have hs : t'.size = t.size + 1 := by rw [h2.size, h7.length_eq, hi.size]; simp
      obtain ⟨t2, e1, e2, e3, e4, e5, e6⟩ := ih t' h2 (by omega)
      refine ⟨t2, by unfold Table.insertRange; rw [h1]; exact e1, e2, e3.trans m2, e4.trans m3, e5.trans m1, ?_⟩
      intro i l y hy
      apply e6
      rw [hp.slot, if_neg]
      · exact hy
      · rintro ⟨rfl, rfl⟩; rw [hp.free] at hy; cases hy

/-- C10 for a container that has not been erased from since it was constructed, cleared or rehashed (here: a freshly
constructed one of any initial capacity): after `reserve(n)`, inserting any elements up to a total of n never reallocates
and leaves every element inserted before in its slot. -/
theorem C10_no_rehash_after_reserve (cfg : Cfg) (f : Fns K) (hf : f.Lawful) (al cap n : Nat) (xs ys : List (K × V))
    (hn : xs.length + ys.length ≤ n) :
    ∃ t0 t1 t2, (Table.mk_ cfg f al cap : Table K V).reserve cfg n = some t0 ∧ n ≤ t0.ml ∧
      Table.insertRange cfg xs t0 = some t1 ∧ Table.insertRange cfg ys t1 = some t2 ∧
      t1.capacity = t0.capacity ∧ t2.capacity = t0.capacity ∧
      ∀ g j y, t1.arr.slot g j = some y → t2.arr.slot g j = some y := by
  obtain ⟨t0, h1, h2, _, _, h5, h6⟩ := reserve_spec cfg (mk_inv (V := V) cfg hf al cap) n
  have hml := (h6 rfl).2
  rw [mk_contents] at h5
  have hs0 : t0.size = 0 := by rw [h2.size, h5.length_eq]; rfl
  obtain ⟨t1, a1, a2, a3, a4, a5, _⟩ := insertRange_stays cfg xs t0 h2 (by omega)
  have hs1 : t1.size ≤ xs.length := by
    have := insertRange_size cfg xs t0 h2 a1
    omega
  obtain ⟨t2, b1, b2, b3, b4, b5, b6⟩ := insertRange_stays cfg ys t1 a2 (by omega)
  refine ⟨t0, t1, t2, h1, hml, a1, b1, ?_, ?_, b6⟩
  · unfold Table.capacity Arrays.capacity; rw [a3, a4]
  · unfold Table.capacity Arrays.capacity; rw [b3, b4, a3, a4]
where
  insertRange_size (cfg : Cfg) : ∀ (xs : List (K × V)) (t : Table K V), t.Inv → ∀ {t' : Table K V},
      Table.insertRange cfg xs t = some t' → t'.size ≤ t.size + xs.length := by
    intro xs
    induction xs with
    | nil => intro t _ t' h; cases h; simp
    | cons x xs ih =>
      intro t hi t' h
      unfold Table.insertRange at h
      rcases emplaceImpl_spec cfg hi x with ⟨g, j, y, h1, _, _, _⟩ | ⟨t1, g, j, h1, h2, _, _, _, _, h7, _⟩
      · rw [h1] at h
        have := ih t hi h
        simp only [List.length_cons]; omega
      · rw [h1] at h
        have hs : t1.size = t.size + 1 := by rw [h2.size, h7.length_eq, hi.size]; simp
        have := ih t1 h2 h
        simp only [List.length_cons]; omega

example : (Fns.mk sampleHash natEq).Lawful ∧ [(1, 1), (2, 2)].length + [(3, 3)].length ≤ 100 :=
  ⟨lawful_iff sample_lawful, by decide⟩

/-! ### C11 -/

/-- C11. An insertion into a full container (`size() == max_load()`) of any size gets new arrays whose maximum load exceeds
the old size: it succeeds in one rehash, and the maximum load strictly grows. -/
theorem C11_growth_makes_room (c : MCfg) (t : Table K V) (h : Reachable c t) (x : K × V)
    (hnew : ∀ z ∈ t.contents, t.fns.eq x.1 z.1 = false) (hfull : ¬ t.size < t.ml) :
    ∃ t' p, t.emplaceImpl c.toCfg x = some (t', p, true) ∧ t'.size = t.size + 1 ∧ t.ml < t'.ml ∧
      t'.ml = initialMaxLoad t'.capacity ∧ t'.contents.Perm (x :: t.contents) := by
  have hi := h.inv
  rcases emplaceImpl_spec c.toCfg hi x with ⟨g, j, y, _, _, h3, h4⟩ | ⟨t', g, j, h1, h2, _, _, _, _, h7, _, h9⟩
  · rw [hnew y (hi.mem.mpr ⟨g, j, h3⟩)] at h4; cases h4
  · have hs : t'.size = t.size + 1 := by rw [h2.size, h7.length_eq, hi.size]; simp
    have := h2.size_le
    have := hi.size_le
    exact ⟨t', (g, j), h1, hs, by omega, h9 hfull, h7⟩

set_option maxRecDepth 100000 in
/-- a full reachable container -/
example : ((Foa.run {} pairEq ((List.range 29).map (fun i => Op.insert 0 (i, i)))
    (Foa.start {} sampleHash natEq)).map (fun r => ((r.1 0).size, (r.1 0).ml))) = some (29, 29) := by decide +kernel

/-! ### C12 -/

/-- C12. An insertion made while `size() < max_load()` leaves every element present in its slot, with its payload (for node
containers: its node address), and neither the capacity nor the arrays change. -/
theorem C12_insert_keeps_addresses (c : MCfg) (t : Table K V) (h : Reachable c t) (x : K × V) (hroom : t.size < t.ml) :
    ∃ t' p b, t.emplaceImpl c.toCfg x = some (t', p, b) ∧ t'.capacity = t.capacity ∧ t'.arr.al = t.arr.al ∧
      ∀ g j y, t.arr.slot g j = some y → t'.arr.slot g j = some y := by
  rcases emplaceImpl_spec c.toCfg h.inv x with ⟨g, j, y, h1, _, _, _⟩ | ⟨t', g, j, h1, h2, _, _, _, _, h7, h8, _⟩
  · exact ⟨t, _, _, h1, rfl, rfl, fun _ _ _ hy => hy⟩
  · obtain ⟨_, m2, m3, hp⟩ := h8 hroom
    refine ⟨t', _, _, h1, by unfold Table.capacity Arrays.capacity; rw [m2, m3], hp.al, ?_⟩
    intro i l y hy
    rw [hp.slot, if_neg]
    · exact hy
    · rintro ⟨rfl, rfl⟩; rw [hp.free] at hy; cases hy

/-- C12 (rehash). `rehash(n)` keeps the multiset of stored elements; for node containers the stored payload contains the node's
address, so no node is copied, lost or duplicated. The bucket count afterwards is at least n. -/
theorem C12_rehash_keeps_nodes (c : MCfg) (t : Table K V) (h : Reachable c t) (n : Nat) :
    ∃ t' l', t.rehash c.toCfg n = some t' ∧ t'.opIterate c.regular = some (.list l') ∧ l'.Perm t.contents ∧
      n ≤ t'.capacity := by
  obtain ⟨t', h1, h2, _, _, h5, _, h7⟩ := rehash_spec c.toCfg h.inv n
  exact ⟨t', t'.contents, h1, opIterate_eq h2 _, h5, h7⟩

/-! ### C36 -/

/-- C36. After every program, with every combination of propagation traits, the memory a container holds was obtained from an
allocator equal to its current one, so destroying it deallocates correctly; and (part of C01) no deallocation performed
along the way used a foreign allocator, since that would have been a fault. -/
theorem C36_memory_matches_allocator (c : MCfg) (t : Table K V) (h : Reachable c t) :
    (t.arr.hasElems = true → t.arr.al = t.al) ∧ t.destroy = some () :=
  ⟨h.inv.al, h.inv.delete_⟩

/-- a program that moves memory between allocators: POCMA with unequal allocators -/
example : ((Foa.run { pocma := true } pairEq
    [.construct 0 sampleHash natEq 1 10, .construct 1 sampleHash natEq 2 10, .insert 0 (1, 1), .insert 1 (2, 2),
     .moveAssign 0 1] (Foa.start { pocma := true } sampleHash natEq)).map (fun r => ((r.1 0).al, (r.1 0).arr.al, (r.1 0).size)))
    = some (2, 2, 1) := by decide +kernel

/-! ### C37 -/

/-- C37 (erase). Erasing an element lowers max_load by one exactly if the overflow bit of the element's hash class is set in
its group, and otherwise leaves it unchanged. -/
theorem C37_erase_max_load (c : MCfg) (t : Table K V) (h : Reachable c t) (g j : Nat) (x : K × V)
    (hx : t.arr.slot g j = some x) :
    ∃ t', t.eraseAt (g, j) = some t' ∧
      t'.ml = t.ml - (if (t.arr.grp g).ofw.testBit (t.fns.hash x.1 % 8) then 1 else 0) := by
  obtain ⟨t', h1, _, _, _, _, _, _, _, _, h10⟩ := eraseAt_spec h.inv hx
  refine ⟨t', h1, ?_⟩
  rw [h10]
  have hm : (t.arr.grp g).md j = rhash (t.fns.hash x.1) := by
    rcases h.inv.arr with ⟨_, hl⟩ | ⟨_, hd⟩
    · exact (hl.slot_valid hx).2
    · rw [hd.slot] at hx; cases hx
  unfold Group.maybeCausedOverflow Group.isNotOverflowed
  rw [hm, rhash_mod8]
  simp

/-- C37 (insert). An insertion below the maximum load does not change it; one at the maximum load resets it to the initial value
for the new capacity, which is larger than before. -/
theorem C37_insert_max_load (c : MCfg) (t : Table K V) (h : Reachable c t) (x : K × V) :
    ∃ t' p b, t.emplaceImpl c.toCfg x = some (t', p, b) ∧
      (t'.ml = t.ml ∨ (t.size = t.ml ∧ t'.ml = initialMaxLoad t'.capacity ∧ t.ml < t'.ml)) := by
  have hi := h.inv
  rcases emplaceImpl_spec c.toCfg hi x with ⟨g, j, y, h1, _, _, _⟩ | ⟨t', g, j, h1, h2, _, _, _, _, h7, h8, h9⟩
  · exact ⟨t, _, _, h1, Or.inl rfl⟩
  · refine ⟨t', _, _, h1, ?_⟩
    by_cases hr : t.size < t.ml
    · exact Or.inl (h8 hr).1
    · have hs : t'.size = t.size + 1 := by rw [h2.size, h7.length_eq, hi.size]; simp
      have := h2.size_le
      have := hi.size_le
      exact Or.inr ⟨by omega, h9 hr, by omega⟩

/-- C37 (clear, rehash). `clear` and an actual rehash restore the initial maximum load of the capacity. -/
theorem C37_clear_rehash_max_load (c : MCfg) (t : Table K V) (h : Reachable c t) (n : Nat) :
    t.clear.ml = initialMaxLoad t.clear.capacity ∧
    ∃ t', t.rehash c.toCfg n = some t' ∧ (t' = t ∨ t'.ml = initialMaxLoad t'.capacity) := by
  obtain ⟨_, _, _, _, c5, c6, c7, _⟩ := clear_spec h.inv
  obtain ⟨t', h1, _, _, _, _, h6, _⟩ := rehash_spec c.toCfg h.inv n
  refine ⟨?_, t', h1, h6⟩
  rw [c7]
  unfold Table.initMl Table.capacity Arrays.capacity
  rw [c5, c6]


/-- Insert/erase traffic on one container: `inl x` inserts x, `inr k` erases key k. Returns the container, the number of
erasures that lowered the maximum load, and the number of insertions that had to rehash. -/
def traffic (cfg : Cfg) : List ((K × V) ⊕ K) → Table K V → Option (Table K V × Nat × Nat)
  | [], t => some (t, 0, 0)
  | .inl x :: l, t =>
    match t.emplaceImpl cfg x with
    | none => none
    | some (t', _, b) =>
      (traffic cfg l t').map (fun r => (r.1, r.2.1, r.2.2 + if b = true ∧ ¬ t.size < t.ml then 1 else 0))
  | .inr k :: l, t =>
    match t.eraseKey k with
    | none => none
    | some (t', _) => (traffic cfg l t').map (fun r => (r.1, r.2.1 + (t.ml - t'.ml), r.2.2))

/-- C37 (drift is bounded). In any insert/erase traffic without a rehash, the erasures that may leave stale overflow marks are
counted exactly by the drop of max_load; so after at most max_load() of them an insertion must rehash (which wipes all
marks): either a rehash happens or their number is at most the initial max_load minus the final size. -/
theorem C37_drift_bounded (c : MCfg) (t : Table K V) (h : Reachable c t) (l : List ((K × V) ⊕ K)) :
    ∃ t' d n, traffic c.toCfg l t = some (t', d, n) ∧ (n = 0 → t'.ml + d = t.ml ∧ d + t'.size ≤ t.ml) := by
  have key : ∀ (l : List ((K × V) ⊕ K)) (t : Table K V), t.Inv →
      ∃ t' d n, traffic c.toCfg l t = some (t', d, n) ∧ t'.Inv ∧ (n = 0 → t'.ml + d = t.ml) := by
    intro l
    induction l with
    | nil => intro t hi; exact ⟨t, 0, 0, rfl, hi, fun _ => rfl⟩
    | cons a l ih =>
      intro t hi
      cases a with
      | inl x =>
        rcases emplaceImpl_spec c.toCfg hi x with ⟨g, j, y, h1, _, _, _⟩ | ⟨t1, g, j, h1, h2, _, _, _, _, h7, h8, h9⟩
        · obtain ⟨t', d, n, e1, e2, e3⟩ := ih t hi
          exact ⟨t', d, n, by simp [traffic, h1, e1], e2, e3⟩
        · obtain ⟨t', d, n, e1, e2, e3⟩ := ih t1 h2
          refine ⟨t', d, _, by simp only [traffic, h1, e1, Option.map_some]; rfl, e2, ?_⟩
          intro hn
          by_cases hr : t.size < t.ml
          · rw [← (h8 hr).1]; exact e3 (by omega)
          · simp [hr] at hn
      | inr k =>
        rcases hi.find_spec k with ⟨g, j, y, h1, h2, _⟩ | ⟨h1, _⟩
        · obtain ⟨t1, a1, a2, _, _, _, _, _, _, a9, a10⟩ := eraseAt_spec hi h2
          obtain ⟨t', d, n, e1, e2, e3⟩ := ih t1 a2
          have hs : t.size = t1.size + 1 := by rw [hi.size, a9.length_eq, a2.size]; simp
          have := hi.size_le
          refine ⟨t', d + (t.ml - t1.ml), n, by simp [traffic, Table.eraseKey, h1, a1, e1], e2, ?_⟩
          intro hn
          have := e3 hn
          rw [a10] at *
          split <;> (simp_all; try omega)
        · obtain ⟨t', d, n, e1, e2, e3⟩ := ih t hi
          exact ⟨t', d, n, by simp [traffic, Table.eraseKey, h1, e1], e2, e3⟩
  obtain ⟨t', d, n, h1, h2, h3⟩ := key l t h.inv
  refine ⟨t', d, n, h1, fun hn => ?_⟩
  have := h3 hn
  have := h2.size_le
  omega

end Props

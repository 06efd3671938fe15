/-
Property theorems C62: pointers, references and iterators to elements of the open-addressing containers (flat and node).
-/
import Verif.Foa.AddrStep
import Verif.Props.Memory

namespace Props.AddrO
open Foa SpecAddrO
open Spec (Op Res)
variable {K V : Type}

theorem cells_of_slot {t : HTable K V} (hi : t.t.Inv) {g j : Nat} {x : K × V} (h : t.t.arr.slot g j = some x) :
    t.t.arr.hasElems = true := by
  rcases hi.arr with ⟨he, _⟩ | ⟨_, hd⟩
  · exact he
  · rw [hd.slot] at h; cases h

/-- C62, flat containers. Any program over `R` containers followed by any call that respects the preconditions (with C36: both run).
* Before the call every element of every container has an address, and distinct elements have distinct addresses - two elements, of one
  or of two containers, at the same address are one and the same.
* Every element the call does not destroy (`Destroyed`), if the call is one that does not move it (`Steady`), is after the call at the
  address it had, in its container or the one it was handed to (`InHome`), with its value, or the one `insert_or_assign` gave it. -/
theorem C62_flat_addresses_stay (c : MCfg) (veq : K × V → K × V → Bool) (hs : K → Nat) (e : K → K → Bool)
    (hl : Spec.Lawful hs e) (R : Nat) (ops : List (Op K V)) (op : Op K V) (hv : ∀ op' ∈ op :: ops, ∀ r ∈ opVars op', r < R)
    (hp : Spec.PreAll c.traits veq ops (Spec.start e))
    (hp' : Spec.Pre c.traits op (Spec.run c.traits veq ops (Spec.start e)).1) :
    ∃ s outs S o, hrun c veq ops (hstart c hs e R) = some (s, outs) ∧ hstep c veq s op = some (S, o) ∧
      (∀ r x, x ∈ (s.1 r).t.contents ↔ ∃ ad, (s.1 r).At ad x) ∧
      (∀ r < R, ∀ q < R, ∀ ad x y, (s.1 r).At ad x → (s.1 q).At ad y → r = q ∧ x = y) ∧
      ∀ r ad x, (s.1 r).At ad x → ¬ Destroyed s.obs r x op → Steady c.traits s.obs S.obs r x op →
        ∃ q, InHome s.obs r x q op ∧ (S.1 q).At ad (assigned s.obs r x op) := by
  obtain ⟨h1, h2⟩ := hstart_own (K := K) (V := V) c hs e R
  have hrs : RS (hstart c hs e R : HState K V).tables (Spec.start e) := by rw [h1]; exact start_related c hl
  obtain ⟨s', outs, e1, e2, e3⟩ := run_refines c veq ops _ _ hrs hp
  obtain ⟨s, f1, f2, f3⟩ := hrun_own c veq ops _ _ _ _ h2 (fun o ho => hv o (List.mem_cons_of_mem _ ho)) hrs hp e1
  have hrs2 : RS s.tables (Spec.run c.traits veq ops (Spec.start e)).1 := by rw [f2]; exact e3
  obtain ⟨s2, o, g1, _, g3⟩ := step_refines c veq hrs2 op hp'
  obtain ⟨S, k1, k2, _⟩ := hstep_own c veq f3 op (hv op (List.mem_cons_self ..)) _ hp' g1
  have hinv : ∀ r, (s.1 r).t.Inv := fun r => (hrs2 r).inv
  refine ⟨s, outs, S, o, f1, k1, ?_, ?_, ?_⟩
  · intro r x
    rw [(hinv r).mem]
    constructor
    · rintro ⟨g, j, h⟩
      exact ⟨((s.1 r).id, (g, j)), rfl, h⟩
    · rintro ⟨ad, h⟩
      exact ⟨_, _, h.2⟩
  · intro r hr q hq ad x y hx hy
    have hid : (s.1 q).id = (s.1 r).id := hy.1.trans hx.1.symm
    have hxe := cells_of_slot (hinv r) hx.2
    have hye := cells_of_slot (hinv q) hy.2
    have hrq : r = q := by
      by_contra hne
      have hsp := (f3.split2 hq hr (fun h => hne h.symm)).perm
      have hnd2 := (hsp.map Prod.fst).nodup_iff.1 f3.ok.nodup
      unfold HTable.cells cell at hnd2
      rw [if_pos hxe, if_pos hye] at hnd2
      simp [hid] at hnd2
    subst hrq
    have := hx.2.symm.trans hy.2
    exact ⟨rfl, Option.some.inj this⟩
  · intro r ad x hx hnd hst
    exact hstep_addr c veq hrs2 op hp' k1 (by rw [k2]; exact g3) hx hnd hst

theorem emplaceIntoNew_id {cfg : Cfg} {t t' : HTable K V} {x : K × V} {n : Nat} {p : Pos} {h h' : Heap}
    (he : t.emplaceIntoNew cfg x n h = some ((t', p), h')) : t'.id = h.next ∨ t'.id = 0 := by
  unfold HTable.emplaceIntoNew at he
  have hn : (newH cfg t.t.al n h : (Arrays K V × Nat) × Heap).1.2 = h.next ∨
      (newH cfg t.t.al n h : (Arrays K V × Nat) × Heap).1.2 = 0 := by
    unfold newH; dsimp only; split
    · exact Or.inl rfl
    · exact Or.inr rfl
  generalize (newH cfg t.t.al n h : (Arrays K V × Nat) × Heap) = w at he hn
  dsimp only at he
  split at he
  · cases he
  · rename_i a q _
    cases hu : t.uncheckedRehash a w.1.2 w.2 with
    | none => rw [hu] at he; cases he
    | some u =>
      rw [hu] at he
      have he := (Prod.mk.inj (Prod.mk.inj (Option.some.inj he)).1).1
      have hid : u.1.id = w.1.2 := by
        unfold HTable.uncheckedRehash at hu
        split at hu
        · cases hu
        · split at hu
          · cases hu
          · have := Option.some.inj hu
            rw [← this]
      rw [← he]
      show u.1.id = _ ∨ u.1.id = _
      rw [hid]; exact hn

/-- C62, the other side: an insertion of a new key into a flat container whose size has reached `max_load()` leaves no element at its
address - pointers, references and iterators are all invalid after it. -/
theorem C62_growth_moves_everything (c : MCfg) (veq : K × V → K × V → Bool) (hs : K → Nat) (e : K → K → Bool)
    (hl : Spec.Lawful hs e) (R : Nat) (ops : List (Op K V)) (r : Nat) (x : K × V) (hr : r < R)
    (hv : ∀ op' ∈ ops, ∀ r ∈ opVars op', r < R) (hp : Spec.PreAll c.traits veq ops (Spec.start e)) :
    ∃ s outs S o, hrun c veq ops (hstart c hs e R) = some (s, outs) ∧ hstep c veq s (.insert r x) = some (S, o) ∧
      (¬ (s.obs r).has x.1 → (s.obs r).size = (s.obs r).maxLoad →
        ∀ ad y, (s.1 r).At ad y → (∃ ad', (S.1 r).At ad' y) ∧ ∀ q z, ¬ (S.1 r).At (ad.1, q) z) := by
  obtain ⟨h1, h2⟩ := hstart_own (K := K) (V := V) c hs e R
  have hrs : RS (hstart c hs e R : HState K V).tables (Spec.start e) := by rw [h1]; exact start_related c hl
  obtain ⟨s', outs, e1, e2, e3⟩ := run_refines c veq ops _ _ hrs hp
  obtain ⟨s, f1, f2, f3⟩ := hrun_own c veq ops _ _ _ _ h2 hv hrs hp e1
  have hrs2 : RS s.tables (Spec.run c.traits veq ops (Spec.start e)).1 := by rw [f2]; exact e3
  obtain ⟨s2, o, g1, _, g3⟩ := step_refines c veq hrs2 (.insert r x) trivial
  obtain ⟨S, k1, k2, _⟩ := hstep_own c veq f3 (.insert r x) (by simpa [opVars] using hr)
    (Spec.run c.traits veq ops (Spec.start e)).1 trivial g1
  have hrs3 : RS S.tables (Spec.step c.traits veq (.insert r x) (Spec.run c.traits veq ops (Spec.start e)).1).1 := by
    rw [k2]; exact g3
  have hinv : ∀ r, (s.1 r).t.Inv := fun r => (hrs2 r).inv
  refine ⟨s, outs, S, o, f1, k1, ?_⟩
  intro hno hfull ad y hy
  have hold : 0 < (s.1 r).id ∧ (s.1 r).id < s.2.next := by
    have hm : ((s.1 r).id, (s.1 r).t.arr.al, (s.1 r).t.arr.k) ∈ s.2.blocks := by
      refine f3.perm.symm.subset (List.mem_flatMap.2 ⟨r, List.mem_range.2 hr, ?_⟩)
      unfold HTable.cells cell
      rw [if_pos (cells_of_slot (hinv r) hy.2)]; simp
    exact ⟨f3.ok.pos _ hm, f3.ok.lt _ hm⟩
  have hnew : (S.1 r).id = s.2.next ∨ (S.1 r).id = 0 := by
    simp only [hstep] at k1
    obtain ⟨hp2, ht⟩ := hon1_same k1
    unfold HTable.opInsert at ht
    cases e1 : (s.1 r).emplaceImpl c.toCfg x s.2 with
    | none => rw [e1] at ht; cases ht
    | some w =>
      obtain ⟨⟨t1, p, b⟩, h1⟩ := w
      rw [e1] at ht
      dsimp only at ht
      cases hd : t1.t.deref p with
      | none => rw [hd] at ht; cases ht
      | some e =>
        rw [hd] at ht
        have ht := (Prod.mk.inj (Prod.mk.inj (Option.some.inj ht)).1).1
        rw [← ht]
        unfold HTable.emplaceImpl at e1
        rcases (hinv r).find_spec x.1 with ⟨g, j, y', q1, q2, q3⟩ | ⟨q1, _⟩
        · exact absurd ⟨y', (hinv r).mem.2 ⟨_, _, q2⟩, q3⟩ hno
        · rw [q1] at e1
          dsimp only at e1
          have hf : (s.1 r).t.size = (s.1 r).t.ml := hfull
          rw [if_neg (by omega)] at e1
          cases hw : (s.1 r).emplaceWithRehash c.toCfg x s.2 with
          | none => rw [hw] at e1; cases e1
          | some w =>
            rw [hw] at e1
            have e1 := (Prod.mk.inj (Prod.mk.inj (Option.some.inj e1)).1).1
            rw [← e1]
            unfold HTable.emplaceWithRehash at hw
            exact emplaceIntoNew_id (t' := w.1.1) (p := w.1.2) (h' := w.2) hw
  constructor
  · have hym : y ∈ (s.1 r).t.contents := (hinv r).mem.2 ⟨_, _, hy.2⟩
    have h1 := (hrs2 r).elems.subset hym
    have h2 : y ∈ ((Spec.step c.traits veq (.insert r x) (Spec.run c.traits veq ops (Spec.start e)).1).1 r).elems := by
      simpa [Spec.step, Spec.upd] using insert_keeps h1
    obtain ⟨g, j, h3⟩ := (hrs3 r).inv.mem.1 ((hrs3 r).elems.symm.subset h2)
    exact ⟨((S.1 r).id, (g, j)), rfl, h3⟩
  · intro q z hz
    have h1 : (S.1 r).id = ad.1 := hz.1
    have h2 : (s.1 r).id = ad.1 := hy.1
    omega

/-- Hash and equality of keys that carry the address of their node. -/
def onKey (hs : K → Nat) : K × Nat → Nat := fun k => hs k.1
def eqKey (e : K → K → Bool) : K × Nat → K × Nat → Bool := fun a b => e a.1 b.1

theorem onKey_lawful {hs : K → Nat} {e : K → K → Bool} (h : Spec.Lawful hs e) : Spec.Lawful (onKey hs) (eqKey e) :=
  ⟨fun _ => h.hash_lt _, fun _ => h.refl _, fun _ _ => h.symm _ _, fun _ _ _ => h.trans _ _ _, fun _ _ => h.compat _ _⟩

/-- C62, node containers. Elements are `((key, address of the node), value)`. After any program, a call that hands nodes over (`Handed`)
keeps every element it does not destroy in its node - whatever it does to the table: growth, `rehash`, `reserve`, insertions of any
number of elements -, in its container or the one that took it; only `insert_or_assign` changes the mapped value in it. -/
theorem C62_node_addresses_stay (c : MCfg) (veq : (K × Nat) × V → (K × Nat) × V → Bool) (hs : K → Nat) (e : K → K → Bool)
    (hl : Spec.Lawful hs e) (ops : List (Op (K × Nat) V)) (op : Op (K × Nat) V)
    (hp : Spec.PreAll c.traits veq ops (Spec.start (eqKey e)))
    (hp' : Spec.Pre c.traits op (Spec.run c.traits veq ops (Spec.start (eqKey e))).1) :
    ∃ s outs S o, run c veq ops (start c (onKey hs) (eqKey e)) = some (s, outs) ∧ step c veq s op = some (S, o) ∧
      (Handed c.traits (fun r => (s r).obs) op → ∀ r k n v, ((k, n), v) ∈ (s r).contents →
        ¬ Destroyed (fun r => (s r).obs) r ((k, n), v) op →
        ∃ q, InHome (fun r => (s r).obs) r ((k, n), v) q op ∧ ∃ w, ((k, n), w) ∈ (S q).contents ∧
          ((k, n), w) = assigned (fun r => (s r).obs) r ((k, n), v) op) := by
  obtain ⟨s, outs, e1, _, e3⟩ := run_refines c veq ops _ _ (start_related (K := K × Nat) (V := V) c (onKey_lawful hl)) hp
  obtain ⟨S, o, g1, _, g3⟩ := step_refines c veq e3 op hp'
  refine ⟨s, outs, S, o, e1, g1, fun _ => ?_⟩
  intro r k n v hx hnd
  have hxm := (e3 r).elems.subset hx
  obtain ⟨q, hq, hm⟩ := spec_fate c.traits veq (fun r => (s r).obs) _ (fun i => (e3 i).eq) (fun i k => obs_has (e3 i) k) op hp' hxm hnd
  have hm := (g3 q).elems.symm.subset hm
  refine ⟨q, hq, ?_⟩
  have : ∃ w, assigned (fun r => (s r).obs) r ((k, n), v) op = ((k, n), w) := by
    cases op <;> simp only [assigned] <;> first | exact ⟨v, rfl⟩ | (split <;> exact ⟨_, rfl⟩)
  obtain ⟨w, hw⟩ := this
  rw [hw] at hm
  exact ⟨w, hm, hw.symm⟩

/-! ### examples -/

/-- address of the element with key `k` of container `r` -/
def addressOf (s : HState Nat Nat) (r k : Nat) : Option (Nat × Pos) :=
  match (s.1 r).t.find k with
  | some (some p) => some ((s.1 r).id, p)
  | _ => none

/-- that address after a program over three containers -/
def after (l : List (Op Nat Nat)) (r k : Nat) : Option (Nat × Pos) :=
  (hrun { pocma := true } pairEq l (hstart { pocma := true } sampleHash natEq 3)).bind (fun s => addressOf s.1 r k)

def addrProgram : List (Op Nat Nat) := [.insert 0 (1, 1), .insert 0 (2, 2), .insert 1 (2, 5), .insert 1 (3, 3)]

set_option maxRecDepth 100000 in
/-- Insertion, erasure of another key, assignment and `rehash` to fewer slots leave the element with key 2 where it was; `swap` and move
assignment hand it over; `merge` takes the element with key 3 to a new address and leaves the one with key 2. -/
example : after addrProgram 0 2 = some (1, 1, 0) ∧
    after (addrProgram ++ [.insert 0 (4, 4), .erase 0 1, .insertOrAssign 0 2 9, .rehash 0 3]) 0 2 = some (1, 1, 0) ∧
    after (addrProgram ++ [.swap 0 1]) 1 2 = some (1, 1, 0) ∧ after (addrProgram ++ [.moveAssign 1 0]) 1 2 = some (1, 1, 0) ∧
    after addrProgram 1 3 = some (2, 0, 0) ∧ after (addrProgram ++ [.merge 0 1]) 0 3 = some (1, 0, 1) ∧
    after (addrProgram ++ [.merge 0 1]) 1 2 = some (2, 1, 0) := by
  decide +kernel

set_option maxRecDepth 100000 in
/-- `rehash` to a larger bucket count moves the elements. -/
example : after (addrProgram ++ [.rehash 0 100]) 0 2 = some (3, 4, 0) := by decide +kernel

/-- The program meets the hypotheses of `C62_flat_addresses_stay` with three containers, for `merge`, say. -/
example : (∀ op ∈ Op.merge 0 1 :: addrProgram, ∀ r ∈ opVars op, r < 3) ∧
    Spec.PreAll (MCfg.traits { pocma := true }) pairEq addrProgram (Spec.start natEq) ∧
    Spec.Pre (MCfg.traits { pocma := true }) (Op.merge 0 1)
      (Spec.run (MCfg.traits { pocma := true }) pairEq addrProgram (Spec.start natEq)).1 :=
  ⟨by decide, ⟨trivial, trivial, trivial, trivial, trivial⟩, rfl⟩

/-- The container whose size is at its maximum load: as many elements as the first block takes. -/
def fullProgram (n : Nat) : List (Op Nat Nat) := [.insertRange 0 ((List.range n).map (fun i => (i, i)))]

set_option maxRecDepth 100000 in
/-- The hypotheses of `C62_growth_moves_everything` are met after filling a container; the next insertion moves the element with key 2. -/
example : (hrun { } pairEq (fullProgram 29) (hstart { } sampleHash natEq 1)).map
      (fun s => decide ((s.1.1 0).t.size = (s.1.1 0).t.ml)) = some true ∧
    after (fullProgram 29) 0 2 ≠ none ∧ after (fullProgram 29 ++ [.insert 0 (100, 0)]) 0 2 ≠ after (fullProgram 29) 0 2 := by
  decide +kernel

/-- Nodes: the payload of the keys is the node's address; a program with growth, `merge` and assignment. -/
def nodeAddrProgram : List (Op (Nat × Nat) Nat) :=
  [.insert 0 ((1, 101), 1), .insert 0 ((2, 102), 2), .insert 1 ((3, 103), 3), .merge 0 1, .insertOrAssign 0 (2, 999) 7]

def sampleNodeEq : (Nat × Nat) × Nat → (Nat × Nat) × Nat → Bool := fun a b => a == b

set_option maxRecDepth 100000 in
/-- After growth all three elements are in their nodes; the assignment did not replace the node of key 2. -/
example : ((run { } sampleNodeEq (nodeAddrProgram ++ [.rehash 0 100]) (start { } (onKey sampleHash) (eqKey natEq))).map
    (fun s => [((1, 101), 1), ((2, 102), 7), ((3, 103), 3)].all (fun x => (s.1 0).contents.contains x))) = some true := by
  decide +kernel

example : Spec.PreAll (MCfg.traits { }) sampleNodeEq nodeAddrProgram (Spec.start (eqKey natEq)) :=
  ⟨trivial, trivial, trivial, rfl, trivial, trivial⟩

end Props.AddrO

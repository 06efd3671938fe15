/-
Property theorems C67: the load interface of the open-addressing containers (`load_factor()`, `max_load_factor()`, `max_load()`,
`bucket_count()`, `rehash`), sequential and concurrent, as documented
(/repo/doc/modules/ROOT/pages/reference/unordered_flat_map.adoc:362-366, 1294, 1447-1500).

A binary32 number is represented by its value times 2^149, so `mlf = 7*2^146` is 0.875.
-/
import Verif.Props.FoaMap
import Verif.Props.ConcTable
import Verif.Props.ConcWeak
import Verif.Foa.LoadIface

namespace Props.FoaLoad
open Foa F32
open Spec (Op)
open Conc.Tab (SInv State Mem)
variable {K V : Type}

/-- The numbers of buckets a container can have: none, or `15*2^k - 1`. -/
def Available (b : Nat) : Prop := b = 0 ∨ ∃ k, 1 ≤ k ∧ b = 15 * 2 ^ k - 1

theorem capOf_eq (k : Nat) : capOf k = 15 * 2 ^ k - 1 := by unfold capOf N; omega

/-- **C67.** `bucket_count()` of every container a program can produce is 0 or one less than 15 times a power of two. -/
theorem C67_bucket_counts (c : MCfg) (t : Table K V) (h : Props.Reachable c t) : Available t.capacity := by
  unfold Table.capacity Arrays.capacity
  rcases h.inv.arr with ⟨he, hl⟩ | ⟨he, _⟩
  · rw [if_pos he]; exact .inr ⟨_, hl.kpos, capOf_eq _⟩
  · rw [he]; exact .inl rfl

/-- **C67.** In every container a program can produce, `load_factor()`, as computed in single precision, is at most
`max_load_factor()`, unless there are at most 29 buckets ("small sizes"); and the exact ratio is at most 7/8 of one bucket
more. -/
theorem C67_load_factor (c : MCfg) (t : Table K V) (h : Props.Reachable c t) (hbig : 29 < t.capacity) :
    t.loadFactor ≤ mlf ∧ 8 * t.size ≤ 7 * (t.capacity + 1) := by
  have hs : t.size ≤ Table.initMl t.arr := h.inv.size_le.trans h.inv.ml_init
  obtain ⟨h1, h2⟩ := initMl_load hbig hs
  unfold Table.loadFactor
  have h0 : t.capacity ≠ 0 := by omega
  rw [if_neg h0]
  exact ⟨h1, h2⟩

/-- a container with 36 elements in 119 buckets -/
example : ∃ t : Table Nat Nat, Props.Reachable {} t ∧ 29 < t.capacity ∧ t.size = 36 := by
  have h := sample_run
  cases hr : Foa.run {} pairEq sample (Foa.start {} sampleHash natEq) with
  | none => rw [hr] at h; cases h
  | some p =>
    rw [hr] at h
    simp only [Option.map_some, Option.some.injEq, Prod.mk.injEq] at h
    exact ⟨p.1 2, ⟨pairEq, sampleHash, natEq, sample, p.1, p.2, 2, sample_lawful, sample_pre, hr, rfl⟩, by omega, h.2.2.1⟩

/-- The same for the concurrent containers, at every moment of every interleaving of any number of threads. -/
theorem C67_concurrent_load_factor {cfg : Cfg} {f : Fns K} (hf : f.Lawful) {al n : Nat} {s : State K V}
    (h : Conc.Tab.Reach cfg f al n s) (hbig : 29 < s.mem.tab.capacity) :
    s.mem.tab.concLoadFactor ≤ mlf ∧ s.mem.tab.ml ≤ Table.initMl s.mem.tab.arr := by
  obtain ⟨L, hL⟩ := (h.inv hf).acct
  have hml : s.mem.tab.ml ≤ Table.initMl s.mem.tab.arr := by have := hL.cap; omega
  obtain ⟨h1, _⟩ := initMl_load hbig ((min_le_right s.mem.tab.size _).trans hml)
  unfold Table.concLoadFactor
  have h0 : s.mem.tab.capacity ≠ 0 := by omega
  rw [if_neg h0]
  exact ⟨h1, hml⟩

/-- And under the acquire/release memory model of the counters (`Conc/Weak`). -/
theorem C67_weak_load_factor {cfg : Cfg} {f : Fns K} (hf : f.Lawful) {al n : Nat} {w : Conc.Weak.WState K V}
    (h : Conc.Weak.WReach cfg f al n w) (hbig : 29 < w.mem.tab.capacity) :
    w.mem.tab.concLoadFactor ≤ mlf ∧ w.mem.tab.ml ≤ Table.initMl w.mem.tab.arr := by
  obtain ⟨L, hL⟩ := (h.inv hf).b.base.acct
  have h3 : w.mem.tab.ml + Conc.Tab.pend L ≤ Table.initMl w.mem.tab.arr := hL.cap
  have hml : w.mem.tab.ml ≤ Table.initMl w.mem.tab.arr := by omega
  obtain ⟨h1, _⟩ := initMl_load hbig ((min_le_right w.mem.tab.size _).trans hml)
  unfold Table.concLoadFactor
  have h0 : w.mem.tab.capacity ≠ 0 := by omega
  rw [if_neg h0]
  exact ⟨h1, hml⟩

/-- A fresh concurrent container with 59 buckets. -/
example : (Props.ConcTable.exF).Lawful ∧ Conc.Tab.Reach (V := Nat) {} Props.ConcTable.exF 0 59 (Conc.Tab.init {} Props.ConcTable.exF 0 59) ∧
    29 < (Conc.Tab.init (V := Nat) {} Props.ConcTable.exF 0 59).mem.tab.capacity :=
  ⟨Props.ConcTable.exF_lawful, .init, by decide +kernel⟩

example : Conc.Weak.WReach (V := Nat) {} Props.ConcTable.exF 0 59 (Conc.Weak.WState.fresh (Conc.Tab.init {} Props.ConcTable.exF 0 59)) ∧
    29 < (Conc.Weak.WState.fresh (Conc.Tab.init (V := Nat) {} Props.ConcTable.exF 0 59)).mem.tab.capacity :=
  ⟨.init, by decide +kernel⟩

/-- **C67.** `rehash(n)`: afterwards `bucket_count() >= n` and the load factor is at most `max_load_factor()`, without the
exception for small sizes; the elements stay; and no available number of buckets smaller than the new one would do: it would be
less than `n` or less than `ceil(size()/max_load_factor())` (so `rehash` shrinks as well as it grows). With nothing in the
container `rehash(0)` gives up the buckets (or, for fancy pointers, most of them). -/
theorem C67_rehash (c : MCfg) (t : Table K V) (h : Props.Reachable c t) (n : Nat) :
    ∃ t', t.rehash c.toCfg n = some t' ∧ t'.contents.Perm t.contents ∧ t'.size = t.size ∧
      n ≤ t'.capacity ∧ t'.loadFactor ≤ mlf ∧
      (0 < n ∨ 0 < t.size → ∀ b, Available b → b < t'.capacity → b < n ∨ b < slotsFor t.size) ∧
      (n = 0 → t.size = 0 → t'.capacity ≤ 29 ∧ (c.fancy = false → t'.capacity = 0)) := by
  obtain ⟨t', h1, h2, _, _, h5, _, h7, h8, h9⟩ := rehash_full c.toCfg h.inv n
  have hsz : t'.size = t.size := by rw [h2.size, h5.length_eq, ← h.inv.size]
  refine ⟨t', h1, h5, hsz, h7, ?_, ?_, ?_⟩
  · unfold Table.loadFactor
    by_cases hc0 : t'.capacity = 0
    · rw [if_pos hc0]; exact Nat.zero_le _
    rw [if_neg hc0]
    have hs : t'.size ≤ Table.initMl t'.arr := h2.size_le.trans h2.ml_init
    by_cases hbig : 29 < t'.capacity
    · exact (initMl_load hbig hs).1
    · have hle : t'.size ≤ t'.capacity := hs.trans (initMl_le _)
      have hk : t'.capacity = 29 := by
        rcases h2.arr with ⟨he, hl⟩ | ⟨he, _⟩
        · unfold Table.capacity Arrays.capacity at hbig ⊢
          rw [if_pos he] at hbig ⊢
          have := hl.kpos
          have : t'.arr.k < 2 := by
            by_contra hk
            have : 2 ^ 2 ≤ 2 ^ t'.arr.k := Nat.pow_le_pow_right (by norm_num) (by omega)
            rw [capOf_eq] at hbig
            omega
          have : t'.arr.k = 1 := by omega
          rw [this]; rfl
        · exfalso; apply hc0; unfold Table.capacity Arrays.capacity; rw [he]; rfl
      rw [hk] at hle ⊢
      have hsl : slotsFor t'.size ≤ 29 := by
        rcases Nat.eq_zero_or_pos t'.size with h0 | h0
        · rw [h0, slotsFor_zero]; omega
        · have := h8 (.inr (by omega))
          rw [hk] at this
          have := le_capacityFor (max n (slotsFor t.size))
          rw [hsz]
          omega
      generalize t'.size = s at hle hsl ⊢
      clear h9 h8 h7 hs
      have key : ∀ s ≤ 29, slotsFor s ≤ 29 → div (ofNat s) (ofNat 29) ≤ mlf := by decide +kernel
      exact key s hle hsl
  · intro hp b hb hlt
    rw [h8 hp] at hlt
    by_contra hcon
    have hcon : n ≤ b ∧ slotsFor t.size ≤ b := by omega
    rcases hb with rfl | ⟨k, hk, rfl⟩
    · rcases hp with hp | hp
      · omega
      · have := slotsFor_pos hp; omega
    · have := kFor_le (n := max n (slotsFor t.size)) hk (by
        have := Nat.two_pow_pos k
        omega)
      have := capOf_mono this
      unfold capacityFor at hlt
      rw [capOf_eq k] at this
      omega
  · intro hn hs
    have := h9 hn hs
    rw [this]
    refine ⟨by split <;> omega, fun hf => ?_⟩
    simp [show c.toCfg.fancy = false from hf]

example : ∃ t : Table Nat Nat, Props.Reachable {} t ∧ t.size = 36 := Props.sample_reachable

/-! ### max_load() -/

/-- The documented note on `max_load()`: "After construction, rehash or clearance, the container's maximum load is at least
`max_load_factor() * bucket_count()`" (exact arithmetic). -/
def MaxLoadClaim : Prop :=
  (∀ (f : Fns Nat), f.Lawful → ∀ n, 7 * (Table.mk_ {} f 0 n : Table Nat Nat).capacity ≤ 8 * (Table.mk_ {} f 0 n : Table Nat Nat).ml) ∧
  (∀ t : Table Nat Nat, Props.Reachable {} t → 7 * t.clear.capacity ≤ 8 * t.clear.ml) ∧
  (∀ t t' : Table Nat Nat, ∀ n, Props.Reachable {} t → t.rehash {} n = some t' → 7 * t'.capacity ≤ 8 * t'.ml)

/-- every key in one group -/
def h0 : Nat → Nat := fun _ => 0

theorem h0_lawful : Spec.Lawful h0 natEq := by
  refine ⟨?_, ?_, ?_, ?_, ?_⟩
  · intro k; unfold h0; omega
  · intro k; simp [natEq]
  · intro a b; simp [natEq]; intro h; exact h.symm
  · intro a b c; simp [natEq]; intro h1 h2; exact h1.trans h2
  · intro a b _; rfl

def exProg : List (Op Nat Nat) :=
  [.insertRange 0 ((List.range 29).map (fun i => (i, i))), .erase 0 0, .erase 0 1, .erase 0 2, .erase 0 3, .erase 0 4]

theorem exProg_pre : Spec.PreAll (V := Nat) ⟨false, false, false⟩ pairEq exProg (Spec.start natEq) :=
  ⟨trivial, trivial, trivial, trivial, trivial, trivial, trivial⟩

/-- the size, maximum load and number of buckets of variable 0 -/
def facts (r : Option ((Nat → Table Nat Nat) × List (Spec.Res Nat Nat))) : Option (Nat × Nat × Nat) :=
  r.map (fun r => ((r.1 0).size, (r.1 0).ml, (r.1 0).capacity))

/-- the same after `rehash(29)` -/
def factsRehash (r : Option ((Nat → Table Nat Nat) × List (Spec.Res Nat Nat))) : Option (Nat × Nat × Nat) :=
  r.bind (fun r => ((r.1 0).rehash {} 29).map (fun t => (t.size, t.ml, t.capacity)))

set_option maxRecDepth 100000 in
theorem exProg_run : facts (Foa.run {} pairEq exProg (Foa.start {} h0 natEq)) = some (24, 24, 29) ∧
    factsRehash (Foa.run {} pairEq exProg (Foa.start {} h0 natEq)) = some (24, 24, 29) := by
  decide +kernel

/-- Twenty-nine elements, of which five are erased: `max_load()` is 24, which is less than 7/8 of the 29 buckets; `rehash(29)`
finds 29 buckets and leaves everything as it is. -/
theorem rehash_keeps_low_max_load : ∃ t t' : Table Nat Nat, Props.Reachable {} t ∧ t.rehash {} 29 = some t' ∧
    t'.capacity = 29 ∧ t'.ml = 24 := by
  obtain ⟨_, h⟩ := exProg_run
  cases hr : Foa.run {} pairEq exProg (Foa.start {} h0 natEq) with
  | none => rw [hr] at h; cases h
  | some p =>
    rw [hr] at h
    unfold factsRehash at h
    rw [Option.bind_some] at h
    cases hq : (p.1 0).rehash {} 29 with
    | none => rw [hq] at h; cases h
    | some t' =>
      rw [hq] at h
      simp only [Option.map_some, Option.some.injEq, Prod.mk.injEq] at h
      exact ⟨p.1 0, t', ⟨pairEq, h0, natEq, exProg, p.1, p.2, 0, h0_lawful, exProg_pre, hr, rfl⟩, hq, h.2.2, h.2.1⟩

/-- **C67 (the note on `max_load()` is not exact).** All three parts fail: a container constructed with 59 buckets has
`max_load() == 51 < 51.625 == 0.875*59`; so has it after `clear()`; and a `rehash` that finds the number of buckets it wants
does not restore a maximum load lowered by erasures. -/
theorem C67_max_load_claim_false : ¬ MaxLoadClaim ∧
    (¬ ∀ t : Table Nat Nat, Props.Reachable {} t → 7 * t.clear.capacity ≤ 8 * t.clear.ml) ∧
    (¬ ∀ t t' : Table Nat Nat, ∀ n, Props.Reachable {} t → t.rehash {} n = some t' → 7 * t'.capacity ≤ 8 * t'.ml) := by
  have hcap : (Table.mk_ {} ⟨h0, natEq⟩ 0 59 : Table Nat Nat).capacity = 59 := by decide +kernel
  have hml : (Table.mk_ {} ⟨h0, natEq⟩ 0 59 : Table Nat Nat).ml = 51 := by decide +kernel
  refine ⟨?_, ?_, ?_⟩
  · rintro ⟨h, _⟩
    have := h ⟨h0, natEq⟩ (lawful_iff h0_lawful) 59
    omega
  · intro h
    have hr : Props.Reachable {} (Table.mk_ {} ⟨h0, natEq⟩ 0 59 : Table Nat Nat) := by
      refine ⟨pairEq, h0, natEq, [.construct 0 h0 natEq 0 59], _, _, 0, h0_lawful, ⟨h0_lawful, trivial⟩, rfl, ?_⟩
      rfl
    have := h _ hr
    obtain ⟨_, _, _, _, c5, c6, c7, _⟩ := clear_spec (mk_inv {} (lawful_iff h0_lawful) 0 59 : (Table.mk_ {} ⟨h0, natEq⟩ 0 59 : Table Nat Nat).Inv)
    have e1 : (Table.mk_ {} ⟨h0, natEq⟩ 0 59 : Table Nat Nat).clear.capacity = 59 := by
      refine Eq.trans ?_ hcap
      unfold Table.capacity Arrays.capacity; rw [c5, c6]
    have e2 : (Table.mk_ {} ⟨h0, natEq⟩ 0 59 : Table Nat Nat).clear.ml = 51 := by rw [c7]; exact hml
    omega
  · intro h
    obtain ⟨t, t', h1, h2, h3, h4⟩ := rehash_keeps_low_max_load
    have := h t t' 29 h1 h2
    omega

/-- **C67 (partial).** What does hold of the note: after construction and after `clear()`, `max_load()` is at least
`max_load_factor()*bucket_count()` rounded down to an integer, and so it is after a `rehash` or `reserve` that changed the
number of buckets. Missing: the note as written, refuted by `C67_max_load_claim_false`. -/
theorem C67_max_load_partial (c : MCfg) (t : Table K V) (h : Props.Reachable c t) (n : Nat) :
    (∀ f : Fns K, 7 * (Table.mk_ c.toCfg f 0 n : Table K V).capacity / 8 ≤ (Table.mk_ c.toCfg f 0 n : Table K V).ml) ∧
    7 * t.clear.capacity / 8 ≤ t.clear.ml ∧
    (∀ t', t.rehash c.toCfg n = some t' → t'.capacity ≠ t.capacity → 7 * t'.capacity / 8 ≤ t'.ml) ∧
    (∀ t', t.reserve c.toCfg n = some t' → t'.capacity ≠ t.capacity → 7 * t'.capacity / 8 ≤ t'.ml ∧ n ≤ t'.ml) := by
  refine ⟨fun f => initMl_floor _, ?_, ?_, ?_⟩
  · obtain ⟨_, _, _, _, c5, c6, c7, _⟩ := clear_spec h.inv
    have : t.clear.capacity = t.capacity := by unfold Table.capacity Arrays.capacity; rw [c5, c6]
    rw [c7, this]
    exact initMl_floor _
  · intro t' ht' hne
    obtain ⟨t₁, h1, _, _, _, _, h6, _⟩ := rehash_spec c.toCfg h.inv n
    rw [ht'] at h1; cases h1
    rcases h6 with rfl | h6
    · exact absurd rfl hne
    · rw [h6]; exact initMl_floor _
  · intro t' ht' hne
    obtain ⟨t₁, h1, _, _, _, _, h6, h7⟩ := reserve_spec' c.toCfg h.inv n
    rw [ht'] at h1; cases h1
    rcases h6 with rfl | h6
    · exact absurd rfl hne
    · rw [h6]; exact ⟨initMl_floor _, h7⟩

example : ∃ t : Table Nat Nat, Props.Reachable {} t ∧ t.size = 36 := Props.sample_reachable

set_option maxRecDepth 100000 in
/-- The exception for small sizes is real: 29 elements in 29 buckets, load factor 1. -/
theorem C67_small_sizes_may_fill : ∃ t : Table Nat Nat, Props.Reachable {} t ∧ t.capacity = 29 ∧ t.loadFactor = SC := by
  have h : ((Foa.run {} pairEq [.insertRange 0 ((List.range 29).map (fun i => (i, i)))] (Foa.start {} h0 natEq)).map
      (fun r => ((r.1 0).capacity, (r.1 0).loadFactor))) = some (29, SC) := by decide +kernel
  cases hr : Foa.run {} pairEq [.insertRange 0 ((List.range 29).map (fun i => (i, i)))] (Foa.start {} h0 natEq) with
  | none => rw [hr] at h; cases h
  | some p =>
    rw [hr] at h
    simp only [Option.map_some, Option.some.injEq, Prod.mk.injEq] at h
    exact ⟨p.1 0, ⟨pairEq, h0, natEq, [.insertRange 0 ((List.range 29).map (fun i => (i, i)))], p.1, p.2, 0, h0_lawful, ⟨trivial, trivial⟩, hr, rfl⟩, h.1, h.2⟩

end Props.FoaLoad

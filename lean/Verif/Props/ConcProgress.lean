/-
Progress of concurrent containers (C45, C46) and the wrap-around of insertion counters (C29).
-/
import Verif.Props.ConcTable
import Verif.Conc.TabAlone
import Verif.Conc.TabSolo

namespace Props.ConcProgress
open Conc.Tab Foa SpecT Props.ConcTable
open Conc.Locking (Mode)

variable {K V : Type}

/-! ### C45: lookups, erasures and passes complete -/

/-- Visitation, lookup, erasure by key, or a pass over the whole table. -/
def NotInsertion : Op K V → Prop
  | .key (.visit _ _ _) | .key (.erase _ _) | .sweep _ _ => True
  | _ => False

/-- Whatever other threads do, a lookup, visit, erasure or whole-table pass takes at most `100 * (groups + 1)` steps of its own
(each an access to shared memory, the acquisition or the release of a group lock) before it returns, `groups` being a bound for
the number of groups of the table while it runs. -/
theorem C45_bounded_steps {cfg : Cfg} {f : Fns K} (hf : f.Lawful) {al c : Nat} {σ : Nat → State K V} {who : Nat → Nat} {n : Nat}
    (h0 : Reach cfg f al c (σ 0)) (hr : Run cfg σ who n) {t : Nat} {o : Op K V} (ho : NotInsertion o) (hc : Called (σ 0) t o)
    (hd : ∀ i < n, ∀ r, ¬ Returned (σ i) t r) {groups : Nat} (hg : ∀ i < n, 2 ^ (σ i).mem.tab.arr.k ≤ groups) :
    ((List.range n).filter fun i => decide (who i = t)).length ≤ 100 * (groups + 1) := by
  have hp : o.plain = true := by
    match o, ho with
    | .key (.visit _ _ _), _ => rfl
    | .key (.erase _ _), _ => rfl
    | .sweep _ _, _ => rfl
  have h := run_left hr (h0.inv hf) hp hc (G := groups)
    (fun i hi => by
      have := hg i hi
      have h1 : 1 ≤ 2 ^ (σ i).mem.tab.arr.k := Nat.one_le_two_pow
      simp only [Arrays.mask]
      omega) hd n le_rfl
  have h2 : ownSteps who t n = ((List.range n).filter fun i => decide (who i = t)).length := rfl
  omega

set_option maxRecDepth 100000 in
/-- A lookup of key 1 while another thread erases key 2; two groups. -/
example : exF.Lawful ∧ Reach {} exF 0 20 ((ex3 (.key exLook)).trace {} exLookRun 0) ∧
    Run {} ((ex3 (.key exLook)).trace {} exLookRun) (who exLookRun) 46 ∧ NotInsertion (.key exLook : Op Nat Nat) ∧
    Called ((ex3 (.key exLook)).trace {} exLookRun 0) 0 (.key exLook) ∧
    (∀ i < 46, ∀ r, ¬ Returned ((ex3 (.key exLook)).trace {} exLookRun i) 0 r) ∧
    ∀ i < 46, 2 ^ ((ex3 (.key exLook)).trace {} exLookRun i).mem.tab.arr.k ≤ 2 := by
  refine ⟨exF_lawful, (ex3_reach _).1, ran (by decide +kernel), trivial, (ex3_reach _).2, ?_, by decide +kernel⟩
  have h : ∀ i < 46, (((ex3 (.key exLook)).trace {} exLookRun i).pc 0).answer = none := by decide +kernel
  exact fun i hi => (answers (h i hi)).2 rfl

/-! ### C46: insertions

Full statement: of the threads executing insertions that keep moving, some thread completes its insertion (insertion is
lock-free). This is false (`C46_insertions_can_starve_each_other`). Proved: a thread that is not interfered with completes. -/

/-- From any reachable state, any operation of a thread that moves while the other threads are outside the container's shared
section completes: there is no unending run without its return, and until it returns it can move (a whole-table pass under
shared access must not try to erase). -/
theorem C46_alone_completes_partial {cfg : Cfg} {f : Fns K} (hf : f.Lawful) {al c : Nat} {s : State K V} (h : Reach cfg f al c s)
    {t : Nat} (hs : ∀ u, u ≠ t → ¬ Busy s u) (hn : s.pc t ≠ .idle) :
    (∀ σ : Nat → State K V, σ 0 = s → (∀ i, StepBy cfg t (σ i) (σ (i + 1))) → (∀ i, NoWrap (σ i)) → ∃ i r, Returned (σ i) t r) ∧
    ((∀ r, ¬ Returned s t r) → (∀ md act g js r, s.pc t = .swAt md act g js r → md = .excl ∨ ∀ y, act y ≠ .erase) →
      ∃ s', StepBy cfg t s s') := by
  have hsolo : Solo t s := fun u hu => by simpa [Busy] using hs u hu
  refine ⟨fun σ h0 hst hw => ?_, fun hd hsw => solo_moves (h.inv hf) hsolo hn (fun r hq => hd r hq) hsw⟩
  subst h0
  exact solo_returns (h.inv hf) hsolo hn hst hw

/-- A thread that has called insert, while another thread has called insert too and not begun. -/
example : Reach {} exF 0 20 ex1.state ∧ (∀ u, u ≠ 0 → ¬ Busy ex1.state u) ∧ ex1.state.pc 0 ≠ .idle := by
  refine ⟨ex1_reach, fun u hu h => ?_, (fun h => by cases h)⟩
  match u, hu with
  | 1, _ => cases h
  | u + 2, _ => cases h

/-- Thread 1 has searched key 1 in vain and is about to reserve; thread 0 has inserted key 5 and has then called insert with
key 1. -/
def exLive : Sys Nat Nat := (ex0.run {} (.op 1 (.key (exInsert 1 10)) :: go 1 19 ++ .op 0 (.key (exInsert 5 50)) :: go 0 26 ++
  .op 0 (.key (exInsert 1 20)) :: go 0 1)).getD ex0

open Lean Elab Tactic Meta in
elab "kernel_refl" : tactic => do
  let g ← getMainGoal
  let some (_, a, _) := (← instantiateMVars (← g.getType)).eq? | throwError "not an equation"
  g.assign (← mkEqRefl a)

set_option maxRecDepth 100000 in
theorem exLive_pcs : exLive.pcs = [.counter (exInsert 1 20), .reserve (exInsert 1 10) 0] := by kernel_refl


set_option maxRecDepth 100000 in
theorem exLive_reach : Reach {} exF 0 20 exLive.state := by
  have h : (ex0.run {} (.op 1 (.key (exInsert 1 10)) :: go 1 19 ++ .op 0 (.key (exInsert 5 50)) :: go 0 26 ++
    .op 0 (.key (exInsert 1 20)) :: go 0 1)).isSome = true := by decide +kernel
  obtain ⟨S, hS⟩ := Option.isSome_iff_exists.1 h
  rw [exLive, hS]
  refine Sys.run_reach (S := ex0) ?_ hS
  rw [ex0, Sys.init_state]
  exact .init

/-- The two insertions. -/
def exPair (i : Nat) : KOp Nat Nat := if i % 2 = 0 then exInsert 1 20 else exInsert 1 10
theorem exPair_key (i : Nat) : (exPair i).isInsert = true ∧ (exPair i).key = 1 := by
  unfold exPair; split <;> exact ⟨rfl, rfl⟩

set_option maxRecDepth 100000 in
theorem exLive_room : Room exLive.mem 0 1 exPair where
  ins i := (exPair_key i).1
  pos i := by rw [(exPair_key i).2]; decide +kernel
  elems := by decide +kernel
  avail := ⟨_, (by decide +kernel : (exLive.mem.grp 0).availSlots = 1 :: [2, 3, 4, 5, 6, 7, 8, 9, 10, 11, 12, 13, 14])⟩
  free := by decide +kernel
  md := by decide +kernel
  room := by decide +kernel

set_option maxRecDepth 100000 in
theorem exLive_stage : Stage exLive.mem 0 1 exPair where
  toRoom := exLive_room
  miss i := by rw [(exPair_key i).2]; decide +kernel
  ofw i := by rw [(exPair_key i).2]; decide +kernel

set_option maxRecDepth 100000 in
theorem exLive_start : Livelock.run exLive.mem 0 1 exPair 0 = exLive.state := by
  simp only [Livelock.run, Livelock.at_, Sys.state, State.mk.injEq]
  constructor
  · have h : exLive.mem.cnt 0 = 1 := by decide +kernel
    have := exLive.mem.withCnt_self 0
    rw [h] at this
    exact this
  · funext u
    simp only [Sys.pc, exLive_pcs]
    match u with
    | 0 => rfl
    | 1 => rfl
    | u + 2 =>
      rw [if_neg (by omega), if_neg (by omega)]
      rfl

/-- Insertion is not lock-free: two threads that have called insert with the same key, which is not in the container, both move
again and again for ever, and neither insertion ever completes. -/
theorem C46_insertions_can_starve_each_other : ∃ (σ : Nat → State Nat Nat) (who : Nat → Nat),
    (∀ i, Reach {} exF 0 20 (σ i)) ∧ (∀ i, StepBy {} (who i) (σ i) (σ (i + 1))) ∧
    (∀ t < 2, ∀ i, ∃ l, i ≤ l ∧ who l = t) ∧ (∀ t < 2, ∀ i r, ¬ Returned (σ i) t r) ∧ (∀ t < 2, ∀ i o, ¬ Called (σ i) t o) := by
  refine ⟨Livelock.run exLive.mem 0 1 exPair, Livelock.runWho, fun i => ?_, fun i => (Livelock.run_step exLive_stage {} i).1,
    fun t ht i => Livelock.run_fair i t ht, fun t ht i r h => ?_, fun t ht i o h => ?_⟩
  · induction i with
    | zero => rw [exLive_start]; exact exLive_reach
    | succ i ih => exact .step ih (Livelock.run_step exLive_stage {} i).2 ⟨_, (Livelock.run_step exLive_stage {} i).1⟩
  · have := Livelock.run_never (m := exLive.mem) (g := 0) (j := 1) (o := exPair) i t ht
    rw [show (Livelock.run exLive.mem 0 1 exPair i).pc t = _ from h] at this
    cases this
  · have := Livelock.run_never (m := exLive.mem) (g := 0) (j := 1) (o := exPair) i t ht
    rw [show (Livelock.run exLive.mem 0 1 exPair i).pc t = _ from h] at this
    cases this

/-! ### C29: what happens when an insertion counter wraps -/

/-- Thread 0 has searched key 1 in vain and is about to reserve; thread 1 has then inserted key 1. -/
def exWrap : Sys Nat Nat := (ex0.run {} (.op 0 (.key (exInsert 1 10)) :: go 0 19 ++ .op 1 (.key (exInsert 1 20)) :: go 1 26)).getD ex0

set_option maxRecDepth 100000 in
theorem exWrap_pcs : exWrap.pcs = [.reserve (exInsert 1 10) 0, .done 1] := by kernel_refl

set_option maxRecDepth 100000 in
theorem exWrap_reach : Relation.ReflTransGen (Step {}) (init {} exF 0 20 : State Nat Nat) exWrap.state := by
  have h : (ex0.run {} (.op 0 (.key (exInsert 1 10)) :: go 0 19 ++ .op 1 (.key (exInsert 1 20)) :: go 1 26)).isSome = true := by
    decide +kernel
  obtain ⟨S, hS⟩ := Option.isSome_iff_exists.1 h
  rw [exWrap, hS]
  have key : Reach {} exF 0 20 S.state := by
    refine Sys.run_reach (S := ex0) ?_ hS
    rw [ex0, Sys.init_state]
    exact .init
  change Relation.ReflTransGen _ _ S.state
  generalize S.state = s at key
  induction key with
  | init => exact .refl
  | step _ _ h ih => exact ih.tail h

set_option maxRecDepth 100000 in
theorem exWrap_room (x : Nat) (hx : exWrap.mem.pos0 x = 0) (v : Nat) : Room exWrap.mem 0 1 fun _ => exInsert x v where
  ins _ := rfl
  pos _ := hx
  elems := by decide +kernel
  avail := ⟨_, (by decide +kernel : (exWrap.mem.grp 0).availSlots = 1 :: [2, 3, 4, 5, 6, 7, 8, 9, 10, 11, 12, 13, 14])⟩
  free := by decide +kernel
  md := by decide +kernel
  room := by decide +kernel

set_option maxRecDepth 100000 in
theorem exWrap_stage : Stage exWrap.mem 0 1 fun _ => exInsert 2 0 where
  toRoom := exWrap_room 2 (by decide +kernel) 0
  miss _ := by decide +kernel
  ofw _ := by decide +kernel

set_option maxRecDepth 100000 in
/-- Without the proviso `NoWrap` there can be duplicates: the container can reach a state with two elements with the same key. A
thread that is about to insert key 1 is overtaken by the insertion of key 1 and 2^32 - 1 further insertions (of a key that is
erased again each time) through the same group; then the 32-bit counter reads as recorded. -/
theorem C29_duplicates_after_counter_wrap : ∃ s : State Nat Nat, Relation.ReflTransGen (Step {}) (init {} exF 0 20) s ∧
    s.mem.slot 0 0 = some (1, 20) ∧ s.mem.slot 0 1 = some (1, 10) := by
  have hl : ∀ t u, u ≠ t → (exWrap.state.pc u).locks = none := by
    intro t u _
    simp only [Sys.state, Sys.pc, exWrap_pcs]
    match u with
    | 0 => rfl
    | 1 => rfl
    | u + 2 => rfl
  have hcnt : exWrap.mem.cnt 0 = 1 := by decide +kernel
  have h1 := (hops_cycles exWrap_stage (by decide) (by decide +kernel) (2 ^ 32 - 1)).steps (cfg := {}) (s := exWrap.state) (t := 1)
    rfl (by simp only [Sys.state, Sys.pc, exWrap_pcs]; rfl) (hl 1)
  rw [hcnt] at h1
  have hr : Room (exWrap.mem.withCnt 0 (1 + (2 ^ 32 - 1))) 0 1 fun _ => exInsert 1 10 := by
    have h := exWrap_room 1 (by decide +kernel) 10
    exact ⟨h.ins, h.pos, h.elems, h.avail, h.free, h.md, h.room⟩
  have h2 := (hops_insert hr (c := 0) (by decide)).steps (cfg := {})
    (s := exWrap.state.set 1 (exWrap.mem.withCnt 0 (1 + (2 ^ 32 - 1))) (.done 1)) (t := 0) rfl
    (by simp only [State.set, Sys.state, Sys.pc, exWrap_pcs]; rfl) (fun u hu => by
      simp only [State.set]
      split
      · rfl
      · exact hl 0 u hu)
  refine ⟨_, (exWrap_reach.trans h1).trans h2, ?_, ?_⟩
  · have : exWrap.mem.slot 0 0 = some (1, 20) := by decide +kernel
    exact this
  · rfl

end Props.ConcProgress

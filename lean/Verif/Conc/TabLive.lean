/-
Insertions of the concurrent table are not lock-free: an unending run in which two threads, both moving again and again,
invalidate each other's recorded insertion counter.
-/
import Verif.Conc.TabRun

namespace Conc.Tab
open Foa
open Conc.Locking (Mode)

variable {K V : Type}

/-- The memory with insertion counter `n` of group `g`. -/
def Mem.withCnt (m : Mem K V) (g n : Nat) : Mem K V := { m with cnt := fun i => if i = g then n else m.cnt i }

/-- A table with room in group `g`, in which the keys of the insertions `o 0`, `o 1`, ... belong. -/
structure Room (m : Mem K V) (g j : Nat) (o : Nat → KOp K V) : Prop where
  ins : ∀ i, (o i).isInsert = true
  pos : ∀ i, m.pos0 (o i).key = g
  elems : m.tab.arr.hasElems = true
  avail : ∃ js, (m.grp g).availSlots = j :: js
  free : m.slot g j = none
  md : (m.grp g).md j = 0
  room : m.tab.size + 1 ≤ m.tab.ml

/-- Moreover the keys are not found. -/
structure Stage (m : Mem K V) (g j : Nat) (o : Nat → KOp K V) : Prop extends Room m g j o where
  miss : ∀ i, ∀ l < N, (m.grp g).md l ≠ rhash (m.hashOf (o i).key)
  ofw : ∀ i, (m.grp g).isNotOverflowed (m.hashOf (o i).key) = true

namespace Livelock

/-- Round `n`, step `r`: memory, the thread that searches, the thread that tries to insert. -/
def memAt (m : Mem K V) (g j : Nat) (o : Nat → KOp K V) (n r : Nat) : Mem K V :=
  if r ≤ 18 then m.withCnt g n
  else if r ≤ 21 then (m.withCnt g n).setSize (m.tab.size + 1)
  else if r ≤ 22 then ((m.withCnt g n).setSize (m.tab.size + 1)).setGrp g ((m.grp g).set j (m.hashOf (o (n % 2)).key))
  else if r ≤ 23 then ((m.withCnt g (n + 1)).setSize (m.tab.size + 1)).setGrp g ((m.grp g).set j (m.hashOf (o (n % 2)).key))
  else if r ≤ 25 then (m.withCnt g (n + 1)).setSize (m.tab.size + 1)
  else m.withCnt g (n + 1)

def pcP (g : Nat) (o : KOp K V) (n r : Nat) : Pc K V :=
  if r = 0 then .counter o
  else if r ≤ 16 then .scan o n (Prober.init g) ((List.range N).drop (r - 1)) []
  else if r ≤ 17 then .over o n (Prober.init g)
  else .reserve o n

def pcQ (m : Mem K V) (g j : Nat) (o : KOp K V) (n r : Nat) : Pc K V :=
  if r ≤ 18 then .reserve o (n - 1)
  else if r ≤ 19 then .test o (n - 1) (m.tab.size + 1)
  else if r ≤ 20 then .insLock o (n - 1) (Prober.init g)
  else if r ≤ 21 then .insFind o (n - 1) (Prober.init g)
  else if r ≤ 22 then .insInc o (n - 1) (Prober.init g) j
  else if r ≤ 23 then .rollReset o (Prober.init g) j
  else if r ≤ 24 then .rollUnlock o (Prober.init g)
  else if r ≤ 25 then .rollSize o
  else .counter o

def at_ (m : Mem K V) (g j : Nat) (o : Nat → KOp K V) (n r : Nat) : State K V :=
  ⟨memAt m g j o n r, fun u => if u = n % 2 then pcQ m g j (o (n % 2)) n r else
    if u = (n + 1) % 2 then pcP g (o ((n + 1) % 2)) n r else .idle⟩

def who (n r : Nat) : Nat := if r < 18 then (n + 1) % 2 else n % 2

theorem swap (n : Nat) : (n + 1) % 2 ≠ n % 2 := by omega

variable {m : Mem K V} {g j : Nat} {o : Nat → KOp K V}

theorem at_next (n : Nat) : at_ m g j o n 26 = at_ m g j o (n + 1) 0 := by
  simp only [at_, State.mk.injEq]
  refine ⟨by simp [memAt], ?_⟩
  funext u
  have h2 : (n + 1 + 1) % 2 = n % 2 := by omega
  have := swap n
  rw [h2]
  by_cases h : u = n % 2
  · rw [if_pos h, if_neg (by omega), if_pos h]; rfl
  · rw [if_neg h]
    by_cases h' : u = (n + 1) % 2
    · rw [if_pos h', if_pos h']; rfl
    · rw [if_neg h', if_neg h', if_neg h]

theorem pc_q (n r : Nat) : (at_ m g j o n r).pc (n % 2) = pcQ m g j (o (n % 2)) n r := by simp [at_]
theorem pc_p (n r : Nat) : (at_ m g j o n r).pc ((n + 1) % 2) = pcP g (o ((n + 1) % 2)) n r := by
  simp [at_, swap n]

/-- The searching thread moves. -/
theorem move_p {n r : Nat} (hm : memAt m g j o n (r + 1) = memAt m g j o n r) (hq : pcQ m g j (o (n % 2)) n (r + 1) = pcQ m g j (o (n % 2)) n r) :
    at_ m g j o n (r + 1) = (at_ m g j o n r).set ((n + 1) % 2) (at_ m g j o n r).mem (pcP g (o ((n + 1) % 2)) n (r + 1)) := by
  simp only [at_, State.set, State.mk.injEq]
  refine ⟨hm, ?_⟩
  funext u
  have := swap n
  by_cases h : u = n % 2
  · rw [if_pos h, if_neg (by omega), if_pos h, hq]
  · rw [if_neg h]
    by_cases h' : u = (n + 1) % 2
    · rw [if_pos h', if_pos h']
    · rw [if_neg h', if_neg h', if_neg h, if_neg h']

/-- The inserting thread moves. -/
theorem move_q {n r : Nat} (hr : 18 ≤ r) :
    at_ m g j o n (r + 1) = (at_ m g j o n r).set (n % 2) (memAt m g j o n (r + 1)) (pcQ m g j (o (n % 2)) n (r + 1)) := by
  simp only [at_, State.set, State.mk.injEq, true_and]
  funext u
  have := swap n
  by_cases h : u = n % 2
  · rw [if_pos h, if_pos h]
  · rw [if_neg h, if_neg h]
    by_cases h' : u = (n + 1) % 2
    · rw [if_pos h', if_neg h, if_pos h']
      simp only [pcP]
      rw [if_neg (by omega), if_neg (by omega), if_neg (by omega), if_neg (by omega), if_neg (by omega), if_neg (by omega)]
    · rw [if_neg h', if_neg h, if_neg h']

theorem step (hs : Stage m g j o) (cfg : Cfg) {n r : Nat} (hn : 1 ≤ n) (hr : r < 26) :
    StepBy cfg (who n r) (at_ m g j o n r) (at_ m g j o n (r + 1)) := by
  by_cases h18 : r < 18
  · simp only [who, if_pos h18]
    have hmem : ∀ i ≤ 18, memAt m g j o n i = m.withCnt g n := fun i hi => by simp [memAt, hi]
    have hq : ∀ i ≤ 18, pcQ m g j (o (n % 2)) n i = .reserve (o (n % 2)) (n - 1) := fun i hi => by simp [pcQ, hi]
    rw [move_p (by rw [hmem _ (by omega), hmem _ (by omega)]) (by rw [hq _ (by omega), hq _ (by omega)])]
    refine .quiet ?_
    rw [pc_p, show (at_ m g j o n r).mem = m.withCnt g n from hmem r (by omega)]
    generalize (at_ m g j o n r).canS _ = S
    generalize (at_ m g j o n r).canX _ = X
    generalize ho' : o ((n + 1) % 2) = o'
    have hpos : (m.withCnt g n).pos0 o'.key = g := by rw [← ho']; exact hs.pos _
    by_cases h0 : r = 0
    · subst h0
      have : pcP g o' n (0 + 1) = .scan o' ((m.withCnt g n).cnt ((m.withCnt g n).pos0 o'.key)) (probe0 (m.withCnt g n) o')
          (List.range N) [] := by
        simp only [probe0, hpos]
        simp [pcP, Mem.withCnt]
      rw [this]
      exact .counter o'
    by_cases h15 : r ≤ 15
    · have h1 : pcP g o' n r = .scan o' n (Prober.init g) ((List.range N).drop (r - 1)) [] := by
        simp only [pcP]; rw [if_neg h0, if_pos (by omega)]
      have h2 : pcP g o' n (r + 1) = .scan o' n (Prober.init g) (((List.range N).drop (r - 1)).erase (r - 1)) [] := by
        simp only [pcP]
        rw [if_neg (by omega), if_pos (by omega)]
        congr 1
        rw [Nat.add_sub_cancel]
        have hlt : r - 1 < (List.range N).length := by simp [N]; omega
        conv_rhs => rw [List.drop_eq_getElem_cons hlt]
        rw [List.getElem_range, List.erase_cons_head, show r - 1 + 1 = r by omega]
      rw [h1, h2]
      refine .scanMiss _ _ _ _ _ (r - 1) ?_ ?_
      · have hlt : r - 1 < (List.range N).length := by simp [N]; omega
        rw [List.drop_eq_getElem_cons hlt, List.getElem_range]
        exact List.mem_cons_self
      · rw [← ho']; exact hs.miss _ _ (by simp only [N]; omega)
    by_cases h16 : r = 16
    · subst h16
      exact .scanNone o' n (Prober.init g)
    · have h17 : r = 17 := by omega
      subst h17
      have : pcP g o' n (17 + 1) = missPc o' n := by
        have := hs.ins ((n + 1) % 2)
        rw [ho'] at this
        simp [pcP, missPc, this]
      rw [this]
      refine .overEnd o' n _ ?_
      rw [← ho']; exact hs.ofw _
  · simp only [who, if_neg h18]
    rw [move_q (by omega)]
    have hX : (at_ m g j o n r).canX (n % 2) g := by
      intro u hu md hl
      simp only [at_, if_neg hu] at hl
      split at hl
      · simp only [pcP] at hl
        rw [if_neg (by omega), if_neg (by omega), if_neg (by omega)] at hl
        cases hl
      · cases hl
    generalize ho' : o (n % 2) = o'
    have hpos : ∀ c : Nat → Nat, ∀ s, Mem.pos0 ((Mem.mk m.tab c).setSize s) o'.key = g := fun c s => by
      rw [← ho']; exact hs.pos _
    obtain ⟨js, hjs⟩ := hs.avail
    have hcases : r = 18 ∨ r = 19 ∨ r = 20 ∨ r = 21 ∨ r = 22 ∨ r = 23 ∨ r = 24 ∨ r = 25 := by omega
    rcases hcases with rfl | rfl | rfl | rfl | rfl | rfl | rfl | rfl
    · refine .eff ?_
      rw [pc_q, ho']
      exact .reserve o' (n - 1)
    · refine .quiet ?_
      rw [pc_q, ho']
      have : pcQ m g j o' n (19 + 1) = .insLock o' (n - 1) (probe0 (at_ m g j o n 19).mem o') := by
        have h1 : probe0 (at_ m g j o n 19).mem o' = Prober.init g := congrArg Prober.init (hpos _ _)
        rw [h1]; rfl
      rw [this]
      exact .testOk _ _ _ hs.room
    · refine .quiet ?_
      rw [pc_q, ho']
      exact .insLock _ _ _ hX
    · refine .eff ?_
      rw [pc_q, ho']
      have h1 := Eff.insSet (m := (at_ m g j o n 21).mem) o' (n - 1) (Prober.init g) j js hs.elems hjs hs.free
      have h2 : memAt m g j o n (21 + 1) = (at_ m g j o n 21).mem.setGrp (Prober.init g).pos
          (((at_ m g j o n 21).mem.grp (Prober.init g).pos).set j ((at_ m g j o n 21).mem.hashOf o'.key)) := by
        rw [← ho']; rfl
      rw [h2]
      exact h1
    · refine .eff ?_
      rw [pc_q, ho']
      have hp : (at_ m g j o n 22).mem.pos0 o'.key = g := by
        rw [← ho']; exact hs.pos _
      have h1 := Eff.startOver (m := (at_ m g j o n 22).mem) o' (n - 1) (Prober.init g) j (by
        rw [hp]
        have : (at_ m g j o n 22).mem.cnt g = n := by simp [at_, memAt, Mem.setGrp, Mem.setSize, Mem.withCnt]
        rw [this]
        omega)
      have h2 : memAt m g j o n (22 + 1) = (at_ m g j o n 22).mem.incCnt ((at_ m g j o n 22).mem.pos0 o'.key) := by
        rw [hp]
        simp only [at_, memAt, Mem.incCnt, Mem.setGrp, Mem.setSize, Mem.withCnt]
        simp only [Nat.reduceAdd, Nat.reduceLeDiff, if_true, if_false]
        congr 1
        funext i
        by_cases hi : i = g <;> simp [hi]
      rw [h2]
      exact h1
    · refine .eff ?_
      rw [pc_q, ho']
      have h1 := Eff.rollReset (m := (at_ m g j o n 23).mem) o' (Prober.init g) j
      have h2 : memAt m g j o n (23 + 1) = (at_ m g j o n 23).mem.setGrp (Prober.init g).pos
          (((at_ m g j o n 23).mem.grp (Prober.init g).pos).reset j) := by
        have hg : ∀ G : Group, G.md j = 0 → ∀ h, (G.set j h).reset j = G := by
          rintro ⟨md, ofw⟩ h0 h
          simp only [Group.set, Group.reset, Group.mk.injEq, and_true]
          funext i
          by_cases hi : i = j
          · subst hi; simpa using h0.symm
          · simp [hi]
        have h3 : ((at_ m g j o n 23).mem.grp g) = (m.grp g).set j (m.hashOf (o (n % 2)).key) := by
          simp [at_, memAt, Mem.grp, Mem.setGrp, Mem.setSize, Mem.withCnt, Arrays.setGrp]
        show _ = (at_ m g j o n 23).mem.setGrp g (((at_ m g j o n 23).mem.grp g).reset j)
        rw [h3, hg _ hs.md]
        simp only [at_, memAt, Mem.setGrp, Mem.setSize, Mem.withCnt, Arrays.setGrp]
        simp only [Nat.reduceAdd, Nat.reduceLeDiff, if_true, if_false]
        congr 2
        have h4 : (fun i => if i = g then m.grp g else if i = g then (m.grp g).set j (m.hashOf (o (n % 2)).key)
            else m.tab.arr.grp i) = m.tab.arr.grp := by
          funext i
          by_cases hi : i = g
          · simp [hi, Mem.grp]
          · simp [hi]
        rw [h4]
      rw [h2]
      exact h1
    · refine .quiet ?_
      rw [pc_q, ho']
      exact .rollUnlock _ _
    · refine .eff ?_
      rw [pc_q, ho']
      have h1 := Eff.rollSize (m := (at_ m g j o n 25).mem) o' (Nat.le_add_left _ _)
      exact h1

theorem nowrap {n r : Nat} (hn : 1 ≤ n) (hr : r < 26) (hs : Stage m g j o) : NoWrap (at_ m g j o n r) := by
  intro t o' c pb j' hq
  simp only [at_] at hq
  split at hq
  · simp only [pcQ] at hq
    repeat' split at hq
    all_goals first
      | (cases hq; done)
      | skip
    obtain ⟨rfl, rfl, rfl, rfl⟩ := Pc.insInc.injEq .. ▸ hq
    have h22 : r = 22 := by omega
    subst h22
    have hp : (at_ m g j o n 22).mem.pos0 (o (n % 2)).key = g := hs.pos _
    rw [hp]
    have : (at_ m g j o n 22).mem.cnt g = n := by simp [at_, memAt, Mem.setGrp, Mem.setSize, Mem.withCnt]
    rw [this]
    omega
  · split at hq
    · simp only [pcP] at hq
      repeat' split at hq
      all_goals cases hq
    · cases hq

/-- The unending run. -/
def run (m : Mem K V) (g j : Nat) (o : Nat → KOp K V) (i : Nat) : State K V := at_ m g j o (i / 26 + 1) (i % 26)
def runWho (i : Nat) : Nat := who (i / 26 + 1) (i % 26)

theorem run_step (hs : Stage m g j o) (cfg : Cfg) (i : Nat) :
    StepBy cfg (runWho i) (run m g j o i) (run m g j o (i + 1)) ∧ NoWrap (run m g j o i) := by
  refine ⟨?_, nowrap (by omega) (Nat.mod_lt _ (by decide)) hs⟩
  have h := step hs cfg (n := i / 26 + 1) (r := i % 26) (by omega) (Nat.mod_lt _ (by decide))
  have h2 : run m g j o (i + 1) = at_ m g j o (i / 26 + 1) (i % 26 + 1) := by
    by_cases h25 : i % 26 = 25
    · rw [h25, at_next]
      simp only [run]
      congr 1 <;> omega
    · simp only [run]
      congr 1 <;> omega
  rw [h2]
  exact h

/-- In the middle of an insertion. -/
def inserting : Pc K V → Bool
  | .done _ | .idle | .start _ | .bad | .leave _ | .unlock _ _ _ => false
  | _ => true

theorem run_never (i t : Nat) (ht : t < 2) : inserting ((run m g j o i).pc t) = true := by
  simp only [run, at_]
  split
  · simp only [pcQ]
    repeat' split
    all_goals rfl
  · split
    · simp only [pcP]
      repeat' split
      all_goals rfl
    · omega

/-- Both threads move again and again. -/
theorem run_fair (i t : Nat) (ht : t < 2) : ∃ l, i ≤ l ∧ runWho l = t := by
  by_cases h : (i / 26 + 2) % 2 = t
  · refine ⟨26 * (i / 26 + 1) + 18, by omega, ?_⟩
    simp only [runWho, who]
    rw [if_neg (by omega)]
    omega
  · refine ⟨26 * (i / 26 + 1), by omega, ?_⟩
    simp only [runWho, who]
    rw [if_pos (by omega)]
    omega

end Livelock
end Conc.Tab

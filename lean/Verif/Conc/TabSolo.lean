/-
One thread of the concurrent table moving while the others hold no group lock; and a run in which an insertion counter wraps.
-/
import Verif.Conc.TabLive

namespace Conc.Tab
open Foa
open Conc.Locking (Mode)

variable {K V : Type}

theorem Quiet.mono {m : Mem K V} {S X S' X' : Nat → Prop} (hS : ∀ g, S g → S' g) (hX : ∀ g, X g → X' g) {p p' : Pc K V}
    (h : Quiet m S X p p') : Quiet m S' X' p p' := by
  cases h with
  | lockS o c pb ms h1 h2 => exact .lockS o c pb ms h1 (hS _ h2)
  | lockX o c pb ms h1 h2 => exact .lockX o c pb ms h1 (hX _ h2)
  | insLock o c pb h1 => exact .insLock o c pb (hX _ h1)
  | swLockS act g r h1 => exact .swLockS act g r (hS _ h1)
  | swLockX act g r h1 => exact .swLockX act g r (hX _ h1)
  | checkMiss o c pb j ms y h1 h2 h3 => exact .checkMiss o c pb j ms y h1 h2 h3
  | checkHit o c pb j ms y h1 h2 h3 => exact .checkHit o c pb j ms y h1 h2 h3
  | insFindTaken o c pb j js h1 h2 => exact .insFindTaken o c pb j js h1 h2
  | _ => constructor <;> assumption

/-- Steps of a thread nobody stands in the way of. -/
inductive Hops : Mem K V → Pc K V → Mem K V → Pc K V → Prop where
  | refl (m p) : Hops m p m p
  | quiet {m p p1 m' p'} : Quiet m (fun _ => True) (fun _ => True) p p1 → Hops m p1 m' p' → Hops m p m' p'
  | eff {m p m1 p1 m' p'} : Eff m p m1 p1 → Hops m1 p1 m' p' → Hops m p m' p'

theorem Hops.trans {m1 m2 m3 : Mem K V} {p1 p2 p3 : Pc K V} (h : Hops m1 p1 m2 p2) (h' : Hops m2 p2 m3 p3) : Hops m1 p1 m3 p3 := by
  induction h with
  | refl => exact h'
  | quiet h _ ih => exact .quiet h (ih h')
  | eff h _ ih => exact .eff h (ih h')

theorem Hops.of_eq {m m' : Mem K V} {p : Pc K V} (h : m = m') : Hops m p m' p := h ▸ .refl _ _

theorem Hops.steps {cfg : Cfg} {m m' : Mem K V} {p p' : Pc K V} (h : Hops m p m' p') : ∀ {s : State K V} {t : Nat}, s.mem = m →
    s.pc t = p → (∀ u, u ≠ t → (s.pc u).locks = none) → Relation.ReflTransGen (Step cfg) s (s.set t m' p') := by
  induction h with
  | refl m p =>
    intro s t hm hp _
    have : s.set t m p = s := by
      cases s
      simp only [State.set, State.mk.injEq] at *
      refine ⟨hm.symm, ?_⟩
      funext u
      by_cases h : u = t
      · subst h; simp [hp]
      · simp [h]
    rw [this]
  | @quiet m p p1 m' p' h _ ih =>
    intro s t hm hp hl
    have h1 : StepBy cfg t s (s.set t s.mem p1) := .quiet (by
      rw [hm, hp]
      refine h.mono (fun g _ u hu => ?_) (fun g _ u hu md => ?_)
      · rw [hl u hu]; simp
      · rw [hl u hu]; simp)
    have h2 := ih (s := s.set t s.mem p1) (t := t) hm (by simp [State.set]) (fun u hu => by
      simp only [State.set, if_neg hu]; exact hl u hu)
    have h3 : (s.set t s.mem p1).set t m' p' = s.set t m' p' := by
      simp only [State.set, State.mk.injEq, true_and]
      funext u
      by_cases h : u = t <;> simp [h]
    rw [h3] at h2
    exact .head ⟨t, h1⟩ h2
  | @eff m p m1 p1 m' p' h _ ih =>
    intro s t hm hp hl
    have h1 : StepBy cfg t s (s.set t m1 p1) := .eff (by rw [hm, hp]; exact h)
    have h2 := ih (s := s.set t m1 p1) (t := t) rfl (by simp [State.set]) (fun u hu => by
      simp only [State.set, if_neg hu]; exact hl u hu)
    have h3 : (s.set t m1 p1).set t m' p' = s.set t m' p' := by
      simp only [State.set, State.mk.injEq, true_and]
      funext u
      by_cases h : u = t <;> simp [h]
    rw [h3] at h2
    exact .head ⟨t, h1⟩ h2

theorem hops_scan {m : Mem K V} {o : KOp K V} {c : Nat} {pb : Prober} : ∀ {todo acc : List Nat},
    (∀ j ∈ todo, (m.grp pb.pos).md j ≠ rhash (m.hashOf o.key)) → Hops m (.scan o c pb todo acc) m (.scan o c pb [] acc)
  | [], acc, _ => .refl _ _
  | j :: js, acc, h => by
    refine .quiet (.scanMiss _ _ _ _ _ j List.mem_cons_self (h j List.mem_cons_self)) ?_
    rw [List.erase_cons_head]
    exact hops_scan fun i hi => h i (List.mem_cons_of_mem _ hi)

/-- The memory after a key is inserted in slot `j` of group `g`. -/
def Mem.inserted (m : Mem K V) (g j : Nat) (x : K × V) (v : V) : Mem K V :=
  (((m.setSize (m.tab.size + 1)).setGrp g ((m.grp g).set j (m.hashOf x.1))).incCnt g).setSlot g j (some (x.1, v))

theorem hops_search {m : Mem K V} {g j : Nat} {md : Mode} {x : K × V} {f2 f1 : K × V → V}
    (hs : Stage m g j fun _ => .insert md x f2 f1) :
    Hops m (.start (.key (.insert md x f2 f1))) m (.reserve (.insert md x f2 f1) (m.cnt g)) := by
  have hpos : m.pos0 (KOp.insert md x f2 f1).key = g := hs.pos 0
  have hp0 : probe0 m (.insert md x f2 f1) = Prober.init g := congrArg Prober.init hpos
  refine .quiet (.enter _) ?_
  refine .quiet (p1 := .scan (.insert md x f2 f1) (m.cnt g) (Prober.init g) (List.range N) []) ?_ ?_
  · have h := Quiet.counter (m := m) (canS := fun _ => True) (canX := fun _ => True) (KOp.insert md x f2 f1)
    rw [hpos, hp0] at h
    exact h
  refine (hops_scan fun l hl => hs.miss 0 l (List.mem_range.1 hl)).trans ?_
  refine .quiet (.scanNone _ _ _) ?_
  refine .quiet (.overEnd _ _ _ (hs.ofw 0)) ?_
  exact .refl _ _

/-- An insertion that has searched in vain goes through if the counter reads as recorded. -/
theorem hops_insert {m : Mem K V} {g j : Nat} {md : Mode} {x : K × V} {f2 f1 : K × V → V}
    (hs : Room m g j fun _ => .insert md x f2 f1) {c : Nat} (hc : m.cnt g % 2 ^ 32 = c % 2 ^ 32) :
    Hops m (.reserve (.insert md x f2 f1) c) (m.inserted g j x (f1 x)) (.done 1) := by
  have hpos : m.pos0 x.1 = g := hs.pos 0
  obtain ⟨js, hjs⟩ := hs.avail
  refine .eff (.reserve _ _) ?_
  refine .quiet (p1 := .insLock (.insert md x f2 f1) c (Prober.init g)) ?_ ?_
  · have h := Quiet.testOk (m := m.setSize (m.tab.size + 1)) (canS := fun _ => True) (canX := fun _ => True)
      (KOp.insert md x f2 f1) c _ hs.room
    have hp0 : probe0 (m.setSize (m.tab.size + 1)) (.insert md x f2 f1) = Prober.init g := congrArg Prober.init hpos
    rw [hp0] at h
    exact h
  refine .quiet (.insLock _ _ _ trivial) ?_
  refine .eff (.insSet (m := m.setSize (m.tab.size + 1)) _ _ _ j js hs.elems hjs hs.free) ?_
  refine .eff (m1 := m.inserted g j x (f1 x)) (p1 := .unlock g .excl 1) ?_ ?_
  · have hpos' : ∀ G : Group, Mem.pos0 ((m.setSize (m.tab.size + 1)).setGrp g G) x.1 = g := fun G => hpos
    have h := Eff.insert (m := (m.setSize (m.tab.size + 1)).setGrp g ((m.grp g).set j (m.hashOf x.1))) md x f2 f1 c
      (Prober.init g) j (by rw [hpos']; exact hc) hs.free
    rw [hpos'] at h
    exact h
  refine .quiet (.unlock _ _ _) ?_
  refine .quiet (.leave _) ?_
  exact .refl _ _

/-- Erasing the element just inserted restores everything but the insertion counter. -/
theorem hops_erase {m : Mem K V} {g j : Nat} {md : Mode} {x : K × V} {f2 f1 : K × V → V}
    (hs : Stage m g j fun _ => .insert md x f2 f1) (hj : j < N) (v : V) (heq : m.tab.fns.eq x.1 x.1 = true) :
    Hops (m.inserted g j x v) (.start (.key (.erase x.1 fun _ => none))) (m.withCnt g (m.cnt g + 1)) (.done 1) := by
  have hpos : (m.inserted g j x v).pos0 x.1 = g := hs.pos 0
  have hgrp : (m.inserted g j x v).grp g = (m.grp g).set j (m.hashOf x.1) := by
    simp [Mem.inserted, Mem.grp, Mem.setSlot, Mem.incCnt, Mem.setGrp, Mem.setSize, Arrays.setSlot, Arrays.setGrp]
  have hofw : ((m.inserted g j x v).grp g).isNotOverflowed (m.hashOf x.1) = true := by rw [hgrp]; exact hs.ofw 0
  have hmdj : ((m.inserted g j x v).grp g).md j = rhash (m.hashOf x.1) := by rw [hgrp]; simp [Group.set]
  have hmd : ∀ l < N, l ≠ j → ((m.inserted g j x v).grp g).md l ≠ rhash (m.hashOf x.1) := by
    intro l hl hlj
    rw [hgrp]
    simp only [Group.set, if_neg hlj]
    exact hs.miss 0 l hl
  have hslot : (m.inserted g j x v).slot g j = some (x.1, v) := by
    simp [Mem.inserted, Mem.slot, Mem.setSlot, Arrays.setSlot]
  have hdrop : (m.inserted g j x v).drop g j = 0 := by
    have : ((m.inserted g j x v).grp g).maybeCausedOverflow j = false := by
      simp only [Group.maybeCausedOverflow]
      rw [hmdj]
      have : ((m.inserted g j x v).grp g).isNotOverflowed (rhash (m.hashOf x.1)) = true := by
        rw [← hofw]
        simp only [Group.isNotOverflowed, rhash_mod8]
      rw [this]
      rfl
    simp [Mem.drop, this]
  have h2 := rhash_ge_two (m.hashOf x.1)
  refine .quiet (.enter _) ?_
  have hp0 : probe0 (m.inserted g j x v) (.erase x.1 fun _ => none) = Prober.init g := congrArg Prober.init hpos
  show Hops _ (.scan (.erase x.1 fun _ => none) 0 (probe0 (m.inserted g j x v) _) (List.range N) []) _ _
  rw [hp0]
  refine .quiet (.scanMatch _ _ _ _ _ j (List.mem_range.2 hj) ?_) ?_
  · show ((m.inserted g j x v).grp g).md j ≠ 1
    omega
  refine (hops_scan fun l hl => ?_).trans ?_
  · have hn : (List.range N).Nodup := List.nodup_range
    have := (List.Nodup.mem_erase_iff hn).1 hl
    exact hmd l (List.mem_range.1 this.2) this.1
  refine .quiet (.scanSome _ _ _ _ (by simp)) ?_
  refine .quiet (.lockX _ _ _ _ rfl trivial) ?_
  have hf : ((List.range N).filter fun l => decide (l ∈ [j])) = [j] := by
    have h1 : ∀ l ∈ List.range N, decide (l ∈ [j]) = (l == j) := by
      intro l _; by_cases h : l = j <;> simp [h]
    rw [List.filter_congr h1]
    have : ∀ j < N, (List.range N).filter (fun l => l == j) = [j] := by decide
    exact this j hj
  rw [hf]
  refine .quiet (.checkHit _ _ _ j [] (x.1, v) ?_ hslot heq) ?_
  · show ((m.inserted g j x v).grp g).md j ≠ 0
    omega
  refine .eff (.erase _ _ _ _ (x.1, v) hslot rfl (by
    show (m.inserted g j x v).drop g j ≤ _
    rw [hdrop]; exact Nat.zero_le _)) ?_
  refine .eff (.eraseReset _ _ _ _) ?_
  refine .eff (.eraseSize _ _ (Nat.le_add_left _ _)) ?_
  refine .quiet (.unlock _ _ _) ?_
  refine .quiet (.leave _) ?_
  have hfin : (((((m.inserted g j x v).setSlot g j none).setMl ((m.inserted g j x v).tab.ml - 0)).setGrp g
      (((m.inserted g j x v).grp g).reset j)).setSize (m.tab.size + 1 - 1)) = m.withCnt g (m.cnt g + 1) := by
    rw [hgrp]
    have hg : ((m.grp g).set j (m.hashOf x.1)).reset j = m.grp g := by
      have h0 := hs.md
      generalize m.grp g = G at h0
      obtain ⟨md, ofw⟩ := G
      simp only [Group.set, Group.reset, Group.mk.injEq, and_true]
      funext i
      by_cases hi : i = j
      · subst hi; simpa using h0.symm
      · simp [hi]
    rw [hg]
    simp only [Mem.inserted, Mem.withCnt, Mem.setSlot, Mem.incCnt, Mem.setGrp, Mem.setSize, Mem.setMl, Arrays.setSlot,
      Arrays.setGrp, Nat.sub_zero, Nat.add_sub_cancel]
    have h1 : (fun i => if i = g then m.grp g else if i = g then (m.grp g).set j (m.hashOf x.1) else m.tab.arr.grp i) =
        m.tab.arr.grp := by
      funext i
      by_cases hi : i = g
      · simp [hi, Mem.grp]
      · simp [hi]
    have h2 : (fun i l => if i = g ∧ l = j then none else if i = g ∧ l = j then some (x.1, v) else m.tab.arr.slot i l) =
        m.tab.arr.slot := by
      funext i l
      by_cases hi : i = g ∧ l = j
      · rw [if_pos hi, hi.1, hi.2]; exact hs.free.symm
      · rw [if_neg hi, if_neg hi]
    rw [h1, h2]
  refine Hops.of_eq ?_
  change ((((m.inserted g j x v).setSlot g j none).setMl ((m.inserted g j x v).tab.ml - (m.inserted g j x v).drop g j)).setGrp g
      (((m.inserted g j x v).grp g).reset j)).setSize (m.tab.size + 1 - 1) = _
  rw [hdrop]
  exact hfin

/-- A thread that inserts and erases a key over and over. -/
theorem hops_cycle {m : Mem K V} {g j : Nat} {md : Mode} {x : K × V} {f2 f1 : K × V → V}
    (hs : Stage m g j fun _ => .insert md x f2 f1) (hj : j < N) (heq : m.tab.fns.eq x.1 x.1 = true) (r : Nat) :
    Hops m (.done r) (m.withCnt g (m.cnt g + 1)) (.done 1) :=
  .quiet (.callAgain r _) (((hops_search hs).trans (hops_insert hs.toRoom rfl)).trans
    (.quiet (.callAgain 1 _) (hops_erase hs hj _ heq)))

theorem Stage.withCnt {m : Mem K V} {g j : Nat} {o : Nat → KOp K V} (h : Stage m g j o) (n : Nat) :
    Stage (m.withCnt g n) g j o := ⟨⟨h.ins, h.pos, h.elems, h.avail, h.free, h.md, h.room⟩, h.miss, h.ofw⟩

theorem Mem.withCnt_self (m : Mem K V) (g : Nat) : m.withCnt g (m.cnt g) = m := by
  obtain ⟨t, c⟩ := m
  simp only [Mem.withCnt, Mem.mk.injEq, true_and]
  funext i
  by_cases hi : i = g <;> simp [hi]

theorem hops_cycles {m : Mem K V} {g j : Nat} {md : Mode} {x : K × V} {f2 f1 : K × V → V}
    (hs : Stage m g j fun _ => .insert md x f2 f1) (hj : j < N) (heq : m.tab.fns.eq x.1 x.1 = true) :
    ∀ n, Hops m (.done 1) (m.withCnt g (m.cnt g + n)) (.done 1)
  | 0 => by
    exact Hops.of_eq (m.withCnt_self g).symm
  | n + 1 => by
    refine (hops_cycles hs hj heq n).trans ?_
    have h := hops_cycle (hs.withCnt (m.cnt g + n)) hj heq 1
    have h2 : (m.withCnt g (m.cnt g + n)).withCnt g ((m.withCnt g (m.cnt g + n)).cnt g + 1) = m.withCnt g (m.cnt g + (n + 1)) := by
      simp only [Mem.withCnt, if_true]
      congr 1
      funext i
      by_cases hi : i = g <;> simp [hi, Nat.add_assoc]
    rw [h2] at h
    exact h

end Conc.Tab

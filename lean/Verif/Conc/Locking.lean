/-
The locks of concurrent containers: every thread runs a list of lock acquisitions and releases; every acquisition runs the
spinlock of `Verif.Conc.Spinlock` access by access.
Source: /repo/include/boost/unordered/detail/foa/concurrent_table.hpp.

What is left out: the data the locks protect (so a program is the list of locks an execution takes, whatever decided it), and
the parallel overloads, whose worker threads are further threads of the model. In `Section`, user callbacks
that run under a group lock do not call operations of concurrent containers (nested calls are shown to deadlock in
`Props.ConcDeadlock`); programs with such calls are in `Verif.Conc.Nested`.
-/
import Verif.Conc.Spinlock
import Mathlib.Data.Prod.Lex
import Mathlib.Data.Finset.Max
import Mathlib.Data.List.Nodup

namespace Conc.Locking
open Conc.Spin (Pc Act)

/-- The locks: mutex `idx` of the container at address `addr` (concurrent_table.hpp:107-124, 1107, 1976), and the lock of
group `g` of that container (concurrent_table.hpp:221-235). -/
inductive Lock where
  | mutex (addr idx : Nat)
  | group (addr g : Nat)
deriving DecidableEq

inductive Mode where
  | shared
  | excl
deriving DecidableEq

/-- `multimutex_type` has 128 mutexes (concurrent_table.hpp:1107). -/
def mutexCount : Nat := 128

/-- An action of a thread on a lock. -/
inductive LAct where
  | acq (l : Lock) (m : Mode)
  | rel (l : Lock) (m : Mode)
deriving DecidableEq

/-- A lock held together with its mode. -/
abbrev Held := List (Lock × Mode)

/-- A thread: remaining actions, locks held, position inside the spinlock function it is executing. -/
structure Th where
  prog : List LAct
  held : Held
  pc : Pc

/-- All lock words and all threads. -/
structure Sys (n : Nat) where
  word : Lock → Nat
  th : Fin n → Th

/-- The position of a holder. -/
def Mode.pc : Mode → Pc
  | .shared => .shared
  | .excl => .excl

/-- Positions inside `lock_shared()` / `lock()`. -/
def Mode.inside : Mode → Pc → Prop
  | .shared => Pc.inLockShared
  | .excl => Pc.inLock

/-- One access of one thread. -/
inductive TStep (word : Lock → Nat) : Th → (Lock → Nat) → Th → Prop where
  /-- inside `lock_shared()` / `lock()` (rw_spinlock.hpp:88-102, 134-165) -/
  | spin {l m rest held pc w pc'} : Act (word l) pc w pc' → m.inside pc' →
      TStep word ⟨.acq l m :: rest, held, pc⟩ (Function.update word l w) ⟨.acq l m :: rest, held, pc'⟩
  /-- the access that acquires -/
  | acquire {l m rest held pc w} : Act (word l) pc w m.pc →
      TStep word ⟨.acq l m :: rest, held, pc⟩ (Function.update word l w) ⟨rest, (l, m) :: held, .idle⟩
  /-- `unlock_shared()` / `unlock()` (rw_spinlock.hpp:104-112, 167-171) -/
  | release {l m rest held pc w} : (l, m) ∈ held → Act (word l) m.pc w .idle →
      TStep word ⟨.rel l m :: rest, held, pc⟩ (Function.update word l w) ⟨rest, held.erase (l, m), .idle⟩

/-- Thread `t` makes one access. -/
def StepBy {n : Nat} (t : Fin n) (s s' : Sys n) : Prop :=
  ∃ word th, TStep s.word (s.th t) word th ∧ s' = ⟨word, Function.update s.th t th⟩

def Step {n : Nat} (s s' : Sys n) : Prop := ∃ t, StepBy t s s'

/-- Nobody holds anything; thread `t` is to run `progs t`. -/
def init {n : Nat} (progs : Fin n → List LAct) : Sys n := ⟨fun _ => 0, fun t => ⟨progs t, [], .idle⟩⟩

inductive Reach {n : Nat} (progs : Fin n → List LAct) : Sys n → Prop where
  | init : Reach progs (init progs)
  | step {s s'} : Reach progs s → Step s s' → Reach progs s'

/-! ### the operations of the containers, as lock programs -/

/-- Locking one group and unlocking it: the guards of `unprotected_internal_visit` (concurrent_table.hpp:1316), of
`unprotected_bulk_visit` (1384), of insertion (1702) and of `for_all_elements_while` (1767) live for one iteration. -/
def groupPlan (c : Nat) (b : Nat × Mode) : List LAct := [.acq (.group c b.1) b.2, .rel (.group c b.1) b.2]

/-- `multimutex::lock` (concurrent_table.hpp:119) -/
def lockAll (c : Nat) : List LAct := (List.range mutexCount).map fun i => .acq (.mutex c i) .excl
/-- `multimutex::unlock` (concurrent_table.hpp:120) -/
def unlockAll (c : Nat) : List LAct := (List.range mutexCount).reverse.map fun i => .rel (.mutex c i) .excl

/-- The lock operations a container function performs. -/
inductive Section where
  /-- `shared_access()` by a thread with identifier `id` and then any groups, one at a time
  (concurrent_table.hpp:1127-1132) -/
  | shared (c id : Nat) (body : List (Nat × Mode))
  /-- `exclusive_access()` (concurrent_table.hpp:1134-1137) -/
  | excl (c : Nat)
  /-- `exclusive_access(x,y)` (concurrent_table.hpp:1139-1151): `scoped_bilock` -/
  | both (x y : Nat)

/-- The lock program. `thread_local auto id=(++thread_counter)%mutexes.size()` (concurrent_table.hpp:1129); `scoped_bilock`
(concurrent_table.hpp:170-192). -/
def Section.plan : Section → List LAct
  | .shared c id body =>
      .acq (.mutex c (id % mutexCount)) .shared :: body.flatMap (groupPlan c) ++ [.rel (.mutex c (id % mutexCount)) .shared]
  | .excl c => lockAll c ++ unlockAll c
  | .both x y =>
      if x = y then lockAll (if x < y then x else y) ++ unlockAll (if x < y then x else y)
      else lockAll (if x < y then x else y) ++ lockAll (if x < y then y else x) ++
        unlockAll (if x < y then y else x) ++ unlockAll (if x < y then x else y)

/-! ### lock order -/

/-- By the level of the container, its address, mutexes before groups, index. The levels are arbitrary: the order only serves
the proofs. -/
def Lock.rank (lv : Nat → Nat) : Lock → Nat ×ₗ Nat ×ₗ Nat ×ₗ Nat
  | .mutex a i => toLex (lv a, toLex (a, toLex (0, i)))
  | .group a g => toLex (lv a, toLex (a, toLex (1, g)))

variable {lv : Nat → Nat}

/-- Every acquisition is above everything held, every release is of something held, and nothing is held at the end. -/
def Good (lv : Nat → Nat) : Held → List LAct → Prop
  | held, [] => held = []
  | held, .acq l m :: rest => (∀ h ∈ held, h.1.rank lv < l.rank lv) ∧ Good lv ((l, m) :: held) rest
  | held, .rel l m :: rest => (l, m) ∈ held ∧ Good lv (held.erase (l, m)) rest

/-! ### the programs of the containers follow the order -/

theorem good_acqs (m : Mode) : ∀ (ls : List Lock) (held : Held) (rest : List LAct),
    ls.Pairwise (fun a b => a.rank lv < b.rank lv) → (∀ h ∈ held, ∀ l ∈ ls, h.1.rank lv < l.rank lv) →
    Good lv (ls.reverse.map (fun l => (l, m)) ++ held) rest → Good lv held (ls.map (fun l => .acq l m) ++ rest)
  | [], held, rest, _, _, h => by simpa using h
  | l :: ls, held, rest, hp, hh, h => by
    rw [List.pairwise_cons] at hp
    refine ⟨fun x hx => hh x hx l (by simp), good_acqs m ls _ rest hp.2 ?_ ?_⟩
    · intro x hx l' hl'
      rcases List.mem_cons.mp hx with e | e
      · subst e; exact hp.1 l' hl'
      · exact hh x e l' (by simp [hl'])
    · simpa using h

theorem good_rels (m : Mode) : ∀ (ls : List Lock) (held : Held) (rest : List LAct),
    Good lv held rest → Good lv (ls.map (fun l => (l, m)) ++ held) (ls.map (fun l => .rel l m) ++ rest)
  | [], held, rest, h => by simpa using h
  | l :: ls, held, rest, h => by
    refine ⟨by simp, ?_⟩
    simp only [List.map_cons, List.cons_append, List.erase_cons_head]
    exact good_rels m ls held rest h

/-- The mutexes of a container, in order. -/
def mutexesOf (c : Nat) : List Lock := (List.range mutexCount).map fun i => .mutex c i

theorem lockAll_eq (c : Nat) : lockAll c = (mutexesOf c).map (fun l => .acq l .excl) := by
  simp [lockAll, mutexesOf, Function.comp_def]

theorem unlockAll_eq (c : Nat) : unlockAll c = (mutexesOf c).reverse.map (fun l => .rel l .excl) := by
  simp only [unlockAll, mutexesOf, ← List.map_reverse, List.map_map]; rfl

theorem mutexesOf_sorted (c : Nat) : (mutexesOf c).Pairwise (fun a b => a.rank lv < b.rank lv) := by
  refine List.Pairwise.map _ ?_ List.pairwise_lt_range
  intro a b hab
  simp [Lock.rank, Prod.Lex.toLex_lt_toLex, hab]

theorem mutex_rank_lt {a b i j : Nat} (h : a < b) (hl : lv a ≤ lv b) :
    (Lock.mutex a i).rank lv < (Lock.mutex b j).rank lv := by
  simp only [Lock.rank, Prod.Lex.toLex_lt_toLex, h, true_or, and_true]
  exact lt_or_eq_of_le hl

theorem mutex_lt_group (a i g : Nat) : (Lock.mutex a i).rank lv < (Lock.group a g).rank lv := by
  simp [Lock.rank, Prod.Lex.toLex_lt_toLex]

theorem good_body (c : Nat) (held : Held) (hh : ∀ h ∈ held, ∀ g, h.1.rank lv < (Lock.group c g).rank lv) :
    ∀ (body : List (Nat × Mode)) (rest : List LAct), Good lv held rest → Good lv held (body.flatMap (groupPlan c) ++ rest)
  | [], rest, h => by simpa using h
  | b :: body, rest, h => by
    simp only [List.flatMap_cons, groupPlan, List.cons_append, List.nil_append]
    refine ⟨fun x hx => hh x hx _, by simp, ?_⟩
    rw [List.erase_cons_head]
    exact good_body c held hh body rest h

theorem good_all (c : Nat) (held : Held) (rest : List LAct) (hh : ∀ h ∈ held, ∀ i, h.1.rank lv < (Lock.mutex c i).rank lv)
    (hm : Good lv ((mutexesOf c).reverse.map (fun l => (l, .excl)) ++ held) rest) : Good lv held (lockAll c ++ rest) := by
  rw [lockAll_eq]
  refine good_acqs .excl _ _ _ (mutexesOf_sorted c) ?_ hm
  intro h hh' l hl
  simp only [mutexesOf, List.mem_map] at hl
  obtain ⟨j, _, rfl⟩ := hl
  exact hh h hh' j

theorem mem_mutexes {c : Nat} {held : Held} {h : Lock × Mode}
    (hh : h ∈ (mutexesOf c).reverse.map (fun l => (l, Mode.excl)) ++ held) : (∃ i, h.1 = .mutex c i) ∨ h ∈ held := by
  simp only [mutexesOf, List.mem_append, List.mem_map, List.mem_reverse] at hh
  rcases hh with ⟨l, ⟨i, _, rfl⟩, rfl⟩ | hh
  · exact .inl ⟨i, rfl⟩
  · exact .inr hh

/-- An exclusive section, with a program inside that only needs the locks of the section and those held before. -/
theorem good_excl (c : Nat) {held : Held} {mid rest : List LAct}
    (hh : ∀ h ∈ held, ∀ i, h.1.rank lv < (Lock.mutex c i).rank lv)
    (hm : ∀ rest, Good lv ((mutexesOf c).reverse.map (fun l => (l, .excl)) ++ held) rest →
      Good lv ((mutexesOf c).reverse.map (fun l => (l, .excl)) ++ held) (mid ++ rest))
    (h : Good lv held rest) : Good lv held (lockAll c ++ mid ++ unlockAll c ++ rest) := by
  simp only [List.append_assoc]
  refine good_all c held _ hh (hm _ ?_)
  rw [unlockAll_eq]
  exact good_rels .excl _ _ _ h

/-- The same on two containers. -/
theorem good_two {a b : Nat} (hab : a < b) (hl : lv a ≤ lv b) {held : Held} {mid rest : List LAct}
    (hh : ∀ h ∈ held, ∀ i, h.1.rank lv < (Lock.mutex a i).rank lv ∧ h.1.rank lv < (Lock.mutex b i).rank lv)
    (hm : ∀ rest, Good lv ((mutexesOf b).reverse.map (fun l => (l, .excl)) ++
        ((mutexesOf a).reverse.map (fun l => (l, .excl)) ++ held)) rest →
      Good lv ((mutexesOf b).reverse.map (fun l => (l, .excl)) ++
        ((mutexesOf a).reverse.map (fun l => (l, .excl)) ++ held)) (mid ++ rest))
    (h : Good lv held rest) : Good lv held (lockAll a ++ lockAll b ++ mid ++ unlockAll b ++ unlockAll a ++ rest) := by
  have := good_excl (lv := lv) a (mid := lockAll b ++ mid ++ unlockAll b) (fun h hx i => (hh h hx i).1) ?_ h
  · simpa only [List.append_assoc] using this
  · intro rest' h'
    refine good_excl b (fun x hx i => ?_) hm h'
    rcases mem_mutexes hx with ⟨j, e⟩ | hx
    · rw [e]; exact mutex_rank_lt hab hl
    · exact (hh x hx i).2

theorem good_plan (x : Section) {rest : List LAct} (h : Good (fun _ => 0) [] rest) :
    Good (fun _ => 0) [] (x.plan ++ rest) := by
  cases x with
  | shared c id body =>
    simp only [Section.plan, List.cons_append, List.append_assoc, List.nil_append]
    refine ⟨by simp, good_body c _ ?_ body _ ⟨by simp, ?_⟩⟩
    · intro x hx g; simp at hx; subst hx; exact mutex_lt_group _ _ _
    · rw [List.erase_cons_head]; exact h
  | excl c => simpa [Section.plan] using good_excl (mid := []) c (by simp) (fun _ h => h) h
  | both x y =>
    simp only [Section.plan]
    split
    · simpa using good_excl (mid := []) _ (by simp) (fun _ h => h) h
    · next hne =>
      split
      · next hlt => simpa using good_two (mid := []) hlt le_rfl (by simp) (fun _ h => h) h
      · next hlt =>
        simpa using good_two (mid := []) (show y < x by omega) le_rfl (by simp) (fun _ h => h) h

/-- Whatever operations a thread performs, its lock program follows the order. -/
theorem good_program : ∀ ops : List Section, Good (fun _ => 0) [] (ops.flatMap Section.plan)
  | [] => rfl
  | o :: ops => by rw [List.flatMap_cons]; exact good_plan o (good_program ops)

/-! ### every lock, seen alone, is a spinlock run -/

/-- Where a thread is with respect to lock `l`. -/
def projT (th : Th) (l : Lock) : Pc :=
  if (l, .excl) ∈ th.held then .excl
  else if (l, .shared) ∈ th.held then .shared
  else match th.prog with
    | .acq l' _ :: _ => if l' = l then th.pc else .idle
    | _ => .idle

/-- Lock `l` and all threads, as a state of the spinlock model. -/
def proj {n : Nat} (s : Sys n) (l : Lock) : Spin.State n := ⟨s.word l, fun t => projT (s.th t) l⟩

/-- The locks held are in decreasing order. -/
def Sorted (lv : Nat → Nat) (held : Held) : Prop := held.Pairwise fun a b => b.1.rank lv < a.1.rank lv

theorem Sorted.unique {held : Held} (h : Sorted lv held) {l : Lock} {m m' : Mode} (h1 : (l, m) ∈ held) (h2 : (l, m') ∈ held) :
    m = m' := by
  induction held with
  | nil => simp at h1
  | cons a held ih =>
    unfold Sorted at h
    rw [List.pairwise_cons] at h
    rcases List.mem_cons.mp h1 with e1 | e1 <;> rcases List.mem_cons.mp h2 with e2 | e2
    · exact (Prod.mk.inj (e1.trans e2.symm)).2
    · subst e1; exact absurd (h.1 _ e2) (lt_irrefl _)
    · subst e2; exact absurd (h.1 _ e1) (lt_irrefl _)
    · exact ih h.2 e1 e2

theorem Sorted.erase {held : Held} (h : Sorted lv held) (x : Lock × Mode) : Sorted lv (held.erase x) :=
  h.sublist List.erase_sublist

theorem Sorted.not_mem_erase {held : Held} (h : Sorted lv held) {l : Lock} {m m' : Mode} (hm : (l, m) ∈ held) :
    (l, m') ∉ held.erase (l, m) := by
  intro hc
  have e := h.unique hm (List.mem_of_mem_erase hc)
  subst e
  have hn : held.Nodup := h.imp fun hab e => by subst e; exact lt_irrefl _ hab
  exact (List.Nodup.not_mem_erase hn) hc

theorem projT_held {th : Th} (h : Sorted lv th.held) {l : Lock} {m : Mode} (hm : (l, m) ∈ th.held) : projT th l = m.pc := by
  unfold projT
  cases m with
  | excl => rw [if_pos hm]; rfl
  | shared =>
    rw [if_neg (fun hc => by have := h.unique hm hc; simp at this), if_pos hm]; rfl

/-- Consistency of one thread. -/
structure ThOk (lv : Nat → Nat) (th : Th) : Prop where
  good : Good lv th.held th.prog
  sorted : Sorted lv th.held
  pc : th.pc = .idle ∨ ∃ l m rest, th.prog = .acq l m :: rest ∧ m.inside th.pc

theorem not_held {held : Held} {l : Lock} (h : ∀ x ∈ held, x.1.rank lv < l.rank lv) (m : Mode) : (l, m) ∉ held := by
  intro hc; exact lt_irrefl _ (h _ hc)

theorem TStep.facts {word word' : Lock → Nat} {th th' : Th} (hs : TStep word th word' th') (h : ThOk lv th) :
    ThOk lv th' ∧ ∃ l, (∀ l', l' ≠ l → word' l' = word l' ∧ projT th' l' = projT th l') ∧
      Act (word l) (projT th l) (word' l) (projT th' l) := by
  cases hs with
  | @spin l m rest held pc w pc' ha hin =>
    have hg : (∀ x ∈ held, x.1.rank lv < l.rank lv) ∧ Good lv ((l, m) :: held) rest := h.good
    have n1 := not_held hg.1 .excl
    have n2 := not_held hg.1 .shared
    refine ⟨⟨h.good, h.sorted, .inr ⟨_, _, _, rfl, hin⟩⟩, l, fun l' hl' => ⟨Function.update_of_ne hl' _ _, ?_⟩, ?_⟩
    · simp [projT, Ne.symm hl']
    · simpa [projT, n1, n2] using ha
  | @acquire l m rest held pc w ha =>
    have hg : (∀ x ∈ held, x.1.rank lv < l.rank lv) ∧ Good lv ((l, m) :: held) rest := h.good
    have n1 := not_held hg.1 .excl
    have n2 := not_held hg.1 .shared
    have hs' : Sorted lv ((l, m) :: held) := List.pairwise_cons.mpr ⟨hg.1, h.sorted⟩
    refine ⟨⟨hg.2, hs', .inl rfl⟩, l, fun l' hl' => ⟨Function.update_of_ne hl' _ _, ?_⟩, ?_⟩
    · have e : ∀ m', ((l', m') ∈ (l, m) :: held) = ((l', m') ∈ held) := by
        intro m'; simp [hl']
      simp only [projT, e, Ne.symm hl', if_false]
      split
      · rfl
      · split
        · rfl
        · split <;> simp
    · have e1 : projT ⟨.acq l m :: rest, held, pc⟩ l = pc := by simp [projT, n1, n2]
      have e2 : projT ⟨rest, (l, m) :: held, .idle⟩ l = m.pc := projT_held hs' (by simp)
      rw [e1, e2]; simpa using ha
  | @release l m rest held pc w hm ha =>
    have hg : (l, m) ∈ held ∧ Good lv (held.erase (l, m)) rest := h.good
    refine ⟨⟨hg.2, h.sorted.erase _, .inl rfl⟩, l, fun l' hl' => ⟨Function.update_of_ne hl' _ _, ?_⟩, ?_⟩
    · have e : ∀ m', ((l', m') ∈ held.erase (l, m)) = ((l', m') ∈ held) := by
        intro m'; rw [List.mem_erase_of_ne (by simp [hl'])]
      simp only [projT, e]
      split
      · rfl
      · split
        · rfl
        · split <;> simp
    · have e1 : projT ⟨.rel l m :: rest, held, pc⟩ l = m.pc := projT_held h.sorted hm
      have n1 : (l, Mode.excl) ∉ held.erase (l, m) := h.sorted.not_mem_erase hm
      have n2 : (l, Mode.shared) ∉ held.erase (l, m) := h.sorted.not_mem_erase hm
      have e2 : projT ⟨rest, held.erase (l, m), .idle⟩ l = .idle := by
        simp only [projT, n1, n2, if_false]
        split <;> simp
      rw [e1, e2]; simpa using ha

/-- Invariant of the whole system. -/
structure Inv (lv : Nat → Nat) {n : Nat} (s : Sys n) : Prop where
  th : ∀ t, ThOk lv (s.th t)
  lock : ∀ l, Spin.Reach (proj s l)

theorem Inv.step {n : Nat} {s s' : Sys n} (h : Inv lv s) (hs : Step s s') : Inv lv s' := by
  obtain ⟨t, word, th, ht, rfl⟩ := hs
  obtain ⟨h1, l, h2, h3⟩ := ht.facts (h.th t)
  refine ⟨fun u => ?_, fun l' => ?_⟩
  · by_cases hu : u = t
    · subst hu; simpa using h1
    · simpa only [Function.update_of_ne hu] using h.th u
  · by_cases hl : l' = l
    · subst hl
      refine (h.lock l').step ⟨t, _, _, h3, ?_⟩
      simp only [proj]
      congr 1
      funext u
      by_cases hu : u = t
      · subst hu; simp
      · simp [Function.update_of_ne hu]
    · obtain ⟨e1, e2⟩ := h2 l' hl
      have : proj ⟨word, Function.update s.th t th⟩ l' = proj s l' := by
        simp only [proj, e1]
        congr 1
        funext u
        by_cases hu : u = t
        · subst hu; simpa using e2
        · simp [Function.update_of_ne hu]
      rw [this]; exact h.lock l'

theorem Reach.inv {n : Nat} {progs : Fin n → List LAct} (hp : ∀ t, Good lv [] (progs t)) {s : Sys n} (h : Reach progs s) :
    Inv lv s := by
  induction h with
  | init =>
    refine ⟨fun t => ⟨hp t, List.Pairwise.nil, .inl rfl⟩, fun l => ?_⟩
    have : proj (Locking.init progs) l = Spin.init n := by
      simp only [proj, Locking.init, Spin.init]
      congr 1
      funext t
      simp only [projT, List.not_mem_nil, if_false]
      split <;> simp
    rw [this]; exact .init
  | step _ hs ih => exact ih.step hs

end Conc.Locking

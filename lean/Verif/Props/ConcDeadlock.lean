/-
C28: container-level locking is deadlock free. `ops t` is the list of lock sections thread `t` goes through in any number of
operations on any number of containers (`Conc.Locking.Section`): a shared section on a container with any group locks inside it
one at a time, a whole-container exclusive section, or an exclusive section on two containers.
-/
import Verif.Conc.Locking
import Verif.Props.ConcLock
import Mathlib.Algebra.Order.BigOperators.Group.Finset

namespace Props.ConcDeadlock
open Conc Conc.Locking
open Conc.Spin (Pc Act)

variable {n : Nat} {lv : Nat → Nat}

/-- The states reachable when thread `t` performs `ops t`. -/
def Runs (ops : Fin n → List Section) (s : Sys n) : Prop := Reach (fun t => (ops t).flatMap Section.plan) s

def Steps : Sys n → Sys n → Prop := Relation.ReflTransGen Step

/-- Thread `t` has locks to take or give back. -/
def Unfinished (s : Sys n) (t : Fin n) : Prop := (s.th t).prog ≠ []

/-- Somebody is not done, and whatever happens no thread ever completes its next acquisition or release. -/
def Deadlocked (s : Sys n) : Prop :=
  (∃ t, Unfinished s t) ∧ ∀ s', Steps s s' → ∀ t, (s'.th t).prog = (s.th t).prog

/-! ### proofs -/

theorem act_inside {m : Mode} {w w' : Nat} {pc pc' : Pc} (ha : Act w pc w' pc') (h : m.inside pc) :
    m.inside pc' ∨ pc' = m.pc := by
  cases m <;> cases pc <;> simp [Mode.inside, Pc.inLock, Pc.inLockShared] at h <;> cases ha <;>
    simp [Mode.inside, Mode.pc, Pc.inLock, Pc.inLockShared]
  · next st hst => by_cases hc : st < Spin.readMask <;> simp [hc]
  · next st hst => exact .inl (Spin.afterLoad_ok hst).2

theorem inside_ne {m : Mode} {pc : Pc} (h : m.inside pc) : pc ≠ .excl ∧ pc ≠ .shared ∧ pc ≠ .idle := by
  cases m <;> cases pc <;> simp [Mode.inside, Pc.inLock, Pc.inLockShared] at h <;> simp

/-- One access on behalf of the head acquisition, seen on the lock alone and on the system. -/
theorem lift_step {s : Sys n} (h : Inv lv s) {u : Fin n} {l : Lock} {m : Mode} {rest : List LAct}
    (hp : (s.th u).prog = .acq l m :: rest) (hpc : m.inside (s.th u).pc ∨ (s.th u).pc = .idle)
    {w : Nat} {pc' : Pc} (ha : Act (s.word l) (s.th u).pc w pc') (hin : m.inside pc') :
    ∃ s', Step s s' ∧ (s'.th u).prog = (s.th u).prog ∧ (s'.th u).pc = pc' ∧ (∀ v, v ≠ u → s'.th v = s.th v) ∧
      proj s' l = ⟨w, Function.update (proj s l).pc u pc'⟩ := by
  refine ⟨⟨Function.update s.word l w, Function.update s.th u ⟨(s.th u).prog, (s.th u).held, pc'⟩⟩, ?_, by simp, by simp,
    fun v hv => by simp [hv], ?_⟩
  · refine ⟨u, _, _, ?_, rfl⟩
    rw [hp]
    have : s.th u = ⟨.acq l m :: rest, (s.th u).held, (s.th u).pc⟩ := by rw [← hp]
    rw [this]
    exact .spin ha hin
  · have hg := (h.th u).good
    rw [hp] at hg
    have n1 := not_held hg.1 .excl
    have n2 := not_held hg.1 .shared
    simp only [proj, Function.update_self]
    congr 1
    funext v
    by_cases hv : v = u
    · subst hv; simp [projT, n1, n2, hp]
    · simp [Function.update_of_ne hv]

theorem Inv.steps {s s' : Sys n} (h : Inv lv s) (hs : Steps s s') : Inv lv s' := by
  induction hs with
  | refl => exact h
  | tail _ hs ih => exact ih.step hs

theorem projT_acq {th : Th} (h : ThOk lv th) {l : Lock} {m : Mode} {rest : List LAct} (hp : th.prog = .acq l m :: rest) :
    projT th l = th.pc := by
  have hg := h.good
  rw [hp] at hg
  simp [projT, not_held hg.1 .excl, not_held hg.1 .shared, hp]

/-- A run of the lock alone in which `u` gets it is a run of the system in which `u` completes its acquisition. -/
theorem lift_run {l : Lock} {m : Mode} {rest : List LAct} {u : Fin n} {a b : Spin.State n}
    (hr : ConcLock.StepsOf u a b) : ∀ (s : Sys n), Inv lv s → proj s l = a → (s.th u).prog = .acq l m :: rest →
    m.inside (s.th u).pc → ¬ m.inside (b.pc u) →
    ∃ s', Steps s s' ∧ (s'.th u).prog = rest ∧ ∀ v, v ≠ u → (s'.th v).prog = (s.th v).prog := by
  refine Relation.ReflTransGen.head_induction_on hr ?_ ?_
  · intro s h e hp hin hn
    have : b.pc u = (s.th u).pc := by rw [← e]; exact projT_acq (h.th u) hp
    rw [this] at hn
    exact absurd hin hn
  · intro a c hac _ ih s h e hp hin hn
    obtain ⟨w, pc', ha, rfl⟩ := hac
    have e1 : a.word = s.word l := by rw [← e]; rfl
    have e2 : a.pc u = (s.th u).pc := by rw [← e]; exact projT_acq (h.th u) hp
    rw [e1, e2] at ha
    rcases act_inside ha hin with h1 | h1
    · obtain ⟨s1, j1, j2, j3, j4, j5⟩ := lift_step h hp (.inl hin) ha h1
      obtain ⟨s', k1, k2, k3⟩ := ih _ (h.step j1) (by rw [j5, ← e]) (j2.trans hp) (by rw [j3]; exact h1) hn
      exact ⟨s', .head j1 k1, k2, fun v hv => by rw [k3 v hv, j4 v hv]⟩
    · subst h1
      refine ⟨⟨Function.update s.word l w, Function.update s.th u ⟨rest, (l, m) :: (s.th u).held, .idle⟩⟩,
        .single ⟨u, _, _, ?_, rfl⟩, ?_, fun v hv => by simp only [Function.update_of_ne hv]⟩
      · have : s.th u = ⟨.acq l m :: rest, (s.th u).held, (s.th u).pc⟩ := by rw [← hp]
        rw [this]
        exact .acquire ha
      · simp

/-- The lock a thread is about to take (anything if it is not about to take one). -/
def wanted (th : Th) : Lock :=
  match th.prog with
  | .acq l _ :: _ => l
  | _ => .mutex 0 0

/-- In a state of the invariant, if somebody is not done then somebody completes its next action. -/
theorem progress {s : Sys n} (h : Inv lv s) (hu : ∃ t, Unfinished s t) :
    ∃ u s', Unfinished s u ∧ Steps s s' ∧ (s'.th u).prog = (s.th u).prog.tail ∧
      ∀ v, v ≠ u → (s'.th v).prog = (s.th v).prog := by
  classical
  by_cases hrel : ∃ u l m rest, (s.th u).prog = .rel l m :: rest
  · obtain ⟨u, l, m, rest, hp⟩ := hrel
    have hg := (h.th u).good
    rw [hp] at hg
    have hact : ∃ w, Act (s.word l) m.pc w .idle := by
      cases m
      · exact ⟨_, .unlockShared _⟩
      · exact ⟨_, .unlock _⟩
    obtain ⟨w, ha⟩ := hact
    refine ⟨u, ⟨Function.update s.word l w, Function.update s.th u ⟨rest, (s.th u).held.erase (l, m), .idle⟩⟩, ?_, ?_, ?_, ?_⟩
    · simp [Unfinished, hp]
    · refine .single ⟨u, _, _, ?_, rfl⟩
      have : s.th u = ⟨.rel l m :: rest, (s.th u).held, (s.th u).pc⟩ := by rw [← hp]
      rw [this]
      exact .release hg.1 ha
    · simp [hp]
    · intro v hv; simp [Function.update_of_ne hv]
  · have hacq : ∀ t, Unfinished s t → ∃ l m rest, (s.th t).prog = .acq l m :: rest := by
      intro t ht
      cases hp : (s.th t).prog with
      | nil => exact absurd hp ht
      | cons a rest =>
        cases a with
        | acq l m => exact ⟨l, m, rest, rfl⟩
        | rel l m => exact absurd ⟨t, l, m, rest, hp⟩ hrel
    obtain ⟨t0, ht0⟩ := hu
    obtain ⟨t, ht, hmax⟩ := Finset.exists_max_image (Finset.univ.filter (Unfinished s)) (fun t => (wanted (s.th t)).rank lv)
      ⟨t0, by simpa using ht0⟩
    have ht : Unfinished s t := by simpa using ht
    obtain ⟨l, m, rest, hp⟩ := hacq t ht
    have hw : wanted (s.th t) = l := by simp [wanted, hp]
    have nohold : ∀ v m', (l, m') ∉ (s.th v).held := by
      intro v m' hv
      have hv' : Unfinished s v := by
        intro e
        have hg := (h.th v).good
        rw [e] at hg
        have hg : (s.th v).held = [] := hg
        rw [hg] at hv; simp at hv
      obtain ⟨l', m'', rest', hp'⟩ := hacq v hv'
      have hg := (h.th v).good
      rw [hp'] at hg
      have h1 := hg.1 _ hv
      have h2 := hmax v (by simpa using hv')
      rw [hw] at h2
      have h3 : wanted (s.th v) = l' := by simp [wanted, hp']
      rw [h3] at h2
      exact absurd h1 (not_lt.mpr h2)
    -- a state in which `t` is inside its call
    obtain ⟨s1, a1, a2, a3, a4, a5⟩ : ∃ s1, Steps s s1 ∧ (∀ v, (s1.th v).prog = (s.th v).prog) ∧
        (∀ v, (s1.th v).held = (s.th v).held) ∧ m.inside (s1.th t).pc ∧ Inv lv s1 := by
      rcases (h.th t).pc with hi | ⟨l', m', rest', hp', hin⟩
      · obtain ⟨pc', ha, hin⟩ : ∃ pc', Act (s.word l) (s.th t).pc (s.word l) pc' ∧ m.inside pc' := by
          rw [hi]
          cases m
          · exact ⟨_, .callShared _, trivial⟩
          · exact ⟨_, .callLock _, trivial⟩
        have hst : StepBy t s ⟨Function.update s.word l (s.word l), Function.update s.th t ⟨(s.th t).prog, (s.th t).held, pc'⟩⟩ := by
          refine ⟨_, _, ?_, rfl⟩
          rw [hp]
          have : s.th t = ⟨.acq l m :: rest, (s.th t).held, (s.th t).pc⟩ := by rw [← hp]
          rw [this]
          exact .spin ha hin
        refine ⟨_, .single ⟨t, hst⟩, fun v => ?_, fun v => ?_, ?_, h.step ⟨t, hst⟩⟩
        · by_cases hv : v = t
          · subst hv; simp
          · simp [Function.update_of_ne hv]
        · by_cases hv : v = t
          · subst hv; simp
          · simp [Function.update_of_ne hv]
        · simpa using hin
      · rw [hp] at hp'
        cases hp'
        exact ⟨s, .refl, fun _ => rfl, fun _ => rfl, hin, h⟩
    have hproj : ∀ v, (∃ m' rest', (s1.th v).prog = .acq l m' :: rest' ∧ (proj s1 l).pc v = (s1.th v).pc) ∨
        (proj s1 l).pc v = .idle := by
      intro v
      have n1 : (l, Mode.excl) ∉ (s1.th v).held := by rw [a3]; exact nohold v _
      have n2 : (l, Mode.shared) ∉ (s1.th v).held := by rw [a3]; exact nohold v _
      simp only [proj, projT, n1, n2, if_false]
      split
      · next l' m' rest' hq =>
        by_cases e : l' = l
        · subst e; exact .inl ⟨m', rest', hq, by simp⟩
        · exact .inr (by simp [e])
      · exact .inr rfl
    have hpcin : ∀ v m' rest', (s1.th v).prog = .acq l m' :: rest' → (s1.th v).pc = .idle ∨ m'.inside (s1.th v).pc := by
      intro v m' rest' hq
      rcases (a5.th v).pc with e | ⟨_, _, _, e1, e2⟩
      · exact .inl e
      · rw [hq] at e1; cases e1; exact .inr e2
    have hfree : ConcLock.Free (proj s1 l) := by
      intro v
      simp only [ConcLock.HoldsX, ConcLock.HoldsS]
      rcases hproj v with ⟨m', rest', e1, e2⟩ | e
      · rw [e2]
        rcases hpcin v m' rest' e1 with e | e
        · rw [e]; simp
        · exact ⟨(inside_ne e).1, (inside_ne e).2.1⟩
      · rw [e]; simp
    have hwait : ∃ v, ConcLock.WaitsX (proj s1 l) v ∨ ConcLock.WaitsS (proj s1 l) v := by
      refine ⟨t, ?_⟩
      have e : (proj s1 l).pc t = (s1.th t).pc := projT_acq (a5.th t) ((a2 t).trans hp)
      simp only [ConcLock.WaitsX, ConcLock.WaitsS, e]
      cases m
      · exact .inr a4
      · exact .inl a4
    obtain ⟨u, hu, k, _, hk⟩ := ConcLock.C27_no_lost_waiters (a5.lock l) hfree hwait
    obtain ⟨m', rest', e1, e2⟩ : ∃ m' rest', (s1.th u).prog = .acq l m' :: rest' ∧ (proj s1 l).pc u = (s1.th u).pc := by
      rcases hproj u with e | e
      · exact e
      · simp [ConcLock.WaitsX, ConcLock.WaitsS, e, Pc.inLock, Pc.inLockShared] at hu
    have hin : m'.inside (s1.th u).pc := by
      rcases hpcin u m' rest' e1 with e | e
      · simp [ConcLock.WaitsX, ConcLock.WaitsS, e2, e, Pc.inLock, Pc.inLockShared] at hu
      · exact e
    have hend : ¬ m'.inside ((ConcLock.solo u k (proj s1 l)).pc u) := by
      intro hc
      rcases hk with hk | hk
      · exact (inside_ne hc).1 hk
      · exact (inside_ne hc).2.1 hk
    obtain ⟨s', b1, b2, b3⟩ := lift_run (ConcLock.solo_steps k (a5.lock l)) s1 a5 rfl e1 hin hend
    refine ⟨u, s', ?_, a1.trans b1, ?_, fun v hv => ?_⟩
    · rw [Unfinished, ← a2 u, e1]; simp
    · rw [b2, ← a2 u, e1]; rfl
    · rw [b3 v hv, a2 v]

theorem Runs.inv {ops : Fin n → List Section} {s : Sys n} (h : Runs ops s) : Inv (fun _ => 0) s :=
  Reach.inv (fun t => good_program (ops t)) h

/-! ### C28 -/

/-- C28: whatever operations any number of threads perform on any number of containers, in every reachable state in which
some thread is not done, some thread can complete the acquisition or release it is at. -/
theorem C28_no_deadlock (ops : Fin n → List Section) (s : Sys n) (h : Runs ops s) : ¬ Deadlocked s := by
  rintro ⟨hu, hd⟩
  obtain ⟨u, s', h1, h2, h3, _⟩ := progress h.inv hu
  have := hd s' h2 u
  rw [h3] at this
  unfold Unfinished at h1
  cases hp : (s.th u).prog with
  | nil => exact h1 hp
  | cons a l => rw [hp] at this; simpa using congrArg List.length this

theorem finish : ∀ (k : Nat) {s : Sys n}, Inv lv s → (∑ t, (s.th t).prog.length) = k →
    ∃ s', Steps s s' ∧ ∀ t, (s'.th t).prog = []
  | k, s, h, hk => by
    by_cases hu : ∃ t, Unfinished s t
    · obtain ⟨u, s1, h1, h2, h3, h4⟩ := progress h hu
      have hlt : (∑ t, (s1.th t).prog.length) < k := by
        rw [← hk]
        refine Finset.sum_lt_sum (fun t _ => ?_) ⟨u, Finset.mem_univ _, ?_⟩
        · by_cases ht : t = u
          · subst ht; rw [h3]; simp
          · rw [h4 t ht]
        · rw [h3]
          have : 0 < (s.th u).prog.length := List.length_pos_iff.mpr h1
          simp; omega
      obtain ⟨s', j1, j2⟩ := finish _ (Inv.steps h h2) rfl
      exact ⟨s', h2.trans j1, j2⟩
    · refine ⟨s, .refl, fun t => ?_⟩
      by_contra hc
      exact hu ⟨t, hc⟩
  termination_by k => k

/-- C28: from every reachable state all threads can still finish everything they have to do. -/
theorem C28_everyone_can_finish (ops : Fin n → List Section) (s : Sys n) (h : Runs ops s) :
    ∃ s', Steps s s' ∧ ∀ t, (s'.th t).prog = [] := finish _ h.inv rfl

/-- Three threads working on two containers: one looks up and inserts in the first, one grows it, one swaps both. -/
def sampleOps : Fin 3 → List Section
  | 0 => [.shared 1 5 [(3, .shared), (3, .excl), (4, .excl)], .excl 1, .shared 1 5 [(7, .excl)]]
  | 1 => [.excl 1, .shared 2 6 [(0, .shared)]]
  | 2 => [.both 2 1, .both 1 1]

example : Runs sampleOps (init fun t => (sampleOps t).flatMap Section.plan) ∧
    ∃ t, Unfinished (init fun t => (sampleOps t).flatMap Section.plan) t :=
  ⟨.init, 0, by simp [Unfinished, init, sampleOps, Section.plan]⟩

/-- C28: while a thread is inside an exclusive section on a container (it holds all 128 mutexes), no other thread is inside
any section on it: it holds no mutex of that container. -/
theorem C28_exclusive_section (ops : Fin n → List Section) (s : Sys n) (h : Runs ops s) (c : Nat) (t u : Fin n) (hu : u ≠ t)
    (ht : ∀ i < 128, (Lock.mutex c i, Mode.excl) ∈ (s.th t).held) (i : Nat) (hi : i < 128) (m : Mode) :
    (Lock.mutex c i, m) ∉ (s.th u).held := by
  intro hm
  have hx : ConcLock.HoldsX (proj s (.mutex c i)) t := projT_held (h.inv.th t).sorted (ht i hi)
  have he := ConcLock.C27_mutual_exclusion (h.inv.lock (.mutex c i)) hx hu
  have : (proj s (.mutex c i)).pc u = m.pc := projT_held (h.inv.th u).sorted hm
  simp only [ConcLock.HoldsX, ConcLock.HoldsS, this] at he
  cases m <;> simp [Mode.pc] at he

/-! ### C28: what is not promised -/

/-- Nested use: a thread visits container 1 and, from the callback (so under the group lock), visits container 2; another
thread does the opposite. -/
def nested : Fin 2 → List LAct
  | 0 => [.acq (.mutex 1 0) .shared, .acq (.group 1 0) .excl, .acq (.mutex 2 0) .shared, .acq (.group 2 0) .excl,
          .rel (.group 2 0) .excl, .rel (.mutex 2 0) .shared, .rel (.group 1 0) .excl, .rel (.mutex 1 0) .shared]
  | 1 => [.acq (.mutex 2 1) .shared, .acq (.group 2 0) .excl, .acq (.mutex 1 1) .shared, .acq (.group 1 0) .excl,
          .rel (.group 1 0) .excl, .rel (.mutex 1 1) .shared, .rel (.group 2 0) .excl, .rel (.mutex 2 1) .shared]

/-- The word of a free lock once taken. -/
def _root_.Conc.Locking.Mode.firstWord : Mode → Nat
  | .shared => 1
  | .excl => Spin.exclMask

theorem acquire_free {progs : Fin n → List LAct} {s : Sys n} (h : Reach progs s) (t : Fin n) {l : Lock} {m : Mode}
    {rest : List LAct} {held : Held} (ht : s.th t = ⟨.acq l m :: rest, held, .idle⟩) (hw : s.word l = 0) :
    Reach progs ⟨Function.update s.word l m.firstWord,
      Function.update s.th t ⟨rest, (l, m) :: held, .idle⟩⟩ := by
  cases m with
  | shared =>
    have h1 := h.step (s' := ⟨Function.update s.word l 0, Function.update s.th t ⟨.acq l .shared :: rest, held, .sharedLoop⟩⟩)
      ⟨t, _, _, by rw [ht]; exact .spin (by rw [hw]; exact .callShared 0) trivial, rfl⟩
    have h2 := h1.step (s' := ⟨Function.update (Function.update s.word l 0) l 0,
        Function.update (Function.update s.th t ⟨.acq l .shared :: rest, held, .sharedLoop⟩) t
          ⟨.acq l .shared :: rest, held, .sharedCas 0⟩⟩)
      ⟨t, _, _, by
        simp only [Function.update_self]
        exact .spin (by simpa [Spin.readMask, Spin.pendMask] using Act.loadShared 0 0 (by omega)) trivial, rfl⟩
    have h3 := h2.step (s' := ⟨Function.update (Function.update (Function.update s.word l 0) l 0) l 1,
        Function.update (Function.update (Function.update s.th t ⟨.acq l .shared :: rest, held, .sharedLoop⟩) t
          ⟨.acq l .shared :: rest, held, .sharedCas 0⟩) t ⟨rest, (l, .shared) :: held, .idle⟩⟩)
      ⟨t, _, _, by
        simp only [Function.update_self]
        exact .acquire (by simpa [Mode.pc] using Act.casShared 0), rfl⟩
    simpa [Mode.firstWord] using h3
  | excl =>
    have h1 := h.step (s' := ⟨Function.update s.word l 0, Function.update s.th t ⟨.acq l .excl :: rest, held, .lockLoop⟩⟩)
      ⟨t, _, _, by rw [ht]; exact .spin (by rw [hw]; exact .callLock 0) trivial, rfl⟩
    have al : Spin.afterLoad 0 = .lockCas 0 := by decide
    have h2 := h1.step (s' := ⟨Function.update (Function.update s.word l 0) l 0,
        Function.update (Function.update s.th t ⟨.acq l .excl :: rest, held, .lockLoop⟩) t
          ⟨.acq l .excl :: rest, held, .lockCas 0⟩⟩)
      ⟨t, _, _, by
        simp only [Function.update_self]
        exact .spin (by simpa [al] using Act.loadLock 0 0 (by omega)) trivial, rfl⟩
    have h3 := h2.step (s' := ⟨Function.update (Function.update (Function.update s.word l 0) l 0) l Spin.exclMask,
        Function.update (Function.update (Function.update s.th t ⟨.acq l .excl :: rest, held, .lockLoop⟩) t
          ⟨.acq l .excl :: rest, held, .lockCas 0⟩) t ⟨rest, (l, .excl) :: held, .idle⟩⟩)
      ⟨t, _, _, by
        simp only [Function.update_self]
        exact .acquire (by simpa [Mode.pc] using Act.casLock 0), rfl⟩
    simpa [Mode.firstWord] using h3

/-- Both threads wait for a group the other one holds. -/
def Stuck (s : Sys 2) : Prop :=
  s.word (.group 1 0) = Spin.exclMask ∧ s.word (.group 2 0) = Spin.exclMask ∧
  (s.th 0).prog = (nested 0).drop 3 ∧ (s.th 1).prog = (nested 1).drop 3 ∧
  ∀ t, Spin.PcOk (s.th t).pc ∧ (s.th t).pc ≠ .excl ∧ (s.th t).pc ≠ .shared

theorem stuck_tstep {word word' : Lock → Nat} {l : Lock} {rest : List LAct} {th th' : Th} (hp : th.prog = .acq l .excl :: rest)
    (hw : word l = Spin.exclMask) (hok : Spin.PcOk th.pc) (hx : th.pc ≠ .excl ∧ th.pc ≠ .shared)
    (hs : TStep word th word' th') :
    word' = word ∧ th'.prog = th.prog ∧ Spin.PcOk th'.pc ∧ th'.pc ≠ .excl ∧ th'.pc ≠ .shared := by
  have he : Spin.exclMask = 2 ^ 31 := by decide
  have up : ∀ w, w = Spin.exclMask → Function.update word l w = word := by
    intro w hw'; rw [hw', ← hw]; exact Function.update_eq_self l word
  cases hs with
  | @spin l' m rest' held pc w pc' ha hin =>
    cases hp
    rw [hw] at ha
    have hin' := inside_ne hin
    cases ha with
    | callLock => exact ⟨up _ rfl, rfl, trivial, by simp, by simp⟩
    | loadLock st hst => exact ⟨up _ rfl, rfl, (Spin.afterLoad_ok hst).1, hin'.1, hin'.2.1⟩
    | casLockFail st => exact ⟨up _ rfl, rfl, trivial, by simp, by simp⟩
    | casPendFail st => exact ⟨up _ rfl, rfl, trivial, by simp, by simp⟩
    | casPend =>
      obtain ⟨h1, _⟩ : Spin.exclMask < 2 ^ 30 ∧ Spin.exclMask ≠ 0 := hok
      omega
    | loadShared st hst => revert hin; split <;> simp [Mode.inside, Pc.inLock]
    | loadTryShared st hst => revert hin; split <;> simp [Mode.inside, Pc.inLock]
    | loadTryLock st hst =>
      revert hin; split
      · simp [Mode.inside, Pc.inLock]
      · split <;> simp [Mode.inside, Pc.inLock]
    | _ => simp [Mode.inside, Pc.inLock] at hin
  | @acquire l' m rest' held pc w ha =>
    cases hp
    rw [hw] at ha
    simp only [Mode.pc] at ha
    cases pc with
    | lockCas st =>
      cases ha
      obtain ⟨h1, _⟩ : Spin.exclMask < 2 ^ 31 ∧ _ := hok
      omega
    | tryLockCas st =>
      cases ha
      obtain ⟨h1, _⟩ : Spin.exclMask < 2 ^ 31 ∧ _ := hok
      omega
    | lockLoop =>
      generalize hq : Pc.excl = q at ha
      cases ha
      exact absurd hq.symm Spin.afterLoad_ne.2
    | sharedLoop =>
      generalize hq : Pc.excl = q at ha
      cases ha
      split at hq <;> simp at hq
    | tryShared =>
      generalize hq : Pc.excl = q at ha
      cases ha
      split at hq <;> simp at hq
    | tryLock =>
      generalize hq : Pc.excl = q at ha
      cases ha
      split at hq
      · simp at hq
      · split at hq <;> simp at hq
    | _ => cases ha
  | release => cases hp

theorem stuck_step {s s' : Sys 2} (h : Stuck s) (hs : Step s s') : Stuck s' ∧ ∀ t, (s'.th t).prog = (s.th t).prog := by
  obtain ⟨h1, h2, h3, h4, h5⟩ := h
  obtain ⟨t, word, th, ht, rfl⟩ := hs
  have key : word = s.word ∧ th.prog = (s.th t).prog ∧ Spin.PcOk th.pc ∧ th.pc ≠ .excl ∧ th.pc ≠ .shared := by
    fin_cases t
    · exact stuck_tstep (l := .group 2 0) h3 h2 (h5 _).1 (h5 _).2 ht
    · exact stuck_tstep (l := .group 1 0) h4 h1 (h5 _).1 (h5 _).2 ht
  obtain ⟨k1, k2, k3⟩ := key
  subst k1
  have hprog : ∀ u, ((Function.update s.th t th) u).prog = (s.th u).prog := by
    intro u
    by_cases hu : u = t
    · subst hu; simpa using k2
    · rw [Function.update_of_ne hu]
  refine ⟨⟨h1, h2, by simpa only [hprog] using h3, by simpa only [hprog] using h4, fun u => ?_⟩, hprog⟩
  by_cases hu : u = t
  · subst hu; simpa using k3
  · simpa only [Function.update_of_ne hu] using h5 u

theorem stuck_deadlocked {s : Sys 2} (h : Stuck s) : Deadlocked s := by
  refine ⟨⟨0, by simp [Unfinished, h.2.2.1, nested]⟩, fun s' hs => ?_⟩
  have : Stuck s' ∧ ∀ t, (s'.th t).prog = (s.th t).prog := by
    induction hs with
    | refl => exact ⟨h, fun _ => rfl⟩
    | tail _ hs ih =>
      obtain ⟨j1, j2⟩ := stuck_step ih.1 hs
      exact ⟨j1, fun t => (j2 t).trans (ih.2 t)⟩
  exact this.2

/-- The limit of C28: calling an operation of one concurrent container from a callback of another one can deadlock. -/
theorem C28_nested_visits_deadlock : ∃ s, Reach nested s ∧ Deadlocked s := by
  have h0 : Reach nested (init nested) := .init
  have h1 := acquire_free h0 0 (l := .mutex 1 0) (m := .shared) (held := []) (rest := (nested 0).drop 1) rfl rfl
  have h2 := acquire_free h1 0 (l := .group 1 0) (m := .excl) (held := [(.mutex 1 0, .shared)]) (rest := (nested 0).drop 2)
    (by simp [nested]) (by simp [init])
  have h3 := acquire_free h2 0 (l := .mutex 2 0) (m := .shared) (held := [(.group 1 0, .excl), (.mutex 1 0, .shared)])
    (rest := (nested 0).drop 3) (by simp [nested]) (by simp [init])
  have h4 := acquire_free h3 1 (l := .mutex 2 1) (m := .shared) (held := []) (rest := (nested 1).drop 1)
    (by simp [init]; rfl) (by simp [init])
  have h5 := acquire_free h4 1 (l := .group 2 0) (m := .excl) (held := [(.mutex 2 1, .shared)]) (rest := (nested 1).drop 2)
    (by simp [nested]) (by simp [init])
  have h6 := acquire_free h5 1 (l := .mutex 1 1) (m := .shared) (held := [(.group 2 0, .excl), (.mutex 2 1, .shared)])
    (rest := (nested 1).drop 3) (by simp [nested]) (by simp [init])
  refine ⟨_, h6, stuck_deadlocked ⟨?_, ?_, ?_, ?_, ?_⟩⟩
  · simp [Mode.firstWord]
  · simp [Mode.firstWord]
  · simp
  · simp
  · intro t; fin_cases t <;> simp [Spin.PcOk]

end Props.ConcDeadlock

/-
Property C54: the reentrancy check of the concurrent containers. Specification: `Verif/SpecReentry.lean`.
-/
import Verif.Conc.ReentryInv
import Verif.Props.ConcDeadlock

namespace Props.ConcReentry
open SpecReentry
open Conc.Reentry
open Conc.Locking (LAct Section Sys lockAll unlockAll groupPlan mutexCount)
open Props.ConcDeadlock (Runs Deadlocked Steps C28_no_deadlock C28_everyone_can_finish)

/-- **C54** For every thread, whatever operations it calls from inside the functions it passes to operations, and wherever these
throw or catch: no undefined behaviour (no pointer to a dead object is followed, the lookup ends), the log is right (an operation
fails the check exactly if the thread is inside one of its containers; a lock is only taken on containers the
thread is not inside of), and unless the program is aborted, at the end no lock is held and the thread is inside nothing. -/
theorem C54_reentrancy_check (h : Handler) (p : Prog) : ∃ s e log, exec h p TS.init = some (s, e, log) ∧ Right [] log ∧
    (e ≠ .aborted → after [] log = [] ∧ s.header = none) := by
  obtain ⟨⟨s, e, log⟩, h1, h2⟩ := exec_fine h p TS.init [] trivial
  exact ⟨s, e, log, h1, h2.right, fun he => ⟨h2.after he, h2.header he⟩⟩

theorem right_split {pre post : List Ev} : ∀ {held : List Guard}, Right held (pre ++ post) → Right (after held pre) post := by
  induction pre with
  | nil => exact fun h => h
  | cons e pre ih =>
    intro held h
    cases e with
    | call g f => cases f <;> exact ih h.2
    | locked g => exact ih h.2
    | unlocked g =>
      cases held with
      | nil => exact h.elim
      | cons g' held => exact ih h.2

/-- **C54** The same, about each call: the check fails if and only if the thread is inside one of the operation's containers at
that moment. -/
theorem C54_fails_iff_inside (h : Handler) (p : Prog) {s : TS} {e : End} {log : List Ev} (hx : exec h p TS.init = some (s, e, log))
    {pre post : List Ev} {g : Guard} {f : Option Nat} (hl : log = pre ++ .call g f :: post) :
    f.isSome = true ↔ ∃ c ∈ g.conts, Inside (after [] pre) c := by
  obtain ⟨s', e', log', h1, h2, -⟩ := C54_reentrancy_check h p
  rw [hx] at h1; cases h1
  subst hl
  have := right_split h2
  cases f with
  | none =>
    simp only [Option.isSome_none, Bool.false_eq_true, false_iff, not_exists, not_and]
    exact this.1
  | some c => simp only [Option.isSome_some, true_iff]; exact ⟨c, this.1⟩

/-- **C54** A thread never takes a lock on a container it is inside of. -/
theorem C54_no_lock_twice (h : Handler) (p : Prog) {s : TS} {e : End} {log : List Ev} (hx : exec h p TS.init = some (s, e, log))
    {pre post : List Ev} {g : Guard} (hl : log = pre ++ .locked g :: post) : ∀ c ∈ g.conts, ¬ Inside (after [] pre) c := by
  obtain ⟨s', e', log', h1, h2, -⟩ := C54_reentrancy_check h p
  rw [hx] at h1; cases h1
  subst hl
  exact (right_split h2).1

/-- A visit of container 1 whose function visits container 2 and catches; that visit's function reads the size of container 1. Then
an insertion that gives its lock back and rehashes; then an assignment of 1 to itself. -/
def nestedProg : Prog :=
  .seq (.op (.shared 1 [(0, true)]) (.try (.op (.shared 2 [(3, false)]) (.op (.shared 1 []) .skip)) .skip))
    (.seq (.opEarly (.shared 1 []) .skip (.op (.excl 1) .skip)) (.op (.both 1 1) .throw))

/-- Its log, with an assertion handler that throws: the third call fails the check, nothing else. -/
example : (exec .throws nestedProg TS.init).map (fun r => (r.2.1, r.2.2, r.1.header)) = some (.threw,
    [.call (.shared 1 [(0, true)]) none, .locked (.shared 1 [(0, true)]),
     .call (.shared 2 [(3, false)]) none, .locked (.shared 2 [(3, false)]),
     .call (.shared 1 []) (some 1), .unlocked (.shared 2 [(3, false)]), .unlocked (.shared 1 [(0, true)]),
     .call (.shared 1 []) none, .locked (.shared 1 []), .unlocked (.shared 1 []),
     .call (.excl 1) none, .locked (.excl 1), .unlocked (.excl 1),
     .call (.both 1 1) none, .locked (.both 1 1), .unlocked (.both 1 1)], none) := by
  decide +kernel

/-- An operation on two containers from inside one of them fails the check, in either position. -/
example : (exec .aborts (.op (.excl 2) (.op (.both 1 2) .skip)) TS.init).map (fun r => (r.2.1, r.2.2)) =
      some (.aborted, [.call (.excl 2) none, .locked (.excl 2), .call (.both 1 2) (some 2)]) ∧
    (exec .aborts (.op (.excl 1) (.op (.both 1 2) .skip)) TS.init).map (fun r => (r.2.1, r.2.2)) =
      some (.aborted, [.call (.excl 1) none, .locked (.excl 1), .call (.both 1 2) (some 1)]) := by
  decide +kernel

/-! ### consequence for deadlocks -/

/-- the operation as a section of `Conc/Locking`, by a thread with identifier `id` -/
def sec (id : Nat) : Guard → Section
  | .shared c gs => .shared c id (gs.map (fun b => (b.1, if b.2 then .excl else .shared)))
  | .excl c => .excl c
  | .both x y => .both x y

/-- the locks an operation takes, and has when its function runs for the last time -/
def acqs (id : Nat) : Guard → List LAct
  | .shared c gs => .acq (.mutex c (id % mutexCount)) .shared ::
      (gs.map (fun b => (b.1, if b.2 then Conc.Locking.Mode.excl else .shared))).flatMap (groupPlan c)
  | .excl c => lockAll c
  | .both x y => if x = y then lockAll (if x < y then x else y)
      else lockAll (if x < y then x else y) ++ lockAll (if x < y then y else x)

/-- the locks it gives back -/
def rels (id : Nat) : Guard → List LAct
  | .shared c _ => [.rel (.mutex c (id % mutexCount)) .shared]
  | .excl c => unlockAll c
  | .both x y => if x = y then unlockAll (if x < y then x else y)
      else unlockAll (if x < y then y else x) ++ unlockAll (if x < y then x else y)

theorem plan_eq (id : Nat) (g : Guard) : (sec id g).plan = acqs id g ++ rels id g := by
  cases g with
  | shared c gs => simp [sec, Section.plan, acqs, rels]
  | excl c => rfl
  | both x y =>
    simp only [sec, Section.plan, acqs, rels]
    split
    · rfl
    · simp

/-- the locks a thread takes and gives back, according to its log -/
def lockProg (id : Nat) (log : List Ev) : List LAct :=
  log.flatMap (fun | .call _ _ => [] | .locked g => acqs id g | .unlocked g => rels id g)

/-- all operations of the program are on container `c` -/
def Only (c : Nat) : Prog → Prop
  | .skip | .throw => True
  | .seq p q | .try p q => Only c p ∧ Only c q
  | .op g p => (∀ d ∈ g.conts, d = c) ∧ Only c p
  | .opEarly g p q => (∀ d ∈ g.conts, d = c) ∧ Only c p ∧ Only c q

def OnlyEv (c : Nat) (l : List Ev) : Prop := ∀ e ∈ l, match e with
  | .call g _ | .locked g | .unlocked g => ∀ d ∈ g.conts, d = c

theorem only_exec (h : Handler) (c : Nat) : ∀ (p : Prog) (s : TS) (r), Only c p → exec h p s = some r → OnlyEv c r.2.2 := by
  have cons : ∀ {e : Ev} {l : List Ev}, OnlyEv c [e] → OnlyEv c l → OnlyEv c (e :: l) := by
    intro e l h1 h2 e' he'
    rcases List.mem_cons.1 he' with rfl | he'
    · exact h1 _ (by simp)
    · exact h2 _ he'
  have app : ∀ {l l' : List Ev}, OnlyEv c l → OnlyEv c l' → OnlyEv c (l ++ l') := by
    intro l l' h1 h2 e' he'
    rcases List.mem_append.1 he' with he' | he'
    · exact h1 _ he'
    · exact h2 _ he'
  have nil : OnlyEv c [] := fun e he => by cases he
  intro p
  induction p with
  | skip => intro s r _ hx; cases hx; exact nil
  | throw => intro s r _ hx; cases hx; exact nil
  | seq p q ihp ihq =>
    intro s r ho hx
    unfold exec at hx
    split at hx
    · cases hx
    · rename_i s1 l1 h1
      obtain ⟨r2, h2, rfl⟩ := Option.map_eq_some_iff.1 hx
      exact app (ihp _ _ ho.1 h1) (ihq _ _ ho.2 h2)
    · rename_i r1 _ h1
      cases hx
      exact ihp _ _ ho.1 h1
  | «try» p q ihp ihq =>
    intro s r ho hx
    unfold exec at hx
    split at hx
    · cases hx
    · rename_i s1 l1 h1
      obtain ⟨r2, h2, rfl⟩ := Option.map_eq_some_iff.1 hx
      exact app (ihp _ _ ho.1 h1) (ihq _ _ ho.2 h2)
    · rename_i r1 _ h1
      cases hx
      exact ihp _ _ ho.1 h1
  | op g p ihp =>
    intro s r ho hx
    have one : ∀ e ∈ [Ev.locked g, .unlocked g], OnlyEv c [e] := by
      intro e he e' he'
      rw [List.mem_singleton] at he'
      subst he'
      simp only [List.mem_cons, List.not_mem_nil, or_false] at he
      rcases he with rfl | rfl <;> exact ho.1
    have call : ∀ f, OnlyEv c [Ev.call g f] := by
      intro f e' he'
      rw [List.mem_singleton] at he'
      subst he'
      exact ho.1
    unfold exec at hx
    split at hx
    · cases hx
    · cases hx; exact call _
    · split at hx
      · cases hx
      · rename_i h2
        cases hx
        exact cons (call _) (cons (one _ (by simp)) (ihp _ _ ho.2 h2))
      · rename_i _ h2
        obtain ⟨s3, h3, rfl⟩ := Option.map_eq_some_iff.1 hx
        exact cons (call _) (cons (one _ (by simp)) (app (ihp _ _ ho.2 h2) (one _ (by simp))))
  | opEarly g p q ihp ihq =>
    intro s r ho hx
    have one : ∀ e ∈ [Ev.locked g, .unlocked g], OnlyEv c [e] := by
      intro e he e' he'
      rw [List.mem_singleton] at he'
      subst he'
      simp only [List.mem_cons, List.not_mem_nil, or_false] at he
      rcases he with rfl | rfl <;> exact ho.1
    have call : ∀ f, OnlyEv c [Ev.call g f] := by
      intro f e' he'
      rw [List.mem_singleton] at he'
      subst he'
      exact ho.1
    unfold exec at hx
    split at hx
    · cases hx
    · cases hx; exact call _
    · split at hx
      · cases hx
      · rename_i h2
        cases hx
        exact cons (call _) (cons (one _ (by simp)) (ihp _ _ ho.2.1 h2))
      · rename_i h2
        obtain ⟨s3, h3, rfl⟩ := Option.map_eq_some_iff.1 hx
        exact cons (call _) (cons (one _ (by simp)) (app (ihp _ _ ho.2.1 h2) (one _ (by simp))))
      · rename_i h2
        split at hx
        · cases hx
        · split at hx
          · cases hx
          · rename_i h4
            cases hx
            exact cons (call _) (cons (one _ (by simp)) (app (ihp _ _ ho.2.1 h2) (cons (one _ (by simp)) (ihq _ _ ho.2.2 h4))))
          · rename_i _ h4
            obtain ⟨s3, h3, rfl⟩ := Option.map_eq_some_iff.1 hx
            exact cons (call _) (cons (one _ (by simp)) (app (ihp _ _ ho.2.1 h2) (cons (one _ (by simp)) (ihq _ _ ho.2.2 h4))))

theorem conts_ne (g : Guard) : ∃ c, c ∈ g.conts := by cases g <;> simp [Guard.conts]

/-- a right log on one container is flat -/
theorem flat_log (id c : Nat) : ∀ (l : List Ev), OnlyEv c l →
    (Right [] l → after [] l = [] → ∃ secs : List Section, lockProg id l = secs.flatMap Section.plan) ∧
    (∀ g, (∀ d ∈ g.conts, d = c) → Right [g] l → after [g] l = [] →
      ∃ secs : List Section, lockProg id l = rels id g ++ secs.flatMap Section.plan)
  | [], _ => ⟨fun _ _ => ⟨[], rfl⟩, fun g _ _ h => by cases h⟩
  | e :: l, ho => by
    obtain ⟨ih1, ih2⟩ := flat_log id c l (fun e he => ho e (List.mem_cons_of_mem _ he))
    have hoe := ho e (by simp)
    constructor
    · intro hr ha
      cases e with
      | call g f =>
        have hr' : Right [] l := by cases f <;> exact hr.2
        exact ih1 hr' ha
      | locked g =>
        obtain ⟨secs, hs⟩ := ih2 g hoe hr.2 ha
        refine ⟨sec id g :: secs, ?_⟩
        rw [List.flatMap_cons, plan_eq, List.append_assoc, ← hs]
        rfl
      | unlocked g => exact hr.elim
    · intro g hg hr ha
      cases e with
      | call g' f =>
        have hr' : Right [g] l := by cases f <;> exact hr.2
        exact ih2 g hg hr' ha
      | locked g' =>
        exfalso
        obtain ⟨d, hd⟩ := conts_ne g'
        obtain ⟨d', hd'⟩ := conts_ne g
        exact hr.1 d hd ⟨g, by simp, by rw [hoe d hd, ← hg d' hd']; exact hd'⟩
      | unlocked g' =>
        obtain ⟨rfl, hr⟩ := hr
        obtain ⟨secs, hs⟩ := ih1 hr ha
        exact ⟨secs, by rw [← hs]; rfl⟩

/-- **C54** The check prevents deadlocks on a container: if all threads only use one container, whatever they call from inside the
functions they pass to its operations, and no check aborts the program (no thread is inside the container when it calls an
operation, or the assertion handler throws), then no interleaving of the threads deadlocks, and all threads can finish. (With
several containers, nested visits can deadlock: `Props.ConcDeadlock.C28_nested_visits_deadlock`.) -/
theorem C54_one_container_no_deadlock {n : Nat} (h : Handler) (c : Nat) (progs : Fin n → Prog) (honly : ∀ t, Only c (progs t))
    (logs : Fin n → List Ev) (hx : ∀ t, ∃ s e, exec h (progs t) TS.init = some (s, e, logs t) ∧ e ≠ .aborted)
    (ids : Fin n → Nat) (s : Sys n) (hreach : Conc.Locking.Reach (fun t => lockProg (ids t) (logs t)) s) :
    ¬ Deadlocked s ∧ ∃ s', Steps s s' ∧ ∀ t, (s'.th t).prog = [] := by
  have hsec : ∀ t, ∃ secs : List Section, lockProg (ids t) (logs t) = secs.flatMap Section.plan := by
    intro t
    obtain ⟨s1, e, h1, he⟩ := hx t
    obtain ⟨s2, e2, l2, g1, g2, g3⟩ := C54_reentrancy_check h (progs t)
    rw [h1] at g1; cases g1
    exact (flat_log (ids t) c _ (only_exec h c _ _ _ (honly t) h1)).1 g2 (g3 he).1
  choose secs hs using hsec
  have hr : Runs secs s := by
    unfold Runs
    have : (fun t => lockProg (ids t) (logs t)) = fun t => (secs t).flatMap Section.plan := funext hs
    rwa [this] at hreach
  exact ⟨C28_no_deadlock secs s hr, C28_everyone_can_finish secs s hr⟩

/-- with a handler that throws, nothing aborts -/
theorem throws_not_aborted : ∀ (p : Prog) (s : TS) (r), exec .throws p s = some r → r.2.1 ≠ .aborted := by
  intro p
  induction p with
  | skip => intro s r hx; cases hx; simp
  | throw => intro s r hx; cases hx; simp
  | seq p q ihp ihq =>
    intro s r hx
    unfold exec at hx
    split at hx
    · cases hx
    · obtain ⟨r2, h2, rfl⟩ := Option.map_eq_some_iff.1 hx
      simpa using ihq _ _ h2
    · rename_i r1 _ h1
      cases hx
      exact ihp _ _ h1
  | «try» p q ihp ihq =>
    intro s r hx
    unfold exec at hx
    split at hx
    · cases hx
    · obtain ⟨r2, h2, rfl⟩ := Option.map_eq_some_iff.1 hx
      simpa using ihq _ _ h2
    · rename_i r1 _ h1
      cases hx
      exact ihp _ _ h1
  | op g p ihp =>
    intro s r hx
    unfold exec at hx
    split at hx
    · cases hx
    · cases hx; simp
    · split at hx
      · cases hx
      · rename_i h2; exact (ihp _ _ h2 rfl).elim
      · rename_i _ h2
        obtain ⟨s3, h3, rfl⟩ := Option.map_eq_some_iff.1 hx
        simpa using ihp _ _ h2
  | opEarly g p q ihp ihq =>
    intro s r hx
    unfold exec at hx
    split at hx
    · cases hx
    · cases hx; simp
    · split at hx
      · cases hx
      · rename_i h2; exact (ihp _ _ h2 rfl).elim
      · obtain ⟨s3, h3, rfl⟩ := Option.map_eq_some_iff.1 hx
        simp
      · split at hx
        · cases hx
        · split at hx
          · cases hx
          · rename_i h4; exact (ihq _ _ h4 rfl).elim
          · rename_i _ h4
            obtain ⟨s3, h3, rfl⟩ := Option.map_eq_some_iff.1 hx
            simpa using ihq _ _ h4

/-- Two threads visit a container and from inside the visit read its size, erase everything, visit again. -/
def visitAgain : Prog := .op (.shared 1 [(0, true)]) (.try (.op (.shared 1 []) .skip) (.try (.op (.excl 1) .skip) .throw))

/-- The hypotheses are met: the checks fail and throw, nobody aborts. -/
example (s : Sys 2) (hs : Conc.Locking.Reach (fun t => lockProg t.val
    [.call (.shared 1 [(0, true)]) none, .locked (.shared 1 [(0, true)]), .call (.shared 1 []) (some 1),
     .call (.excl 1) (some 1), .unlocked (.shared 1 [(0, true)])]) s) : ¬ Deadlocked s :=
  (C54_one_container_no_deadlock .throws 1 (fun _ => visitAgain) (fun _ => by simp [Only, visitAgain, Guard.conts]) (fun _ => _)
    (fun _ => by
      cases hx : exec .throws visitAgain TS.init with
      | none =>
        obtain ⟨s, e, log, h1, -⟩ := C54_reentrancy_check .throws visitAgain
        rw [hx] at h1; cases h1
      | some r =>
        refine ⟨r.1, r.2.1, ?_, throws_not_aborted _ _ _ hx⟩
        have : (exec .throws visitAgain TS.init).map (fun r => r.2.2) = some
            [.call (.shared 1 [(0, true)]) none, .locked (.shared 1 [(0, true)]), .call (.shared 1 []) (some 1),
             .call (.excl 1) (some 1), .unlocked (.shared 1 [(0, true)])] := by decide +kernel
        rw [hx, Option.map_some, Option.some.injEq] at this
        rw [← this]) _ s hs).1

/-! ### without the check -/

open Conc.Locking Conc.Spin in
/-- What one thread does that visits an element for modification and, from inside that visit, visits it again, when the check is
compiled out (BOOST_UNORDERED_DISABLE_REENTRANCY_CHECK). -/
def unchecked : Fin 1 → List LAct := fun _ =>
  [.acq (.mutex 1 0) .shared, .acq (.group 1 0) .excl, .acq (.mutex 1 0) .shared, .acq (.group 1 0) .excl,
   .rel (.group 1 0) .excl, .rel (.mutex 1 0) .shared, .rel (.group 1 0) .excl, .rel (.mutex 1 0) .shared]

open Conc Conc.Locking Props.ConcDeadlock in
/-- **C54** Without the check such a thread waits for itself, forever. -/
theorem C54_unchecked_self_deadlock : ∃ s, Conc.Locking.Reach unchecked s ∧ Deadlocked s := by
  have e1 := acquire_free (.init : Conc.Locking.Reach unchecked _) 0 (l := .mutex 1 0) (m := .shared) (rest := (unchecked 0).drop 1)
    (held := []) rfl rfl
  have e2 := acquire_free e1 0 (l := .group 1 0) (m := .excl) (rest := (unchecked 0).drop 2)
    (held := [(.mutex 1 0, .shared)]) (by simp [unchecked]) (by simp [init])
  generalize hs2 : (⟨_, _⟩ : Sys 1) = s2 at e2
  have hw2 : s2.word (.mutex 1 0) = 1 ∧ s2.word (.group 1 0) = Spin.exclMask := by
    subst hs2; simp [Mode.firstWord, Function.update]
  have ht2 : s2.th 0 = ⟨(unchecked 0).drop 2, [(.group 1 0, .excl), (.mutex 1 0, .shared)], .idle⟩ := by
    subst hs2; simp
  have hd2 : (unchecked 0).drop 2 = .acq (.mutex 1 0) .shared :: (unchecked 0).drop 3 := rfl
  clear hs2
  rw [hd2] at ht2
  have hex : Spin.exclMask = 2 ^ 31 := by decide
  -- the second shared lock on the container is granted
  have h1 := e2.step (s' := ⟨Function.update s2.word (.mutex 1 0) 1,
      Function.update s2.th 0 ⟨.acq (.mutex 1 0) .shared :: (unchecked 0).drop 3, [(.group 1 0, .excl), (.mutex 1 0, .shared)], .sharedLoop⟩⟩)
    ⟨0, _, _, by rw [ht2]; exact .spin (by rw [hw2.1]; exact .callShared 1) trivial, rfl⟩
  have h2 := h1.step (s' := ⟨Function.update (Function.update s2.word (.mutex 1 0) 1) (.mutex 1 0) 1,
      Function.update (Function.update s2.th 0 ⟨.acq (.mutex 1 0) .shared :: (unchecked 0).drop 3, [(.group 1 0, .excl), (.mutex 1 0, .shared)], .sharedLoop⟩) 0
        ⟨.acq (.mutex 1 0) .shared :: (unchecked 0).drop 3, [(.group 1 0, .excl), (.mutex 1 0, .shared)], .sharedCas 1⟩⟩)
    ⟨0, _, _, by
      simp only [Function.update_self]
      exact .spin (by simpa [Spin.readMask, Spin.pendMask] using Spin.Act.loadShared 1 1 (by omega)) trivial, rfl⟩
  have h3 := h2.step (s' := ⟨Function.update (Function.update (Function.update s2.word (.mutex 1 0) 1) (.mutex 1 0) 1) (.mutex 1 0) 2,
      Function.update (Function.update (Function.update s2.th 0 ⟨.acq (.mutex 1 0) .shared :: (unchecked 0).drop 3, [(.group 1 0, .excl), (.mutex 1 0, .shared)], .sharedLoop⟩) 0
        ⟨.acq (.mutex 1 0) .shared :: (unchecked 0).drop 3, [(.group 1 0, .excl), (.mutex 1 0, .shared)], .sharedCas 1⟩) 0
          ⟨(unchecked 0).drop 3, [(.mutex 1 0, .shared), (.group 1 0, .excl), (.mutex 1 0, .shared)], .idle⟩⟩)
    ⟨0, _, _, by
      simp only [Function.update_self]
      exact .acquire (by simpa [Mode.pc] using Spin.Act.casShared 1), rfl⟩
  -- the lock of the group is not
  let Stuck (s : Sys 1) : Prop := s.word (.group 1 0) = Spin.exclMask ∧ (s.th 0).prog = (unchecked 0).drop 3 ∧
    Spin.PcOk (s.th 0).pc ∧ (s.th 0).pc ≠ .excl ∧ (s.th 0).pc ≠ .shared
  refine ⟨_, h3, ?_⟩
  generalize hs3 : (⟨_, _⟩ : Sys 1) = s3 at h3 ⊢
  have hst : Stuck s3 := by
    subst hs3
    refine ⟨by simp [Function.update, hw2.2], by simp, by simp [Spin.PcOk], by simp, by simp⟩
  have hstep : ∀ {s s' : Sys 1}, Stuck s → Conc.Locking.Step s s' → Stuck s' ∧ ∀ t, (s'.th t).prog = (s.th t).prog := by
    rintro s s' ⟨a1, a2, a3, a4⟩ ⟨t, word, th, ht, rfl⟩
    have : t = 0 := Subsingleton.elim _ _
    subst this
    obtain ⟨k1, k2, k3⟩ := stuck_tstep (l := .group 1 0) a2 a1 a3 a4 ht
    subst k1
    refine ⟨⟨a1, by simpa using k2.trans a2, by simpa using k3.1, by simpa using k3.2⟩, fun u => ?_⟩
    have : u = 0 := Subsingleton.elim _ _
    subst this
    simpa using k2
  refine ⟨⟨0, by simp [Unfinished, hst.2.1, unchecked]⟩, fun s' hs => ?_⟩
  have : Stuck s' ∧ ∀ t, (s'.th t).prog = (s3.th t).prog := by
    induction hs with
    | refl => exact ⟨hst, fun _ => rfl⟩
    | tail _ hs ih =>
      obtain ⟨j1, j2⟩ := hstep ih.1 hs
      exact ⟨j1, fun t => (j2 t).trans (ih.2 t)⟩
  exact this.2

end Props.ConcReentry

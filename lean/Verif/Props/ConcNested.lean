/-
C60: operations of concurrent containers called from user code that runs inside operations of other concurrent containers. No
deadlock if the calls go up in some assignment of levels to containers that does not contradict the addresses of the containers
of two-container operations; in particular if inner operations are on containers at higher addresses. Not promised otherwise.
-/
import Verif.Conc.Nested
import Verif.Props.ConcDeadlock

namespace Props.ConcNested
open Conc Conc.Locking Conc.Nested
open Conc.Spin (Pc Act)
open Props.ConcDeadlock (Steps Unfinished Deadlocked)

variable {n : Nat}

/-- The states reachable when thread `t`, with identifier `ids t`, executes `code t`. -/
def RunsN (ids : Fin n → Nat) (code : Fin n → Code) (s : Sys n) : Prop := Reach (fun t => (code t).plan (ids t)) s

theorem RunsN.inv {lv : Nat → Nat} {ids : Fin n → Nat} {code : Fin n → Code} (ho : ∀ t, (code t).Ordered lv) {s : Sys n}
    (h : RunsN ids code s) : Inv lv s := by
  refine Reach.inv (fun t => ?_) h
  have := Code.good lv (ids t) (code t) [] [] (ho t) (fun x hx => by simp at hx) rfl
  simpa using this

/-- **C60** Any number of threads, any operations, nested to any depth through the functions passed to operations: if every
operation called from inside another one is on containers of higher level, and levels do not contradict addresses where one
operation is on two containers, no reachable state is a deadlock. -/
theorem C60_no_deadlock (lv : Nat → Nat) (ids : Fin n → Nat) (code : Fin n → Code) (ho : ∀ t, (code t).Ordered lv) (s : Sys n)
    (h : RunsN ids code s) : ¬ Deadlocked s := by
  rintro ⟨hu, hd⟩
  obtain ⟨u, s', h1, h2, h3, _⟩ := ConcDeadlock.progress (h.inv ho) hu
  have := hd s' h2 u
  rw [h3] at this
  unfold Unfinished at h1
  cases hp : (s.th u).prog with
  | nil => exact h1 hp
  | cons a l => rw [hp] at this; simpa using congrArg List.length this

/-- **C60** From every reachable state everybody can still finish. -/
theorem C60_everyone_can_finish (lv : Nat → Nat) (ids : Fin n → Nat) (code : Fin n → Code) (ho : ∀ t, (code t).Ordered lv)
    (s : Sys n) (h : RunsN ids code s) : ∃ s', Steps s s' ∧ ∀ t, (s'.th t).prog = [] := ConcDeadlock.finish _ (h.inv ho) rfl

mutual
/-- Operations called from inside another one are on containers at higher addresses. -/
def _root_.Conc.Nested.Code.Upward : Code → Prop
  | .done => True
  | .shared c b next => (∀ d ∈ b.conts, c < d) ∧ b.Upward ∧ next.Upward
  | .excl c inner next => (∀ d ∈ inner.conts, c < d) ∧ inner.Upward ∧ next.Upward
  | .both x y inner next => (∀ d ∈ inner.conts, x < d ∧ y < d) ∧ inner.Upward ∧ next.Upward
def _root_.Conc.Nested.Body.Upward : Body → Prop
  | .done => True
  | .user inner next => inner.Upward ∧ next.Upward
  | .group _ _ inner next => inner.Upward ∧ next.Upward
end

mutual
theorem upward_ordered : ∀ p : Code, p.Upward → p.Ordered (fun a => a)
  | .done, _ => trivial
  | .shared _ b next, h => ⟨h.1, upward_ordered_body b h.2.1, upward_ordered next h.2.2⟩
  | .excl _ inner next, h => ⟨h.1, upward_ordered inner h.2.1, upward_ordered next h.2.2⟩
  | .both _ _ inner next, h => ⟨h.1, Nat.le_of_lt, Nat.le_of_lt, upward_ordered inner h.2.1, upward_ordered next h.2.2⟩
theorem upward_ordered_body : ∀ b : Body, b.Upward → b.Ordered (fun a => a)
  | .done, _ => trivial
  | .user inner next, h => ⟨upward_ordered inner h.1, upward_ordered_body next h.2⟩
  | .group _ _ inner next, h => ⟨upward_ordered inner h.1, upward_ordered_body next h.2⟩
end

/-- **C60** In particular: nested calls in increasing address order never deadlock, whatever two-container operations (`swap`,
assignment, `merge`, comparison) go on. -/
theorem C60_address_order (ids : Fin n → Nat) (code : Fin n → Code) (ho : ∀ t, (code t).Upward) (s : Sys n)
    (h : RunsN ids code s) : ¬ Deadlocked s ∧ ∃ s', Steps s s' ∧ ∀ t, (s'.th t).prog = [] :=
  ⟨C60_no_deadlock _ ids code (fun t => upward_ordered _ (ho t)) s h,
    C60_everyone_can_finish _ ids code (fun t => upward_ordered _ (ho t)) s h⟩

/-- **C60** Nesting does not weaken exclusion: while a thread holds all mutexes of a container no other thread holds one. -/
theorem C60_exclusive_section (lv : Nat → Nat) (ids : Fin n → Nat) (code : Fin n → Code) (ho : ∀ t, (code t).Ordered lv)
    (s : Sys n) (h : RunsN ids code s) (c : Nat) (t u : Fin n) (hu : u ≠ t)
    (ht : ∀ i < 128, (Lock.mutex c i, Mode.excl) ∈ (s.th t).held) (i : Nat) (hi : i < 128) (m : Mode) :
    (Lock.mutex c i, m) ∉ (s.th u).held := by
  intro hm
  have hx : ConcLock.HoldsX (proj s (.mutex c i)) t := projT_held ((h.inv ho).th t).sorted (ht i hi)
  have he := ConcLock.C27_mutual_exclusion ((h.inv ho).lock (.mutex c i)) hx hu
  have : (proj s (.mutex c i)).pc u = m.pc := projT_held ((h.inv ho).th u).sorted hm
  simp only [ConcLock.HoldsX, ConcLock.HoldsS, this] at he
  cases m <;> simp [Mode.pc] at he

/-- **C60** The same for the elements of a group: while a thread has the group for writing, nobody else has it, though functions
that run meanwhile call other containers. -/
theorem C60_exclusive_group (lv : Nat → Nat) (ids : Fin n → Nat) (code : Fin n → Code) (ho : ∀ t, (code t).Ordered lv)
    (s : Sys n) (h : RunsN ids code s) (c g : Nat) (t u : Fin n) (hu : u ≠ t)
    (ht : (Lock.group c g, Mode.excl) ∈ (s.th t).held) (m : Mode) : (Lock.group c g, m) ∉ (s.th u).held := by
  intro hm
  have hx : ConcLock.HoldsX (proj s (.group c g)) t := projT_held ((h.inv ho).th t).sorted ht
  have he := ConcLock.C27_mutual_exclusion ((h.inv ho).lock (.group c g)) hx hu
  have : (proj s (.group c g)).pc u = m.pc := projT_held ((h.inv ho).th u).sorted hm
  simp only [ConcLock.HoldsX, ConcLock.HoldsS, this] at he
  cases m <;> simp [Mode.pc] at he

/-- Three threads, three containers: a visit of 1 that inserts in 2 from its function, which in turn looks in 3 from a
constructor; an `erase_if` on 1 that visits 3; a swap of 3 and 1 and then a visit of 2 that swaps 3 with itself. -/
def sampleCode : Fin 3 → Code
  | 0 => .shared 1 (.user .done (.group 0 .excl
      (.shared 2 (.group 4 .shared .done (.group 4 .excl (.shared 3 (.group 0 .shared .done .done) .done) .done)) .done) .done)) .done
  | 1 => .excl 1 (.shared 3 (.group 0 .excl .done .done) .done) .done
  | 2 => .both 3 1 .done (.shared 2 (.group 0 .shared (.both 3 3 .done .done) .done) .done)

example : (∀ t, (sampleCode t).Upward) ∧ RunsN (fun t => t.val) sampleCode (init fun t => (sampleCode t).plan t) ∧
    ∃ t, Unfinished (init fun t => (sampleCode t).plan t) t := by
  refine ⟨fun t => ?_, .init, 0, by simp [Unfinished, init, sampleCode, Code.plan]⟩
  fin_cases t <;> simp [sampleCode, Code.Upward, Body.Upward, Code.conts, Body.conts]

/-! ### what is not promised -/

/-- A visit of container 2 that visits container 1 from its function (all nested calls go from 2 to 1); a swap of both. -/
def against : Fin 2 → Code
  | 0 => .shared 2 (.group 0 .excl (.shared 1 (.group 0 .excl .done .done) .done) .done) .done
  | 1 => .both 1 2 .done .done

/-- The locks they take. -/
def againstPlan (t : Fin 2) : List LAct := (against t).plan 0

/-- A word no reader, resp. no writer, gets past. -/
def Blk : Mode → Nat → Prop
  | .shared, w => w = Spin.exclMask
  | .excl, w => w = 1 ∨ w = 1 + 2 ^ 30

theorem blocked_tstep {word word' : Lock → Nat} {l : Lock} {m : Mode} {rest : List LAct} {th th' : Th}
    (hp : th.prog = .acq l m :: rest) (hw : Blk m (word l)) (hok : Spin.PcOk th.pc) (hx : th.pc ≠ .excl ∧ th.pc ≠ .shared)
    (hs : TStep word th word' th') :
    Blk m (word' l) ∧ (∀ l', l' ≠ l → word' l' = word l') ∧ th'.prog = th.prog ∧ Spin.PcOk th'.pc ∧ th'.pc ≠ .excl ∧
      th'.pc ≠ .shared := by
  have he : Spin.exclMask = 2 ^ 31 := by decide
  have hr : Spin.readMask = 2 ^ 30 - 1 := by decide
  have other : ∀ (w : Nat) l', l' ≠ l → Function.update word l w l' = word l' := fun w l' h => Function.update_of_ne h _ _
  cases hs with
  | @spin l' m' rest' held pc w pc' ha hin =>
    cases hp
    have hin' := ConcDeadlock.inside_ne hin
    have same : w = word l → Spin.PcOk pc' → Blk m (Function.update word l w l) ∧
        (∀ l', l' ≠ l → Function.update word l w l' = word l') ∧ LAct.acq l m :: rest = LAct.acq l m :: rest ∧ Spin.PcOk pc' ∧
        pc' ≠ .excl ∧ pc' ≠ .shared := by
      intro e hpc
      refine ⟨?_, other w, rfl, hpc, hin'.1, hin'.2.1⟩
      rw [Function.update_self, e]; exact hw
    generalize hwl : word l = wl at ha
    rw [hwl] at hw same
    cases ha with
    | callShared => exact same rfl trivial
    | loadShared st hst =>
      refine same rfl ?_
      split
      · next h => simp only [Spin.PcOk]; omega
      · trivial
    | casSharedFail => exact same rfl trivial
    | callLock => exact same rfl trivial
    | loadLock st hst => exact same rfl (Spin.afterLoad_ok hst).1
    | casLockFail => exact same rfl trivial
    | casPendFail => exact same rfl trivial
    | casPend =>
      obtain ⟨h1, _⟩ : wl < 2 ^ 30 ∧ wl ≠ 0 := hok
      cases m with
      | shared => simp [Mode.inside, Pc.inLockShared] at hin
      | excl =>
        refine ⟨?_, other _, rfl, trivial, by simp, by simp⟩
        rw [Function.update_self, Spin.or_pend h1]
        rcases hw with e | e
        · exact .inr (by omega)
        · omega
    | loadTryShared st hst => revert hin; split <;> cases m <;> simp [Mode.inside, Pc.inLock, Pc.inLockShared]
    | loadTryLock st hst =>
      revert hin; split
      · cases m <;> simp [Mode.inside, Pc.inLock, Pc.inLockShared]
      · split <;> cases m <;> simp [Mode.inside, Pc.inLock, Pc.inLockShared]
    | _ => cases m <;> simp [Mode.inside, Pc.inLock, Pc.inLockShared] at hin
  | @acquire l' m' rest' held pc w ha =>
    exfalso
    cases hp
    generalize hwl : word l = wl at ha
    rw [hwl] at hw
    have hok : Spin.PcOk pc := hok
    cases m with
    | shared =>
      have hw : wl = Spin.exclMask := hw
      simp only [Mode.pc] at ha
      generalize hq : Pc.shared = q at ha
      cases ha with
      | casShared => have : wl < 2 ^ 30 - 1 := hok; omega
      | casTryShared => have : wl < 2 ^ 30 - 1 := hok; omega
      | loadShared st hst => split at hq <;> simp at hq
      | loadTryShared st hst => split at hq <;> simp at hq
      | loadLock st hst => exact Spin.afterLoad_ne.1 hq.symm
      | loadTryLock st hst =>
        split at hq
        · simp at hq
        · split at hq <;> simp at hq
      | _ => simp at hq
    | excl =>
      have hw : wl = 1 ∨ wl = 1 + 2 ^ 30 := hw
      simp only [Mode.pc] at ha
      generalize hq : Pc.excl = q at ha
      cases ha with
      | casLock => have : wl < 2 ^ 31 ∧ wl % 2 ^ 30 = 0 := hok; omega
      | casTryLock => have : wl < 2 ^ 31 ∧ wl % 2 ^ 30 = 0 := hok; omega
      | loadShared st hst => split at hq <;> simp at hq
      | loadTryShared st hst => split at hq <;> simp at hq
      | loadLock st hst => exact Spin.afterLoad_ne.2 hq.symm
      | loadTryLock st hst =>
        split at hq
        · simp at hq
        · split at hq <;> simp at hq
      | _ => simp at hq
  | release => cases hp

/-- The visit waits for a mutex of container 1, the swap for one of container 2. -/
def Stuck2 (s : Sys 2) : Prop :=
  Blk .shared (s.word (.mutex 1 0)) ∧ Blk .excl (s.word (.mutex 2 0)) ∧
  (∃ r, (s.th 0).prog = .acq (.mutex 1 0) .shared :: r) ∧ (∃ r, (s.th 1).prog = .acq (.mutex 2 0) .excl :: r) ∧
  ∀ t, Spin.PcOk (s.th t).pc ∧ (s.th t).pc ≠ .excl ∧ (s.th t).pc ≠ .shared

theorem stuck2_step {s s' : Sys 2} (h : Stuck2 s) (hs : Step s s') : Stuck2 s' ∧ ∀ t, (s'.th t).prog = (s.th t).prog := by
  obtain ⟨h1, h2, ⟨r3, h3⟩, ⟨r4, h4⟩, h5⟩ := h
  obtain ⟨t, word, th, ht, rfl⟩ := hs
  have key : Blk .shared (word (.mutex 1 0)) ∧ Blk .excl (word (.mutex 2 0)) ∧ th.prog = (s.th t).prog ∧
      Spin.PcOk th.pc ∧ th.pc ≠ .excl ∧ th.pc ≠ .shared := by
    fin_cases t
    · obtain ⟨k1, k2, k3⟩ := blocked_tstep h3 h1 (h5 _).1 (h5 _).2 ht
      exact ⟨k1, by rw [k2 _ (by simp)]; exact h2, k3⟩
    · obtain ⟨k1, k2, k3⟩ := blocked_tstep h4 h2 (h5 _).1 (h5 _).2 ht
      exact ⟨by rw [k2 _ (by simp)]; exact h1, k1, k3⟩
  obtain ⟨k1, k2, k3, k4⟩ := key
  have hprog : ∀ u, ((Function.update s.th t th) u).prog = (s.th u).prog := by
    intro u
    by_cases hu : u = t
    · subst hu; simpa using k3
    · rw [Function.update_of_ne hu]
  refine ⟨⟨k1, k2, ⟨r3, by simpa only [hprog] using h3⟩, ⟨r4, by simpa only [hprog] using h4⟩, fun u => ?_⟩, hprog⟩
  by_cases hu : u = t
  · subst hu; simpa using k4
  · simpa only [Function.update_of_ne hu] using h5 u

theorem stuck2_deadlocked {s : Sys 2} (h : Stuck2 s) : Deadlocked s := by
  obtain ⟨r, hr⟩ := h.2.2.1
  refine ⟨⟨0, by simp [Unfinished, hr]⟩, fun s' hs => ?_⟩
  have : Stuck2 s' ∧ ∀ t, (s'.th t).prog = (s.th t).prog := by
    induction hs with
    | refl => exact ⟨h, fun _ => rfl⟩
    | tail _ hs ih =>
      obtain ⟨j1, j2⟩ := stuck2_step ih.1 hs
      exact ⟨j1, fun t => (j2 t).trans (ih.2 t)⟩
  exact this.2

/-- A thread takes free locks one after the other. -/
theorem acquire_many {progs : Fin n → List LAct} {m : Mode} {t : Fin n} {rest : List LAct} : ∀ (ls : List Lock) {s : Sys n}
    {held : Held}, Reach progs s → s.th t = ⟨ls.map (fun l => .acq l m) ++ rest, held, .idle⟩ → ls.Nodup →
    (∀ l ∈ ls, s.word l = 0) → ∃ s' held', Reach progs s' ∧ s'.th t = ⟨rest, held', .idle⟩ ∧ (∀ u, u ≠ t → s'.th u = s.th u) ∧
      ∀ l, s'.word l = if l ∈ ls then m.firstWord else s.word l
  | [], s, held, h, ht, _, _ => ⟨s, held, h, by simpa using ht, fun _ _ => rfl, fun l => by simp⟩
  | l :: ls, s, held, h, ht, hn, hw => by
    rw [List.nodup_cons] at hn
    have h1 := ConcDeadlock.acquire_free h t (l := l) (m := m) (rest := ls.map (fun l => .acq l m) ++ rest) (held := held)
      (by simpa using ht) (hw l (by simp))
    obtain ⟨s', held', k1, k2, k3, k4⟩ := acquire_many (m := m) (t := t) ls (rest := rest) (held := (l, m) :: held) h1 (by simp) hn.2
      (fun l' hl' => by
        have : l' ≠ l := fun e => hn.1 (e ▸ hl')
        simp [Function.update_of_ne this, hw l' (by simp [hl'])])
    refine ⟨s', held', k1, k2, fun u hu => by rw [k3 u hu]; simp [Function.update_of_ne hu], fun l' => ?_⟩
    rw [k4 l']
    by_cases e : l' = l
    · subst e; simp [hn.1]
    · simp [e]

/-- **C60, the limit** Nesting that is consistent (all nested calls go from container 2 to container 1) deadlocks with a `swap` of
the two containers if it goes against the addresses. -/
theorem C60_against_addresses_deadlocks : (∃ lv : Nat → Nat, (against 0).Ordered lv) ∧ against 1 = .both 1 2 .done .done ∧
    ∃ s, RunsN (fun _ => 0) against s ∧ Deadlocked s := by
  refine ⟨⟨fun a => 2 - a, by simp [against, Code.Ordered, Body.Ordered, Code.conts, Body.conts]⟩, rfl, ?_⟩
  · have h0 : Reach againstPlan (init againstPlan) := .init
    have e0 : againstPlan 0 = LAct.acq (.mutex 2 0) .shared :: .acq (.group 2 0) .excl ::
        (againstPlan 0).drop 2 := by
      simp [againstPlan, against, Code.plan, Body.plan, mutexCount]
    have e1 : againstPlan 1 = (mutexesOf 1).map (fun l => .acq l .excl) ++ (againstPlan 1).drop 128 := by
      have : againstPlan 1 = lockAll 1 ++ (lockAll 2 ++ (unlockAll 2 ++ unlockAll 1)) := by
        simp [againstPlan, against, Code.plan]
      rw [this, List.drop_left' (by simp [lockAll, mutexCount]), lockAll_eq]
    have e2 : ∃ r, (againstPlan 1).drop 128 = .acq (.mutex 2 0) .excl :: r := by
      have : againstPlan 1 = lockAll 1 ++ (lockAll 2 ++ (unlockAll 2 ++ unlockAll 1)) := by
        simp [againstPlan, against, Code.plan]
      rw [this, List.drop_left' (by simp [lockAll, mutexCount])]
      have h2 : lockAll 2 = .acq (.mutex 2 0) .excl :: (lockAll 2).tail := by decide +kernel
      exact ⟨(lockAll 2).tail ++ (unlockAll 2 ++ unlockAll 1), by rw [← List.cons_append, ← h2]⟩
    have e3 : ∃ r, (againstPlan 0).drop 2 = .acq (.mutex 1 0) .shared :: r := by
      exact ⟨_, by simp [againstPlan, against, Code.plan, Body.plan, mutexCount]; rfl⟩
    have h1 := ConcDeadlock.acquire_free h0 0 (l := .mutex 2 0) (m := .shared) (held := [])
      (rest := .acq (.group 2 0) .excl :: (againstPlan 0).drop 2) (by simp only [init]; exact congrArg (fun p => Th.mk p [] .idle) e0) rfl
    have h2 := ConcDeadlock.acquire_free h1 0 (l := .group 2 0) (m := .excl) (held := [(.mutex 2 0, .shared)])
      (rest := (againstPlan 0).drop 2) (by simp) (by simp [init])
    obtain ⟨s', held', k1, k2, k3, k4⟩ := acquire_many (t := 1) (m := .excl) (mutexesOf 1) (rest := (againstPlan 1).drop 128)
      (held := []) h2 (by simp [init, ← e1]) (List.Nodup.map (fun a b h => by simpa using h) List.nodup_range)
      (by intro l hl; simp only [mutexesOf, List.mem_map] at hl; obtain ⟨i, _, rfl⟩ := hl; simp [init])
    refine ⟨s', k1, stuck2_deadlocked ⟨?_, ?_, ?_, ?_, ?_⟩⟩
    · rw [k4, if_pos (by simp [mutexesOf, mutexCount])]; rfl
    · rw [k4, if_neg (by simp [mutexesOf])]
      left
      simp [Mode.firstWord]
    · rw [k3 0 (by simp)]; simpa using e3
    · rw [k2]; simpa using e2
    · intro t
      fin_cases t
      · show Spin.PcOk (s'.th 0).pc ∧ (s'.th 0).pc ≠ .excl ∧ (s'.th 0).pc ≠ .shared
        rw [k3 0 (by simp)]; simp [Spin.PcOk]
      · show Spin.PcOk (s'.th 1).pc ∧ (s'.th 1).pc ≠ .excl ∧ (s'.th 1).pc ≠ .shared
        rw [k2]; simp [Spin.PcOk]

end Props.ConcNested

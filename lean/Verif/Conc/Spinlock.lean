/-
Model of the reader-writer spinlock.
Source: /repo/include/boost/unordered/detail/foa/rw_spinlock.hpp.

Any number `n` of threads, each running the member functions one atomic access at a time, in any interleaving. The relaxed
loads may return any value whatsoever (in particular stale ones), and `compare_exchange_weak` may fail spuriously; only the
read-modify-write accesses act on the current value. `yield` has no effect on the state. A thread that holds several locks of
one object at a time is modelled as several threads.
-/
import Mathlib.Data.Fintype.Card
import Mathlib.Data.Finset.Card
import Mathlib.Logic.Function.Basic
import Mathlib.Data.Nat.Bitwise

namespace Conc.Spin

/-- `locked_exclusive_mask` (rw_spinlock.hpp:25) -/
def exclMask : Nat := 1 <<< 31
/-- `writer_pending_mask` (rw_spinlock.hpp:26) -/
def pendMask : Nat := 1 <<< 30
/-- `reader_lock_count_mask` (rw_spinlock.hpp:27) -/
def readMask : Nat := pendMask - 1

/-- Where a thread is. The value carried is the local variable `st`. -/
inductive Pc where
  /-- holds nothing and calls nothing -/
  | idle
  /-- top of the loop of `lock_shared` (rw_spinlock.hpp:90-94) -/
  | sharedLoop
  /-- before the exchange of `lock_shared` (rw_spinlock.hpp:97) -/
  | sharedCas (st : Nat)
  /-- before the load of `try_lock_shared` (rw_spinlock.hpp:76) -/
  | tryShared
  /-- before the exchange of `try_lock_shared` (rw_spinlock.hpp:85) -/
  | trySharedCas (st : Nat)
  /-- top of the loop of `lock` (rw_spinlock.hpp:136-138) -/
  | lockLoop
  /-- before the exchange that takes the lock (rw_spinlock.hpp:149) -/
  | lockCas (st : Nat)
  /-- before the exchange that sets the pending bit (rw_spinlock.hpp:160) -/
  | pendCas (st : Nat)
  /-- before the load of `try_lock` (rw_spinlock.hpp:116) -/
  | tryLock
  /-- before the exchange of `try_lock` (rw_spinlock.hpp:131) -/
  | tryLockCas (st : Nat)
  /-- holds the lock shared -/
  | shared
  /-- holds the lock exclusively -/
  | excl
deriving DecidableEq

/-- Inside `lock()`. -/
def Pc.inLock : Pc → Prop
  | .lockLoop | .lockCas _ | .pendCas _ => True
  | _ => False

/-- Inside `lock_shared()`. -/
def Pc.inLockShared : Pc → Prop
  | .sharedLoop | .sharedCas _ => True
  | _ => False

/-- What `lock()` does after loading `st` (rw_spinlock.hpp:138-161). -/
def afterLoad (st : Nat) : Pc :=
  if st &&& exclMask ≠ 0 then .lockLoop
  else if st &&& readMask = 0 then .lockCas st
  else if st &&& pendMask ≠ 0 then .lockLoop
  else .pendCas st

/-- One atomic access of one thread: word and program counter before, word and program counter after. The word is a
`uint32_t`. -/
inductive Act : Nat → Pc → Nat → Pc → Prop where
  /- lock_shared (rw_spinlock.hpp:88-102) -/
  | callShared (w) : Act w .idle w .sharedLoop
  | loadShared (w st) : st < 2 ^ 32 → Act w .sharedLoop w (if st < readMask then .sharedCas st else .sharedLoop)
  | casShared (st) : Act st (.sharedCas st) ((st + 1) % 2 ^ 32) .shared
  | casSharedFail (w st) : Act w (.sharedCas st) w .sharedLoop
  /- try_lock_shared (rw_spinlock.hpp:74-86) -/
  | callTryShared (w) : Act w .idle w .tryShared
  | loadTryShared (w st) : st < 2 ^ 32 → Act w .tryShared w (if st ≥ readMask then .idle else .trySharedCas st)
  | casTryShared (st) : Act st (.trySharedCas st) ((st + 1) % 2 ^ 32) .shared
  | casTrySharedFail (w st) : w ≠ st → Act w (.trySharedCas st) w .idle
  /- unlock_shared (rw_spinlock.hpp:104-112) -/
  | unlockShared (w) : Act w .shared ((w + 2 ^ 32 - 1) % 2 ^ 32) .idle
  /- lock (rw_spinlock.hpp:134-165) -/
  | callLock (w) : Act w .idle w .lockLoop
  | loadLock (w st) : st < 2 ^ 32 → Act w .lockLoop w (afterLoad st)
  | casLock (st) : Act st (.lockCas st) exclMask .excl
  | casLockFail (w st) : Act w (.lockCas st) w .lockLoop
  | casPend (st) : Act st (.pendCas st) (st ||| pendMask) .lockLoop
  | casPendFail (w st) : Act w (.pendCas st) w .lockLoop
  /- try_lock (rw_spinlock.hpp:114-132) -/
  | callTryLock (w) : Act w .idle w .tryLock
  | loadTryLock (w st) : st < 2 ^ 32 → Act w .tryLock w
      (if st &&& exclMask ≠ 0 then .idle else if st &&& readMask ≠ 0 then .idle else .tryLockCas st)
  | casTryLock (st) : Act st (.tryLockCas st) exclMask .excl
  | casTryLockFail (w st) : w ≠ st → Act w (.tryLockCas st) w .idle
  /- unlock (rw_spinlock.hpp:167-171) -/
  | unlock (w) : Act w .excl 0 .idle

/-- The lock word and the threads. -/
structure State (n : Nat) where
  word : Nat
  pc : Fin n → Pc

/-- Thread `t` makes one access. -/
def StepBy {n : Nat} (t : Fin n) (s s' : State n) : Prop :=
  ∃ w pc, Act s.word (s.pc t) w pc ∧ s' = ⟨w, Function.update s.pc t pc⟩

/-- Some thread makes one access. -/
def Step {n : Nat} (s s' : State n) : Prop := ∃ t, StepBy t s s'

/-- `rw_spinlock()` (rw_spinlock.hpp:29): state 0, nobody around. -/
def init (n : Nat) : State n := ⟨0, fun _ => .idle⟩

/-- Reachable states. -/
inductive Reach {n : Nat} : State n → Prop where
  | init : Reach (init n)
  | step {s s'} : Reach s → Step s s' → Reach s'

/-! ### bits -/

theorem and_excl {w : Nat} (hw : w < 2 ^ 32) : w &&& exclMask ≠ 0 ↔ 2 ^ 31 ≤ w := by
  have h : exclMask = 2 ^ 31 := by decide
  rw [h, Nat.and_two_pow]
  rw [Nat.testBit_eq_decide_div_mod_eq]
  by_cases hc : 2 ^ 31 ≤ w
  · have : w / 2 ^ 31 % 2 = 1 := by omega
    simp; omega
  · have : w / 2 ^ 31 % 2 ≠ 1 := by omega
    simp; omega

theorem and_read (w : Nat) : w &&& readMask = w % 2 ^ 30 := by
  have h : readMask = 2 ^ 30 - 1 := by decide
  rw [h, Nat.and_two_pow_sub_one_eq_mod]

theorem and_pend (w : Nat) : w &&& pendMask ≠ 0 ↔ w / 2 ^ 30 % 2 = 1 := by
  have h : pendMask = 2 ^ 30 := by decide
  rw [h, Nat.and_two_pow]
  rw [Nat.testBit_eq_decide_div_mod_eq]
  simp

theorem or_pend {w : Nat} (hw : w < 2 ^ 30) : w ||| pendMask = w + 2 ^ 30 := by
  have h : pendMask = 2 ^ 30 * 1 := by decide
  rw [h, Nat.or_comm, ← Nat.two_pow_add_eq_or_of_lt hw]
  omega

/-! ### counting holders -/

/-- Threads holding the lock shared. -/
def readers {n : Nat} (pc : Fin n → Pc) : Nat := (Finset.univ.filter (fun t => pc t = .shared)).card
/-- Threads holding the lock exclusively. -/
def writers {n : Nat} (pc : Fin n → Pc) : Nat := (Finset.univ.filter (fun t => pc t = .excl)).card

theorem count_update {n : Nat} (pc : Fin n → Pc) (t : Fin n) (p q : Pc) :
    (Finset.univ.filter (fun u => Function.update pc t p u = q)).card + (if pc t = q then 1 else 0) =
    (Finset.univ.filter (fun u => pc u = q)).card + (if p = q then 1 else 0) := by
  classical
  have e : ∀ f : Fin n → Pc, (Finset.univ.filter (fun u => f u = q)).card =
      ((Finset.univ.erase t).filter (fun u => f u = q)).card + (if f t = q then 1 else 0) := by
    intro f
    conv_lhs => rw [← Finset.insert_erase (Finset.mem_univ t), Finset.filter_insert]
    split
    · rw [Finset.card_insert_of_notMem (by simp)]
    · rfl
  rw [e (Function.update pc t p), e pc, Function.update_self]
  have : (Finset.univ.erase t).filter (fun u => Function.update pc t p u = q) =
      (Finset.univ.erase t).filter (fun u => pc u = q) := by
    apply Finset.filter_congr
    intro u hu
    rw [Function.update_of_ne (Finset.ne_of_mem_erase hu)]
  rw [this]
  omega

/-- The local value a thread is going to exchange fits its branch. -/
def PcOk : Pc → Prop
  | .sharedCas st | .trySharedCas st => st < 2 ^ 30 - 1
  | .lockCas st | .tryLockCas st => st < 2 ^ 31 ∧ st % 2 ^ 30 = 0
  | .pendCas st => st < 2 ^ 30 ∧ st ≠ 0
  | _ => True

/-- Invariant. -/
structure Inv {n : Nat} (s : State n) : Prop where
  ok : ∀ t, PcOk (s.pc t)
  repr : ∃ p, s.word = writers s.pc * 2 ^ 31 + p * 2 ^ 30 + readers s.pc ∧ p ≤ 1 ∧
    (p = 1 → writers s.pc = 0 ∧ ∃ t, (s.pc t).inLock)
  wr : writers s.pc ≤ 1
  rd : readers s.pc < 2 ^ 30
  mutex : writers s.pc = 1 → readers s.pc = 0

theorem afterLoad_ok {st : Nat} (h : st < 2 ^ 32) : PcOk (afterLoad st) ∧ (afterLoad st).inLock := by
  unfold afterLoad
  split
  · exact ⟨trivial, trivial⟩
  · next h1 =>
    rw [and_excl h] at h1
    split
    · next h2 => rw [and_read] at h2; exact ⟨⟨by omega, h2⟩, trivial⟩
    · next h2 =>
      rw [and_read] at h2
      split
      · exact ⟨trivial, trivial⟩
      · next h3 =>
        rw [and_pend] at h3
        exact ⟨⟨by omega, by omega⟩, trivial⟩

theorem afterLoad_ne {st : Nat} : afterLoad st ≠ .shared ∧ afterLoad st ≠ .excl := by
  unfold afterLoad; split
  · simp
  · split
    · simp
    · split <;> simp

/-- A step that changes neither the word nor the holders. -/
theorem Inv.quiet {n : Nat} {s : State n} (h : Inv s) {t : Fin n} {pc : Pc} (h0 : s.pc t ≠ .shared ∧ s.pc t ≠ .excl)
    (h1 : pc ≠ .shared ∧ pc ≠ .excl) (hok : PcOk pc) (hl : (s.pc t).inLock → pc.inLock) :
    Inv ⟨s.word, Function.update s.pc t pc⟩ := by
  have hr : readers (Function.update s.pc t pc) = readers s.pc := by
    have := count_update s.pc t pc .shared
    rw [if_neg h0.1, if_neg h1.1] at this; exact this
  have hw : writers (Function.update s.pc t pc) = writers s.pc := by
    have := count_update s.pc t pc .excl
    rw [if_neg h0.2, if_neg h1.2] at this; exact this
  obtain ⟨p, e1, e2, e3⟩ := h.repr
  refine ⟨?_, ⟨p, by simp only [hr, hw]; exact e1, e2, ?_⟩, by simp only [hw]; exact h.wr, by simp only [hr]; exact h.rd,
    by simp only [hr, hw]; exact h.mutex⟩
  · intro u
    by_cases hu : u = t
    · subst hu; simp only [Function.update_self]; exact hok
    · simp only [Function.update_of_ne hu]; exact h.ok u
  · intro hp
    obtain ⟨k1, u, k2⟩ := e3 hp
    refine ⟨by simp only [hw]; exact k1, u, ?_⟩
    by_cases hu : u = t
    · subst hu; simp only [Function.update_self]; exact hl k2
    · simp only [Function.update_of_ne hu]; exact k2

theorem ok_update {n : Nat} {s : State n} (h : Inv s) (t : Fin n) {pc : Pc} (hok : PcOk pc) :
    ∀ u, PcOk (Function.update s.pc t pc u) := by
  intro u
  by_cases hu : u = t
  · subst hu; simp only [Function.update_self]; exact hok
  · simp only [Function.update_of_ne hu]; exact h.ok u

/-- Becoming a reader. -/
theorem Inv.toShared {n : Nat} {s : State n} (h : Inv s) {t : Fin n} (h0 : s.pc t ≠ .shared ∧ s.pc t ≠ .excl)
    (hw : s.word < 2 ^ 30 - 1) : Inv ⟨(s.word + 1) % 2 ^ 32, Function.update s.pc t .shared⟩ := by
  have hr' : readers (Function.update s.pc t .shared) = readers s.pc + 1 := by
    have := count_update s.pc t .shared .shared
    rw [if_neg h0.1] at this; unfold readers; simpa using this
  have hw' : writers (Function.update s.pc t .shared) = writers s.pc := by
    have := count_update s.pc t .shared .excl
    rw [if_neg h0.2] at this; unfold writers; simpa using this
  obtain ⟨p, e1, e2, e3⟩ := h.repr
  have hp : p = 0 := by have := h.wr; omega
  have hx : writers s.pc = 0 := by have := h.wr; omega
  subst hp
  refine ⟨ok_update h t trivial, ⟨0, ?_, by omega, by omega⟩, ?_, ?_, ?_⟩
  · simp only [hr', hw', hx]; omega
  · simp only [hw']; exact h.wr
  · simp only [hr']; omega
  · simp only [hw', hx]; omega

/-- Becoming the writer. -/
theorem Inv.toExcl {n : Nat} {s : State n} (h : Inv s) {t : Fin n} (h0 : s.pc t ≠ .shared ∧ s.pc t ≠ .excl)
    (hw : s.word < 2 ^ 31) (hm : s.word % 2 ^ 30 = 0) : Inv ⟨exclMask, Function.update s.pc t .excl⟩ := by
  have hr' : readers (Function.update s.pc t .excl) = readers s.pc := by
    have := count_update s.pc t .excl .shared
    rw [if_neg h0.1] at this; unfold readers; simpa using this
  have hw' : writers (Function.update s.pc t .excl) = writers s.pc + 1 := by
    have := count_update s.pc t .excl .excl
    rw [if_neg h0.2] at this; unfold writers; simpa using this
  obtain ⟨p, e1, e2, e3⟩ := h.repr
  have hx : writers s.pc = 0 := by have := h.wr; omega
  have hrd : readers s.pc = 0 := by have := h.rd; omega
  have he : exclMask = 2 ^ 31 := by decide
  refine ⟨ok_update h t trivial, ⟨0, ?_, by omega, by omega⟩, ?_, ?_, ?_⟩
  · simp only [hr', hw', hx, hrd, he]; omega
  · simp only [hw', hx]; omega
  · simp only [hr', hrd]; omega
  · intro _; show readers (Function.update s.pc t .excl) = 0; rw [hr', hrd]

theorem readers_pos {n : Nat} {pc : Fin n → Pc} {t : Fin n} (h : pc t = .shared) : 1 ≤ readers pc :=
  Finset.card_pos.mpr ⟨t, by simp [h]⟩

theorem writers_pos {n : Nat} {pc : Fin n → Pc} {t : Fin n} (h : pc t = .excl) : 1 ≤ writers pc :=
  Finset.card_pos.mpr ⟨t, by simp [h]⟩

theorem Inv.step {n : Nat} {s s' : State n} (h : Inv s) (hs : Step s s') : Inv s' := by
  obtain ⟨t, w, pc, ha, rfl⟩ := hs
  have hok := h.ok t
  generalize hpc : s.pc t = p0 at ha
  generalize hwd : s.word = w0 at ha
  rw [hpc] at hok
  cases ha with
  | callShared => subst hwd; exact h.quiet (by simp [hpc]) (by simp) trivial (by simp [hpc, Pc.inLock])
  | loadShared st hst =>
    subst hwd
    refine h.quiet (by simp [hpc]) ?_ ?_ (by simp [hpc, Pc.inLock])
    · split <;> simp
    · split
      · next hlt => have : readMask = 2 ^ 30 - 1 := by decide
                    show st < 2 ^ 30 - 1; omega
      · trivial
  | casShared =>
    have hok : w0 < 2 ^ 30 - 1 := hok
    subst hwd
    exact h.toShared (by simp [hpc]) hok
  | casSharedFail st => subst hwd; exact h.quiet (by simp [hpc]) (by simp) trivial (by simp [hpc, Pc.inLock])
  | callTryShared => subst hwd; exact h.quiet (by simp [hpc]) (by simp) trivial (by simp [hpc, Pc.inLock])
  | loadTryShared st hst =>
    subst hwd
    refine h.quiet (by simp [hpc]) ?_ ?_ (by simp [hpc, Pc.inLock])
    · split <;> simp
    · split
      · trivial
      · next hlt => have : readMask = 2 ^ 30 - 1 := by decide
                    show st < 2 ^ 30 - 1; omega
  | casTryShared =>
    have hok : w0 < 2 ^ 30 - 1 := hok
    subst hwd
    exact h.toShared (by simp [hpc]) hok
  | casTrySharedFail st _ => subst hwd; exact h.quiet (by simp [hpc]) (by simp) trivial (by simp [hpc, Pc.inLock])
  | unlockShared =>
    subst hwd
    have hpos := readers_pos hpc
    have hr' : readers (Function.update s.pc t .idle) + 1 = readers s.pc := by
      have := count_update s.pc t .idle .shared
      rw [if_pos hpc] at this; unfold readers; simpa using this
    have hw' : writers (Function.update s.pc t .idle) = writers s.pc := by
      have := count_update s.pc t .idle .excl
      rw [if_neg (by simp [hpc])] at this; unfold writers; simpa using this
    obtain ⟨p, e1, e2, e3⟩ := h.repr
    have hx : writers s.pc = 0 := by have h1 := h.wr; have h2 := h.mutex; omega
    have hrd := h.rd
    refine ⟨ok_update h t trivial, ⟨p, ?_, e2, ?_⟩, ?_, ?_, ?_⟩
    · simp only [hw', hx]; omega
    · intro hp
      obtain ⟨k1, u, k2⟩ := e3 hp
      refine ⟨by simp only [hw']; exact k1, u, ?_⟩
      have hu : u ≠ t := by rintro rfl; rw [hpc] at k2; exact k2
      simp only [Function.update_of_ne hu]; exact k2
    · simp only [hw']; exact h.wr
    · simp only; omega
    · simp only [hw', hx]; omega
  | callLock => subst hwd; exact h.quiet (by simp [hpc]) (by simp) trivial (by simp [hpc, Pc.inLock])
  | loadLock st hst =>
    subst hwd
    obtain ⟨k1, k2⟩ := afterLoad_ok hst
    exact h.quiet (by simp [hpc]) afterLoad_ne k1 (fun _ => k2)
  | casLock =>
    obtain ⟨k1, k2⟩ : w0 < 2 ^ 31 ∧ w0 % 2 ^ 30 = 0 := hok
    subst hwd
    exact h.toExcl (by simp [hpc]) k1 k2
  | casLockFail st => subst hwd; exact h.quiet (by simp [hpc]) (by simp) trivial (by simp [Pc.inLock])
  | casPend =>
    obtain ⟨k1, k2⟩ : w0 < 2 ^ 30 ∧ w0 ≠ 0 := hok
    subst hwd
    rw [or_pend k1]
    have hr' : readers (Function.update s.pc t .lockLoop) = readers s.pc := by
      have := count_update s.pc t .lockLoop .shared
      rw [if_neg (by simp [hpc])] at this; unfold readers; simpa using this
    have hw' : writers (Function.update s.pc t .lockLoop) = writers s.pc := by
      have := count_update s.pc t .lockLoop .excl
      rw [if_neg (by simp [hpc])] at this; unfold writers; simpa using this
    obtain ⟨p, e1, e2, e3⟩ := h.repr
    have hx : writers s.pc = 0 := by have := h.wr; omega
    have hp : p = 0 := by omega
    subst hp
    refine ⟨ok_update h t trivial, ⟨1, ?_, by omega, ?_⟩, ?_, ?_, ?_⟩
    · simp only [hr', hw', hx]; omega
    · intro _; exact ⟨by simp only [hw']; exact hx, t, by simp [Pc.inLock]⟩
    · simp only [hw']; exact h.wr
    · simp only [hr']; exact h.rd
    · simp only [hw', hx]; omega
  | casPendFail st => subst hwd; exact h.quiet (by simp [hpc]) (by simp) trivial (by simp [Pc.inLock])
  | callTryLock => subst hwd; exact h.quiet (by simp [hpc]) (by simp) trivial (by simp [hpc, Pc.inLock])
  | loadTryLock st hst =>
    subst hwd
    refine h.quiet (by simp [hpc]) ?_ ?_ (by simp [hpc, Pc.inLock])
    · split
      · simp
      · split <;> simp
    · split
      · trivial
      · next h1 =>
        rw [and_excl hst] at h1
        split
        · trivial
        · next h2 => rw [and_read] at h2; exact ⟨by omega, by omega⟩
  | casTryLock =>
    obtain ⟨k1, k2⟩ : w0 < 2 ^ 31 ∧ w0 % 2 ^ 30 = 0 := hok
    subst hwd
    exact h.toExcl (by simp [hpc]) k1 k2
  | casTryLockFail st _ => subst hwd; exact h.quiet (by simp [hpc]) (by simp) trivial (by simp [hpc, Pc.inLock])
  | unlock =>
    have hpos := writers_pos hpc
    have hr' : readers (Function.update s.pc t .idle) = readers s.pc := by
      have := count_update s.pc t .idle .shared
      rw [if_neg (by simp [hpc])] at this; unfold readers; simpa using this
    have hw' : writers (Function.update s.pc t .idle) + 1 = writers s.pc := by
      have := count_update s.pc t .idle .excl
      rw [if_pos hpc] at this; unfold writers; simpa using this
    have h1 := h.wr
    have h2 := h.mutex
    refine ⟨ok_update h t trivial, ⟨0, ?_, by omega, by omega⟩, ?_, ?_, ?_⟩ <;> simp only [hr'] <;> omega

theorem inv_init (n : Nat) : Inv (init n) := by
  have h1 : readers (init n).pc = 0 := by simp [readers, init]
  have h2 : writers (init n).pc = 0 := by simp [writers, init]
  refine ⟨fun _ => trivial, ⟨0, by rw [h1, h2]; rfl, by omega, by omega⟩, by omega, by omega, by omega⟩

theorem Reach.inv {n : Nat} {s : State n} (h : Reach s) : Inv s := by
  induction h with
  | init => exact inv_init n
  | step _ hs ih => exact ih.step hs

end Conc.Spin

/-
Properties of the reader-writer spinlock (C27). `Conc.Spin.Reach s` ranges over every state that any number of threads can
reach by calling lock / try_lock / unlock / lock_shared / try_lock_shared / unlock_shared in any interleaving of their atomic
accesses, with stale relaxed loads and spurious failures of the weak exchanges.
-/
import Verif.Conc.Spinlock
import Mathlib.Logic.Relation
import Mathlib.Data.List.Chain
import Mathlib.Tactic.FinCases

namespace Props.ConcLock
open Conc.Spin

variable {n : Nat}

/-! ### vocabulary -/

/-- `t` holds the lock exclusively / shared. -/
def HoldsX (s : State n) (t : Fin n) : Prop := s.pc t = .excl
def HoldsS (s : State n) (t : Fin n) : Prop := s.pc t = .shared
/-- Nobody holds the lock. -/
def Free (s : State n) : Prop := ∀ t, ¬ HoldsX s t ∧ ¬ HoldsS s t
/-- The writer-pending bit of the lock word. -/
def Pending (s : State n) : Prop := s.word / 2 ^ 30 % 2 = 1
/-- Waiting inside `lock()` / `lock_shared()`. -/
def WaitsX (s : State n) (t : Fin n) : Prop := (s.pc t).inLock
def WaitsS (s : State n) (t : Fin n) : Prop := (s.pc t).inLockShared
/-- Any number of steps of any threads; of one thread. -/
def Steps : State n → State n → Prop := Relation.ReflTransGen Step
def StepsOf (t : Fin n) : State n → State n → Prop := Relation.ReflTransGen (StepBy t)

/-! ### a reachable state with readers and a pending writer, to show hypotheses are met -/

/-- Three threads: two hold the lock shared, the third has announced itself and waits. -/
def busy : State 3 := ⟨2 ^ 30 + 2, fun t => if t = 2 then .lockLoop else .shared⟩

/-- Extends a reachable state by one access of `t`. -/
theorem go {s : State n} (h : Reach s) (t : Fin n) {w : Nat} {pc : Pc} (ha : Act s.word (s.pc t) w pc) :
    Reach ⟨w, Function.update s.pc t pc⟩ := h.step ⟨t, w, pc, ha, rfl⟩

theorem busy_reach : Reach busy := by
  have h0 : Reach (init 3) := .init
  have h1 := go h0 0 (.callShared 0)
  have h2 := go h1 0 (by simpa using Act.loadShared 0 0 (by omega))
  have h3 := go h2 0 (by simpa [readMask, pendMask] using Act.casShared 0)
  have h4 := go h3 1 (by simpa [init] using Act.callShared 1)
  have h5 := go h4 1 (by simpa using Act.loadShared 1 1 (by omega))
  have h6 := go h5 1 (by simpa [readMask, pendMask] using Act.casShared 1)
  have h7 := go h6 2 (by simpa [init] using Act.callLock 2)
  have h8 := go h7 2 (by simpa using Act.loadLock 2 2 (by omega))
  have e : afterLoad 2 = .pendCas 2 := by decide
  have h9 := go h8 2 (by simpa [e] using Act.casPend 2)
  convert h9 using 1
  unfold busy
  congr 1
  funext t
  fin_cases t <;> simp

/-! ### C27: mutual exclusion and exact accounting -/

theorem writers_eq {s : State n} {t : Fin n} (h : Reach s) (ht : HoldsX s t) : writers s.pc = 1 := by
  have h1 := h.inv.wr
  have h2 := writers_pos ht
  omega

/-- C27: an exclusive holder excludes every other holder. -/
theorem C27_mutual_exclusion {s : State n} (h : Reach s) {t u : Fin n} (ht : HoldsX s t) (hu : u ≠ t) :
    ¬ HoldsX s u ∧ ¬ HoldsS s u := by
  have h1 := writers_eq h ht
  refine ⟨fun hx => ?_, fun hx => ?_⟩
  · obtain ⟨a, ha⟩ := Finset.card_eq_one.mp h1
    have m1 : t ∈ Finset.univ.filter (fun t => s.pc t = .excl) := by simpa [HoldsX] using ht
    have m2 : u ∈ Finset.univ.filter (fun t => s.pc t = .excl) := by simpa [HoldsX] using hx
    rw [ha, Finset.mem_singleton] at m1 m2
    exact hu (m2.trans m1.symm)
  · have := h.inv.mutex h1
    have := readers_pos hx
    omega

/-- C27: the word counts the shared holders exactly, and its top bit says whether there is an exclusive one. -/
theorem C27_word_exact {s : State n} (h : Reach s) :
    s.word % 2 ^ 30 = (Finset.univ.filter (fun t => s.pc t = .shared)).card ∧
    (s.word / 2 ^ 31 % 2 = 1 ↔ ∃ t, HoldsX s t) ∧ s.word < 2 ^ 32 := by
  obtain ⟨p, e1, e2, e3⟩ := h.inv.repr
  have h1 := h.inv.rd
  have h2 := h.inv.wr
  have e : readers s.pc = (Finset.univ.filter (fun t => s.pc t = .shared)).card := rfl
  rw [← e]
  refine ⟨by omega, ⟨fun hx => ?_, fun ⟨t, ht⟩ => ?_⟩, by omega⟩
  · have : 0 < writers s.pc := by omega
    obtain ⟨t, ht⟩ := Finset.card_pos.mp this
    exact ⟨t, by simpa [HoldsX] using ht⟩
  · have := writers_pos ht
    omega

example : busy.word % 2 ^ 30 = 2 := by simp [busy]

/-- C27: `unlock()` by the exclusive holder leaves the lock free and the word zero: no other holder existed. -/
theorem C27_unlock {s s' : State n} (h : Reach s) {t : Fin n} (ht : HoldsX s t) (hs : StepBy t s s') :
    Free s' ∧ s'.word = 0 := by
  have hr' : Reach s' := h.step ⟨t, hs⟩
  obtain ⟨w, pc, ha, rfl⟩ := hs
  rw [show s.pc t = .excl from ht] at ha
  cases ha
  refine ⟨fun u => ?_, rfl⟩
  by_cases hu : u = t
  · subst hu; simp [HoldsX, HoldsS]
  · have := C27_mutual_exclusion h ht hu
    simp only [HoldsX, HoldsS, Function.update_of_ne hu]
    exact this

/-- C27: `unlock_shared()` gives up exactly one shared lock, the caller's: everybody else's lock, the pending bit and the
top bit are as before. -/
theorem C27_unlock_shared {s s' : State n} (h : Reach s) {t : Fin n} (ht : HoldsS s t) (hs : StepBy t s s') :
    ¬ HoldsS s' t ∧ (∀ u, u ≠ t → (HoldsS s' u ↔ HoldsS s u) ∧ (HoldsX s' u ↔ HoldsX s u)) ∧
    s'.word + 1 = s.word ∧ (Pending s' ↔ Pending s) := by
  have hp := readers_pos ht
  have hx := (C27_word_exact h).1
  have hlt := (C27_word_exact h).2.2
  have e : readers s.pc = (Finset.univ.filter (fun t => s.pc t = .shared)).card := rfl
  obtain ⟨w, pc, ha, rfl⟩ := hs
  rw [show s.pc t = .shared from ht] at ha
  have hw : w + 1 = s.word ∧ pc = .idle := by
    generalize s.word = w0 at ha hlt hx
    cases ha
    exact ⟨by omega, rfl⟩
  refine ⟨by simp [HoldsS, hw.2], fun u hu => by simp [HoldsS, HoldsX, Function.update_of_ne hu], hw.1, ?_⟩
  simp only [Pending]
  rw [← e] at hx
  omega

example : HoldsS busy 0 ∧ HoldsS busy 1 ∧ Pending busy := by simp [HoldsS, busy, Pending]

/-! ### C27: no lost waiters -/

/-- The access `t` makes when its loads are fresh and its weak exchanges do not fail spuriously. -/
def soloStep (w : Nat) : Pc → Nat × Pc
  | .lockLoop => (w, afterLoad w)
  | .lockCas st => if w = st then (exclMask, .excl) else (w, .lockLoop)
  | .pendCas st => if w = st then (w ||| pendMask, .lockLoop) else (w, .lockLoop)
  | .sharedLoop => (w, if w < readMask then .sharedCas w else .sharedLoop)
  | .sharedCas st => if w = st then ((w + 1) % 2 ^ 32, .shared) else (w, .sharedLoop)
  | p => (w, p)

/-- `t` runs `k` accesses on its own. -/
def solo (t : Fin n) : Nat → State n → State n
  | 0, s => s
  | k + 1, s => solo t k ⟨(soloStep s.word (s.pc t)).1, Function.update s.pc t (soloStep s.word (s.pc t)).2⟩

theorem soloStep_act {w : Nat} {p : Pc} (hw : w < 2 ^ 32) :
    Act w p (soloStep w p).1 (soloStep w p).2 ∨ soloStep w p = (w, p) := by
  cases p with
  | lockLoop => exact .inl (.loadLock _ _ hw)
  | lockCas st =>
    left; simp only [soloStep]; split
    · next h => subst h; exact .casLock _
    · exact .casLockFail _ _
  | pendCas st =>
    left; simp only [soloStep]; split
    · next h => subst h; exact .casPend _
    · exact .casPendFail _ _
  | sharedLoop => exact .inl (.loadShared _ _ hw)
  | sharedCas st =>
    left; simp only [soloStep]; split
    · next h => subst h; exact .casShared _
    · exact .casSharedFail _ _
  | _ => exact .inr rfl

/-- A solo run is a run of the model. -/
theorem solo_steps {t : Fin n} : ∀ (k : Nat) {s : State n}, Reach s → StepsOf t s (solo t k s)
  | 0, _, _ => .refl
  | k + 1, s, h => by
    rcases soloStep_act (p := s.pc t) (C27_word_exact h).2.2 with ha | he
    · have hb : StepBy t s ⟨(soloStep s.word (s.pc t)).1, Function.update s.pc t (soloStep s.word (s.pc t)).2⟩ :=
        ⟨_, _, ha, rfl⟩
      exact .head hb (solo_steps k (h.step ⟨t, hb⟩))
    · have : (⟨(soloStep s.word (s.pc t)).1, Function.update s.pc t (soloStep s.word (s.pc t)).2⟩ : State n) = s := by
        rw [he]; simp
      simp only [solo]
      rw [this]
      exact solo_steps k h

theorem free_word {s : State n} (h : Reach s) (hf : Free s) : s.word = 0 ∨ s.word = 2 ^ 30 := by
  obtain ⟨p, e1, e2, e3⟩ := h.inv.repr
  have h1 : readers s.pc = 0 := Finset.card_eq_zero.mpr (Finset.filter_eq_empty_iff.mpr fun u _ => (hf u).2)
  have h2 : writers s.pc = 0 := Finset.card_eq_zero.mpr (Finset.filter_eq_empty_iff.mpr fun u _ => (hf u).1)
  rw [h1, h2] at e1
  omega

/-- C27: when nobody holds the lock, a thread inside `lock()` that runs alone acquires it within three accesses. -/
theorem C27_writer_acquires {s : State n} (h : Reach s) (hf : Free s) {t : Fin n} (ht : WaitsX s t) :
    ∃ k ≤ 3, HoldsX (solo t k s) t ∧ StepsOf t s (solo t k s) := by
  suffices hh : ∃ k ≤ 3, HoldsX (solo t k s) t by
    obtain ⟨k, h1, h2⟩ := hh; exact ⟨k, h1, h2, solo_steps k h⟩
  have hw := free_word h hf
  have ha : afterLoad s.word = .lockCas s.word := by rcases hw with e | e <;> rw [e] <;> decide
  have hok := h.inv.ok t
  cases hp : s.pc t with
  | lockLoop => exact ⟨2, by omega, by simp [HoldsX, solo, hp, soloStep, ha]⟩
  | lockCas st =>
    by_cases hst : s.word = st
    · exact ⟨1, by omega, by simp [HoldsX, solo, hp, soloStep, hst]⟩
    · exact ⟨3, by omega, by simp [HoldsX, solo, hp, soloStep, ha, hst]⟩
  | pendCas st =>
    rw [hp] at hok
    obtain ⟨h1, h2⟩ : st < 2 ^ 30 ∧ st ≠ 0 := hok
    have hst : s.word ≠ st := by omega
    exact ⟨3, by omega, by simp [HoldsX, solo, hp, soloStep, ha, hst]⟩
  | _ => simp [WaitsX, hp, Pc.inLock] at ht

/-- C27: when nobody holds the lock and no writer is announced, a thread inside `lock_shared()` that runs alone acquires it
within three accesses. -/
theorem C27_reader_acquires {s : State n} (h : Reach s) (hf : Free s) (hn : ¬ Pending s) {t : Fin n} (ht : WaitsS s t) :
    ∃ k ≤ 3, HoldsS (solo t k s) t ∧ StepsOf t s (solo t k s) := by
  suffices hh : ∃ k ≤ 3, HoldsS (solo t k s) t by
    obtain ⟨k, h1, h2⟩ := hh; exact ⟨k, h1, h2, solo_steps k h⟩
  have hw : s.word = 0 := by
    rcases free_word h hf with e | e
    · exact e
    · exact absurd (by simp [Pending, e]) hn
  have hlt : s.word < readMask := by rw [hw]; decide
  cases hp : s.pc t with
  | sharedLoop => exact ⟨2, by omega, by simp [HoldsS, solo, hp, soloStep, hlt]⟩
  | sharedCas st =>
    by_cases hst : s.word = st
    · exact ⟨1, by omega, by simp [HoldsS, solo, hp, soloStep, hst]⟩
    · exact ⟨3, by omega, by simp [HoldsS, solo, hp, soloStep, hst, hlt]⟩
  | _ => simp [WaitsS, hp, Pc.inLockShared] at ht

/-- C27: an announced writer exists: the pending bit is never left behind. -/
theorem C27_pending_has_waiter {s : State n} (h : Reach s) (hp : Pending s) :
    (∃ t, WaitsX s t) ∧ ∀ t, ¬ HoldsX s t := by
  obtain ⟨p, e1, e2, e3⟩ := h.inv.repr
  have h1 := h.inv.rd
  have h2 := h.inv.wr
  simp only [Pending] at hp
  have : p = 1 := by omega
  obtain ⟨k1, t, k2⟩ := e3 this
  exact ⟨⟨t, k2⟩, fun u hu => by have := writers_pos hu; omega⟩

/-- C27: a free lock with waiters is never stuck: one of the waiters, running alone, acquires it within three accesses. -/
theorem C27_no_lost_waiters {s : State n} (h : Reach s) (hf : Free s) (hw : ∃ t, WaitsX s t ∨ WaitsS s t) :
    ∃ t, (WaitsX s t ∨ WaitsS s t) ∧ ∃ k ≤ 3, HoldsX (solo t k s) t ∨ HoldsS (solo t k s) t := by
  obtain ⟨t, ht⟩ := hw
  rcases ht with ht | ht
  · obtain ⟨k, h1, h2, _⟩ := C27_writer_acquires h hf ht
    exact ⟨t, .inl ht, k, h1, .inl h2⟩
  · by_cases hp : Pending s
    · obtain ⟨⟨u, hu⟩, _⟩ := C27_pending_has_waiter h hp
      obtain ⟨k, h1, h2, _⟩ := C27_writer_acquires h hf hu
      exact ⟨u, .inl hu, k, h1, .inl h2⟩
    · obtain ⟨k, h1, h2, _⟩ := C27_reader_acquires h hf hp ht
      exact ⟨t, .inr ht, k, h1, .inr h2⟩

/-- The state after both readers of `busy` have left: free, with a writer waiting. -/
def freed : State 3 := ⟨2 ^ 30, fun t => if t = 2 then .lockLoop else .idle⟩

theorem freed_reach : Reach freed := by
  have h1 := go busy_reach 0 (w := 2 ^ 30 + 1) (pc := .idle) (by simpa [busy] using Act.unlockShared 1073741826)
  have h2 := go h1 1 (w := 2 ^ 30) (pc := .idle) (by simpa [busy] using Act.unlockShared 1073741825)
  convert h2 using 1
  unfold freed busy
  congr 1
  funext t
  fin_cases t <;> simp

example : Free freed ∧ WaitsX freed 2 := by
  refine ⟨fun t => ?_, by simp [freed, WaitsX, Pc.inLock]⟩
  fin_cases t <;> simp [freed, HoldsX, HoldsS]

/-! ### C27: a pending writer is not overtaken by new readers -/

theorem pending_step {s s' : State n} (h : Reach s) (hp : Pending s) (hs : Step s s') :
    (∀ u, HoldsS s' u → HoldsS s u) ∧ (Pending s' ∨ ∃ u, HoldsX s' u) := by
  obtain ⟨t, w, pc, ha, rfl⟩ := hs
  have hok := h.inv.ok t
  have hlt := (C27_word_exact h).2.2
  have hrd := readers_pos (pc := s.pc) (t := t)
  have hre := (C27_word_exact h).1
  have hrr : readers s.pc = (Finset.univ.filter (fun t => s.pc t = .shared)).card := rfl
  rw [← hrr] at hre
  have hnx := (C27_pending_has_waiter h hp).2
  simp only [Pending] at hp
  have key : (pc = .shared → s.pc t = .shared) ∧ (w / 2 ^ 30 % 2 = 1 ∨ pc = .excl) := by
    generalize hpc : s.pc t = p0 at ha hok
    generalize hwd : s.word = w0 at ha hlt hp hre
    have hx := hnx t
    simp only [HoldsX] at hx
    cases ha with
    | casShared => have hok : w0 < 2 ^ 30 - 1 := hok; omega
    | casTryShared => have hok : w0 < 2 ^ 30 - 1 := hok; omega
    | unlockShared => have := hrd hpc; exact ⟨by simp, .inl (by omega)⟩
    | casPend => obtain ⟨h1, h2⟩ : w0 < 2 ^ 30 ∧ w0 ≠ 0 := hok; omega
    | casLock => exact ⟨by simp, .inr rfl⟩
    | casTryLock => exact ⟨by simp, .inr rfl⟩
    | unlock => exact absurd hpc hx
    | loadLock st h => exact ⟨fun e => absurd e afterLoad_ne.1, .inl hp⟩
    | loadShared st h => exact ⟨by split <;> simp, .inl hp⟩
    | loadTryShared st h => exact ⟨by split <;> simp, .inl hp⟩
    | loadTryLock st h => exact ⟨by split; · simp
                                    · split <;> simp, .inl hp⟩
    | _ => exact ⟨by simp, .inl hp⟩
  refine ⟨fun u hu => ?_, ?_⟩
  · by_cases e : u = t
    · subst e; simp only [HoldsS, Function.update_self] at hu ⊢; exact key.1 hu
    · simpa only [HoldsS, Function.update_of_ne e] using hu
  · rcases key.2 with e | e
    · exact .inl e
    · exact .inr ⟨t, by simp [HoldsX, e]⟩

/-- C27: once a writer is announced, on every continuation and until some writer gets the lock, the announcement stays and
no thread becomes a shared holder: the shared holders are among those of the beginning. -/
theorem C27_no_overtaking {s : State n} (h : Reach s) (hp : Pending s) :
    ∀ (run : List (State n)), List.IsChain Step (s :: run) → (∀ s' ∈ run, ∀ u, ¬ HoldsX s' u) →
      ∀ s' ∈ run, Pending s' ∧ ∀ u, HoldsS s' u → HoldsS s u
  | [], _, _, _, hm => absurd hm (by simp)
  | a :: run, hc, hn, s', hm => by
    rw [List.isChain_cons_cons] at hc
    obtain ⟨k1, k2⟩ := pending_step h hp hc.1
    have k3 : Pending a := k2.resolve_right (fun ⟨u, hu⟩ => hn a (by simp) u hu)
    rcases List.mem_cons.mp hm with e | e
    · subst e; exact ⟨k3, k1⟩
    · obtain ⟨j1, j2⟩ := C27_no_overtaking (h.step hc.1) k3 run hc.2 (fun s' hs' => hn s' (by simp [hs'])) s' e
      exact ⟨j1, fun u hu => k1 u (j2 u hu)⟩

example : Reach busy ∧ Pending busy := ⟨busy_reach, by simp [busy, Pending]⟩

/-! ### C27: every waiter can still get the lock, from every reachable state -/

theorem Steps.reach {s s' : State n} (h : Reach s) (hs : Steps s s') : Reach s' := by
  induction hs with
  | refl => exact h
  | tail _ hs ih => exact ih.step hs

theorem StepsOf.steps {t : Fin n} {s s' : State n} (hs : StepsOf t s s') : Steps s s' := by
  induction hs with
  | refl => exact .refl
  | tail _ h ih => exact .tail ih ⟨t, h⟩

theorem StepsOf.others {t u : Fin n} {s s' : State n} (hu : u ≠ t) (hs : StepsOf t s s') : s'.pc u = s.pc u := by
  induction hs with
  | refl => rfl
  | tail _ hs ih =>
    obtain ⟨w, pc, _, rfl⟩ := hs
    simp only [Function.update_of_ne hu]; exact ih

/-- The holders can leave; everybody else stays put. -/
theorem release_all : ∀ (k : Nat) {s : State n}, Reach s → readers s.pc + writers s.pc = k →
    ∃ s', Steps s s' ∧ Free s' ∧ ∀ u, ¬ HoldsX s u → ¬ HoldsS s u → s'.pc u = s.pc u
  | 0, s, h, hk => by
    refine ⟨s, .refl, fun u => ⟨fun hx => ?_, fun hx => ?_⟩, fun _ _ _ => rfl⟩
    · have := writers_pos hx; omega
    · have := readers_pos hx; omega
  | k + 1, s, h, hk => by
    have hcase : (∃ t, s.pc t = .excl) ∨ ∃ t, s.pc t = .shared := by
      by_cases hw : 0 < writers s.pc
      · obtain ⟨t, ht⟩ := Finset.card_pos.mp hw
        exact .inl ⟨t, by simpa using ht⟩
      · have hr : 0 < readers s.pc := by omega
        obtain ⟨t, ht⟩ := Finset.card_pos.mp hr
        exact .inr ⟨t, by simpa using ht⟩
    obtain ⟨t, w, ha, hh⟩ : ∃ t w, Act s.word (s.pc t) w .idle ∧ (s.pc t = .excl ∨ s.pc t = .shared) := by
      rcases hcase with ⟨t, ht⟩ | ⟨t, ht⟩
      · exact ⟨t, 0, by rw [ht]; exact .unlock _, .inl ht⟩
      · exact ⟨t, _, by rw [ht]; exact .unlockShared _, .inr ht⟩
    have hs : Step s ⟨w, Function.update s.pc t .idle⟩ := ⟨t, w, .idle, ha, rfl⟩
    have hcnt : readers (Function.update s.pc t .idle) + writers (Function.update s.pc t .idle) = k := by
      have c1 := count_update s.pc t .idle .shared
      have c2 := count_update s.pc t .idle .excl
      unfold readers writers at hk ⊢
      rcases hh with hh | hh <;> simp [hh] at c1 c2 <;> omega
    obtain ⟨s', j1, j2, j3⟩ := release_all k (h.step hs) hcnt
    refine ⟨s', .head hs j1, j2, fun u h1 h2 => ?_⟩
    have hu : u ≠ t := by rintro rfl; rcases hh with hh | hh; exact h1 hh; exact h2 hh
    have := j3 u (by simpa [HoldsX, Function.update_of_ne hu] using h1) (by simpa [HoldsS, Function.update_of_ne hu] using h2)
    rw [this]; simp only [Function.update_of_ne hu]

/-- C27: from every reachable state, every thread inside `lock()` can still acquire, and so can every thread inside
`lock_shared()`: no state of the lock word shuts a waiter out. -/
theorem C27_never_shut_out {s : State n} (h : Reach s) (t : Fin n) :
    (WaitsX s t → ∃ s', Steps s s' ∧ HoldsX s' t) ∧ (WaitsS s t → ∃ s', Steps s s' ∧ HoldsS s' t) := by
  obtain ⟨s1, a1, a2, a3⟩ := release_all _ h rfl
  have h1 := Steps.reach h a1
  refine ⟨fun hw => ?_, fun hw => ?_⟩
  · have e : s1.pc t = s.pc t := a3 t (by intro e; simp [WaitsX, HoldsX] at *; simp [e, Pc.inLock] at hw)
      (by intro e; simp [WaitsX, HoldsS] at *; simp [e, Pc.inLock] at hw)
    obtain ⟨k, _, b1, b2⟩ := C27_writer_acquires h1 a2 (t := t) (by simpa [WaitsX, e] using hw)
    exact ⟨_, a1.trans b2.steps, b1⟩
  · have e : s1.pc t = s.pc t := a3 t (by intro e; simp [WaitsS, HoldsX] at *; simp [e, Pc.inLockShared] at hw)
      (by intro e; simp [WaitsS, HoldsS] at *; simp [e, Pc.inLockShared] at hw)
    have hw1 : WaitsS s1 t := by simpa [WaitsS, e] using hw
    by_cases hp : Pending s1
    · obtain ⟨⟨u, hu⟩, _⟩ := C27_pending_has_waiter h1 hp
      obtain ⟨k, _, b1, b2⟩ := C27_writer_acquires h1 a2 hu
      have hut : t ≠ u := by
        rintro rfl
        simp only [WaitsX, WaitsS] at hu hw1
        generalize s1.pc t = q at hu hw1
        cases q <;> simp [Pc.inLock, Pc.inLockShared] at hu hw1
      have h2 := Steps.reach h1 b2.steps
      have hs : StepBy u (solo u k s1) ⟨0, Function.update (solo u k s1).pc u .idle⟩ :=
        ⟨0, .idle, by rw [show (solo u k s1).pc u = .excl from b1]; exact .unlock _, rfl⟩
      obtain ⟨c1, c2⟩ := C27_unlock h2 b1 hs
      have e2 : (solo u k s1).pc t = s1.pc t := b2.others hut
      obtain ⟨k', _, d1, d2⟩ := C27_reader_acquires (h2.step ⟨u, hs⟩) c1 (by simp [Pending]) (t := t)
        (by simpa [WaitsS, Function.update_of_ne hut, e2] using hw1)
      exact ⟨_, a1.trans (b2.steps.trans (.head ⟨u, hs⟩ d2.steps)), d1⟩
    · obtain ⟨k, _, b1, b2⟩ := C27_reader_acquires h1 a2 hp hw1
      exact ⟨_, a1.trans b2.steps, b1⟩

example : Reach busy ∧ WaitsX busy 2 := ⟨busy_reach, by simp [busy, WaitsX, Pc.inLock]⟩

/-! ### C27: what is not promised -/

/-- Two threads; thread 1 takes and releases the lock for ever, thread 0 waits in `lock()`. -/
def starve (i : Nat) : State 2 :=
  match i % 5 with
  | 0 => ⟨exclMask, fun t => if t = 1 then .excl else .lockLoop⟩
  | 1 => ⟨exclMask, fun t => if t = 1 then .excl else .lockLoop⟩
  | 2 => ⟨0, fun t => if t = 1 then .idle else .lockLoop⟩
  | 3 => ⟨0, fun t => if t = 1 then .lockLoop else .lockLoop⟩
  | _ => ⟨0, fun t => if t = 1 then .lockCas 0 else .lockLoop⟩

/-- The limit of C27: a particular writer may be overtaken by other *writers* for ever, although it keeps taking steps. The
run below is infinite and periodic, thread 0 makes an access in every period (it sees the exclusive bit), and it never
acquires. -/
theorem C27_writer_can_starve :
    Reach (starve 0) ∧ (∀ i, Step (starve i) (starve (i + 1))) ∧
    (∀ i, StepBy 0 (starve (5 * i)) (starve (5 * i + 1))) ∧ ∀ i, WaitsX (starve i) 0 := by
  have e0 : ∀ i, i % 5 = 0 → starve i = ⟨exclMask, fun t => if t = 1 then .excl else .lockLoop⟩ := by
    intro i h; simp [starve, h]
  have e1 : ∀ i, i % 5 = 1 → starve i = ⟨exclMask, fun t => if t = 1 then .excl else .lockLoop⟩ := by
    intro i h; simp [starve, h]
  have e2 : ∀ i, i % 5 = 2 → starve i = ⟨0, fun t => if t = 1 then .idle else .lockLoop⟩ := by
    intro i h; simp [starve, h]
  have e3 : ∀ i, i % 5 = 3 → starve i = ⟨0, fun t => if t = 1 then .lockLoop else .lockLoop⟩ := by
    intro i h; simp [starve, h]
  have e4 : ∀ i, i % 5 = 4 → starve i = ⟨0, fun t => if t = 1 then .lockCas 0 else .lockLoop⟩ := by
    intro i h; simp [starve, h]
  have al : afterLoad exclMask = .lockLoop := by decide
  have al0 : afterLoad 0 = .lockCas 0 := by decide
  have s01 : ∀ i, i % 5 = 0 → StepBy 0 (starve i) (starve (i + 1)) := by
    intro i h
    rw [e0 i h, e1 (i + 1) (by omega)]
    refine ⟨exclMask, .lockLoop, ?_, ?_⟩
    · have := Act.loadLock exclMask exclMask (by decide)
      rw [al] at this; simpa using this
    · congr 1; funext t; fin_cases t <;> simp
  refine ⟨?_, fun i => ?_, fun i => s01 _ (by omega), fun i => ?_⟩
  · have h1 := go (Reach.init (n := 2)) 0 (.callLock 0)
    have h2 := go h1 1 (by simpa [init] using Act.callLock 0)
    have h3 := go h2 1 (by simpa [init, al0] using Act.loadLock 0 0 (by omega))
    have h4 := go h3 1 (by simpa [init] using Act.casLock 0)
    rw [e0 0 rfl]
    convert h4 using 1
    congr 1; funext t; fin_cases t <;> simp
  · have : i % 5 = 0 ∨ i % 5 = 1 ∨ i % 5 = 2 ∨ i % 5 = 3 ∨ i % 5 = 4 := by omega
    rcases this with h | h | h | h | h
    · exact ⟨0, s01 i h⟩
    · rw [e1 i h, e2 (i + 1) (by omega)]
      refine ⟨1, 0, .idle, by simpa using Act.unlock exclMask, ?_⟩
      congr 1; funext t; fin_cases t <;> simp
    · rw [e2 i h, e3 (i + 1) (by omega)]
      refine ⟨1, 0, .lockLoop, by simpa using Act.callLock 0, ?_⟩
      congr 1; funext t; fin_cases t <;> simp
    · rw [e3 i h, e4 (i + 1) (by omega)]
      refine ⟨1, 0, .lockCas 0, by simpa [al0] using Act.loadLock 0 0 (by omega), ?_⟩
      congr 1; funext t; fin_cases t <;> simp
    · rw [e4 i h, e0 (i + 1) (by omega)]
      refine ⟨1, exclMask, .excl, by simpa using Act.casLock 0, ?_⟩
      congr 1; funext t; fin_cases t <;> simp
  · have : i % 5 = 0 ∨ i % 5 = 1 ∨ i % 5 = 2 ∨ i % 5 = 3 ∨ i % 5 = 4 := by omega
    rcases this with h | h | h | h | h
    · rw [e0 i h]; simp [WaitsX, Pc.inLock]
    · rw [e1 i h]; simp [WaitsX, Pc.inLock]
    · rw [e2 i h]; simp [WaitsX, Pc.inLock]
    · rw [e3 i h]; simp [WaitsX, Pc.inLock]
    · rw [e4 i h]; simp [WaitsX, Pc.inLock]

end Props.ConcLock

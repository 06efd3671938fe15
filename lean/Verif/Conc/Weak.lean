/-
The concurrent table under a weak memory model (C49). `Verif.Conc.Table` assumes that all accesses take effect in one total
order. In the code the metadata of a group (reduced hashes and overflow byte) are relaxed atomics, read by searches without any
lock (concurrent_table.hpp:198-214, 1312, 1331). Here a thread that reads them may get any old value that the C++ memory model
does not forbid; likewise for the insertion counters (1693) and `ml` (1653).

The machine is a view machine (release/acquire views and relaxed accesses, no load buffering, i.e. reads get values already
written). For every group the versions its metadata has had since the arrays were installed are kept; a thread has a view: for
every group a version it must at least see.
* A search may read each byte, and the overflow byte, from any version not older than its view. Reading does not advance the view
  (weaker than C++, which has read-read coherence).
* Acquiring a group lock (rw_spinlock.hpp: acquire CAS on a location whose modifications are release operations or read-modify-
  writes continuing a release sequence) brings the view of that group up to date, because metadata are written only by threads
  that hold the group exclusively. What else the lock would transmit is not used.
* Increments of an insertion counter are read-modify-writes with release and acquire semantics (they are seq_cst in the code): an
  increment takes over the view of the increment before, and publishes its thread's view. Reading the counter (1693) may give
  any value the counter has had, and takes over the view published with that value.
* `size` and `ml`: increments and decrements of `size` transmit what the thread knows of `ml` in the same way; reading `ml` (1653)
  may give any value not above what the thread must know (`ml` only decreases while the container is shared).
* Exclusive access to the container synchronizes with everything before, and everything after synchronizes with it
  (`multimutex`): all views start anew.
* Elements are accessed under group locks only (`C49_no_conflicting_access`), so they are always read up to date.
* `sync`: at any moment a thread may synchronize with another one by means outside the container.

The other simplifications of `Verif.Conc.Table` remain: torn reads, merged steps, callbacks, exceptions.

Ghost components (they influence nothing): `num` the number of the increment with which the element in a slot was inserted, `kn`
which threads the insertion of the element in a slot happens before.
-/
import Verif.Conc.Table

namespace Conc.Weak
open Foa Conc.Tab
open Conc.Locking (Mode)

variable {K V : Type}

structure WState (K V : Type) where
  /-- newest values, and where the threads are -/
  sc : State K V
  /-- versions of the metadata of a group; the newest is number `top g` -/
  ver : Nat → Nat → Group
  top : Nat → Nat
  /-- version of group `g` thread `t` must at least see -/
  view : (t g : Nat) → Nat
  /-- view published with value `i` of insertion counter `p` -/
  cmsg : (p i g : Nat) → Nat
  /-- greatest value of `ml` thread `t` may still read; the same as published with the newest value of `size` -/
  mlv : Nat → Nat
  smsg : Nat
  /-- ghost -/
  num : (g j : Nat) → Nat
  kn : (t g j : Nat) → Prop

namespace WState

abbrev mem (w : WState K V) : Mem K V := w.sc.mem
abbrev pc (w : WState K V) (t : Nat) : Pc K V := w.sc.pc t

/-- Version `v` of group `g` can be read by thread `t`. -/
def Readable (w : WState K V) (t g v : Nat) : Prop := w.view t g ≤ v ∧ v ≤ w.top g

/-- Thread `t` goes to `p'`, its view becomes `vw`. -/
def move (w : WState K V) (t : Nat) (p' : Pc K V) (vw : Nat → Nat) : WState K V :=
  { w with sc := w.sc.set t w.mem p', view := fun u => if u = t then vw else w.view u }

/-- The view of a thread that has gone to `p'`: up to date for the group it holds. -/
def lockView (w : WState K V) (t : Nat) (p' : Pc K V) : Nat → Nat := fun g =>
  if (p'.locks.map Prod.fst) = some g then w.top g else w.view t g

end WState

/-- The steps that read shared memory without a lock. -/
def Racy : Pc K V → Bool
  | .counter _ | .over _ _ _ | .test _ _ _ => true
  | .scan _ _ _ (_ :: _) _ => true
  | _ => false

/-- The steps that change `size` (concurrent_table.hpp:1645, 1650; core.hpp:2273). -/
def sizeRmw : Pc K V → Bool
  | .reserve _ _ | .failSize _ | .rollSize _ | .eraseSize _ _ _ => true
  | _ => false

namespace WState

/-- View published with the newest value of the insertion counter that the step increments (concurrent_table.hpp:1707). -/
def acquired (w : WState K V) (p : Pc K V) : Nat → Nat :=
  match p with
  | .insInc o _ _ _ => w.cmsg (w.mem.pos0 o.key) (w.mem.cnt (w.mem.pos0 o.key))
  | _ => fun _ => 0

/-- View of a thread after a step that changes memory: the metadata it has written, what it has acquired. -/
def effView (w : WState K V) (t : Nat) : Nat → Nat := fun h =>
  max (if (w.pc t).locks = some (h, .excl) then w.top h + 1 else w.view t h) (w.acquired (w.pc t) h)

/-- What it knows of `ml`: it takes over what was published with `size`; if it has lowered `ml` it knows the result. -/
def effMl (w : WState K V) (t : Nat) (m' : Mem K V) : Nat :=
  if sizeRmw (w.pc t) then min (w.mlv t) w.smsg else if m'.tab.ml = w.mem.tab.ml then w.mlv t else m'.tab.ml

/-- After a step of `t` that changes memory to `m'`. Each such step makes a new version of the group the thread holds exclusively
(equal to the one before if the step does not write metadata). -/
def eff (w : WState K V) (t : Nat) (m' : Mem K V) (p' : Pc K V) : WState K V where
  sc := w.sc.set t m' p'
  ver := fun h v => if (w.pc t).locks = some (h, .excl) ∧ v = w.top h + 1 then m'.grp h else w.ver h v
  top := fun h => if (w.pc t).locks = some (h, .excl) then w.top h + 1 else w.top h
  view := fun u => if u = t then w.effView t else w.view u
  cmsg := fun q i => match w.pc t with
    | .insInc o _ _ _ => if q = w.mem.pos0 o.key ∧ i = w.mem.cnt q + 1 then w.effView t else w.cmsg q i
    | _ => w.cmsg q i
  mlv := fun u => if u = t then w.effMl t m' else w.mlv u
  smsg := if sizeRmw (w.pc t) then min (w.mlv t) w.smsg else w.smsg
  num := fun g j => match w.pc t with
    | .insInc o _ pb l => if g = pb.pos ∧ j = l then w.mem.cnt (w.mem.pos0 o.key) + 1 else w.num g j
    | _ => w.num g j
  kn := fun u g j => match w.pc t with
    | .insInc _ _ pb l => if g = pb.pos ∧ j = l then u = t else w.kn u g j
    | _ => w.kn u g j

/-- After exclusive access: one version of everything, known to all. -/
def fresh (s : State K V) : WState K V where
  sc := s
  ver := fun g _ => s.mem.grp g
  top := fun _ => 0
  view := fun _ _ => 0
  cmsg := fun _ _ _ => 0
  mlv := fun _ => s.mem.tab.ml
  smsg := s.mem.tab.ml
  num := fun _ _ => 0
  kn := fun _ _ _ => True

/-- `t` has synchronized with `u`: it takes over the view of `u`. -/
abbrev sync (w : WState K V) (t u : Nat) : WState K V :=
  { w with
    view := fun x => if x = t then (fun g => max (w.view t g) (w.view u g)) else w.view x,
    mlv := fun x => if x = t then min (w.mlv t) (w.mlv u) else w.mlv x,
    kn := fun x g j => if x = t then w.kn t g j ∨ w.kn u g j else w.kn x g j }

end WState

/-- One step of thread `t`. -/
inductive WStepBy (cfg : Cfg) (t : Nat) (w : WState K V) : WState K V → Prop where
  /- steps that read nothing shared, or read under the group lock; entering and leaving the shared section -/
  | quiet {p'} : Racy (w.pc t) = false → Quiet w.mem (w.sc.canS t) (w.sc.canX t) (w.pc t) p' →
      WStepBy cfg t w (w.move t p' (w.lockView t p'))
  /- `boost::uint32_t counter=insert_counter(pos0)` (concurrent_table.hpp:1693) -/
  | counter (o c) : w.pc t = .counter o → c ≤ w.mem.cnt (w.mem.pos0 o.key) →
      WStepBy cfg t w (w.move t (.scan o c (probe0 w.mem o) (List.range N) [])
        (fun g => max (w.view t g) (w.cmsg (w.mem.pos0 o.key) c g)))
  /- `pg->match(hash)` (1312): any readable version of each byte -/
  | scanMatch (o c pb todo acc j v) : w.pc t = .scan o c pb todo acc → j ∈ todo → w.Readable t pb.pos v →
      (w.ver pb.pos v).md j ≠ 1 → WStepBy cfg t w (w.move t (.scan o c pb (todo.erase j) (j :: acc)) (w.view t))
  | scanMiss (o c pb todo acc j v) : w.pc t = .scan o c pb todo acc → j ∈ todo → w.Readable t pb.pos v →
      (w.ver pb.pos v).md j ≠ rhash (w.mem.hashOf o.key) →
      WStepBy cfg t w (w.move t (.scan o c pb (todo.erase j) acc) (w.view t))
  /- `is_not_overflowed(hash)` (1331): any readable version of the overflow byte -/
  | overEnd (o c pb v) : w.pc t = .over o c pb → w.Readable t pb.pos v →
      (w.ver pb.pos v).isNotOverflowed (w.mem.hashOf o.key) = true → WStepBy cfg t w (w.move t (missPc o c) (w.view t))
  | overNext (o c pb v) : w.pc t = .over o c pb → w.Readable t pb.pos v →
      (w.ver pb.pos v).isNotOverflowed (w.mem.hashOf o.key) = false →
      WStepBy cfg t w (w.move t (if (pb.next w.mem.tab.arr.mask).2 then
        .scan o c (pb.next w.mem.tab.arr.mask).1 (List.range N) [] else missPc o c) (w.view t))
  /- `size_<=x.size_ctrl.ml` (1653): any readable value of `ml` -/
  | test (o c n v) : w.pc t = .test o c n → w.mem.tab.ml ≤ v → v ≤ w.mlv t →
      WStepBy cfg t w (w.move t (if n ≤ v then .insLock o c (probe0 w.mem o) else .failSize o) (w.view t))
  /- steps that change memory -/
  | eff {m' p'} : Eff w.mem (w.pc t) m' p' → WStepBy cfg t w (w.eff t m' p')
  /- exclusive access -/
  | alone {m' p'} : (∀ u, (w.pc u).inside = false) → Alone cfg w.mem (w.pc t) m' p' →
      WStepBy cfg t w (WState.fresh (w.sc.set t m' p'))
  /- synchronization of `t` with `u` outside of the container -/
  | sync (u) : WStepBy cfg t w (w.sync t u)

/-- Reachable without wrap-around of an insertion counter during a single insertion. -/
inductive WReach (cfg : Cfg) (f : Fns K) (al n : Nat) : WState K V → Prop where
  | init : WReach cfg f al n (WState.fresh (init cfg f al n))
  | step {w w' t} : WReach cfg f al n w → NoWrap w.sc → WStepBy cfg t w w' → WReach cfg f al n w'

end Conc.Weak

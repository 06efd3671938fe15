/-
Model of several concurrent containers and the operations on two of them at a time: assignment, swap, merge, comparison,
construction from another container. Any number of threads and containers, all interleavings.
Source: /repo/include/boost/unordered/detail/foa/concurrent_table.hpp (and core.hpp for `table_core`).

Each container is the container of `Verif.Conc.Table`, with the same steps. An operation on two containers takes the exclusive
locks of both (`exclusive_access(x,y)`, concurrent_table.hpp:1139-1151, with `scoped_bilock`, 166-196), calls the sequential
function of `table_core` and releases them.

Simplifications
* The section between taking both exclusive locks and releasing them is one step, possible when no thread is inside either
  container; that the locks guarantee this and that waiting for them ends is C28 (`Verif.Conc.Locking`).
* A thread may run operations on different containers at the same time: this covers the use of another container in a callback.
* Nothing throws; callbacks do not use the container they are called from.
* `merge` is modelled for containers with the same key equality (`Pre`); the hash functions may differ.
* The insertion counters of a container whose arrays are replaced may have any value afterwards.
-/
import Verif.Conc.Table
import Verif.Foa.Machine

namespace Conc.Multi
open Foa Conc.Tab

variable {K V : Type}

/-- Operations on whole containers that involve an object other than `*this`, or begin the life of one. -/
inductive COp (K V : Type) where
  /-- destroy what is in `r`, construct an empty container there (concurrent_table.hpp:485-489) -/
  | construct (r : Nat) (f : Fns K) (al n : Nat)
  /-- destroy what is in `r`, copy `q` there (490-491, 494-495, 1115-1116, 1119-1121) -/
  | copyConstruct (r q al : Nat)
  /-- the same with the move constructor (492-493, 1117-1118) -/
  | moveConstruct (r q : Nat)
  /-- the same with the move constructor taking an allocator (496-497, 1122-1125) -/
  | moveConstructAlloc (r q al : Nat)
  /-- `r=q` (529-534) -/
  | copyAssign (r q : Nat)
  /-- `r=std::move(q)` (536-542) -/
  | moveAssign (r q : Nat)
  /-- `r.swap(q)` (962-967) -/
  | swap (r q : Nat)
  /-- `r.merge(q)` (999-1016) -/
  | merge (r q : Nat)
  /-- `r==q` (1088-1092) -/
  | equal (r q : Nat)

/-- The function of `table_core` each of them calls. -/
def COp.op : COp K V → Spec.Op K V
  | .construct r f al n => .construct r f.hash f.eq al n
  | .copyConstruct r q al => .copyConstruct r q al
  | .moveConstruct r q => .moveConstruct r q
  | .moveConstructAlloc r q al => .moveConstructAlloc r q al
  | .copyAssign r q => .copyAssign r q
  | .moveAssign r q => .moveAssign r q
  | .swap r q => .swap r q
  | .merge r q => .merge r q
  | .equal r q => .equal r q

/-- The containers involved. -/
def COp.uses : COp K V → List Nat
  | .construct r _ _ _ => [r]
  | .copyConstruct r q _ | .moveConstruct r q | .moveConstructAlloc r q _ | .copyAssign r q | .moveAssign r q | .swap r q
  | .merge r q | .equal r q => [r, q]

/-- The container whose life begins: nobody can be using it. -/
def COp.builds : COp K V → Option Nat
  | .construct r _ _ _ | .copyConstruct r _ _ | .moveConstruct r _ | .moveConstructAlloc r _ _ => some r
  | _ => none

/-- What the caller must respect: lawful functions; a container is not constructed from itself; `swap` with allocators that
propagate or are equal (core.hpp:1776, asserted there); `merge` with the same key equality. -/
def COp.Pre (c : MCfg) (tabs : Nat → Table K V) : COp K V → Prop
  | .construct _ f _ _ => f.Lawful
  | .copyConstruct r q _ | .moveConstruct r q | .moveConstructAlloc r q _ => r ≠ q
  | .swap r q => c.pocs = true ∨ (tabs r).al = (tabs q).al
  | .merge r q => (tabs r).fns.eq = (tabs q).fns.eq
  | _ => True

/-- The answer: `merge` returns `size()-s` (concurrent_table.hpp:1009, 1015). -/
def COp.answer (before after : Nat → Table K V) (res : Spec.Res K V) : COp K V → Spec.Res K V
  | .merge r _ => .num ((after r).size - (before r).size)
  | _ => res

/-- Where a thread is with operations on whole containers. -/
inductive TPc (K V : Type) where
  | idle
  | called (o : COp K V)
  | done (r : Spec.Res K V)
  /-- undefined behaviour -/
  | bad

/-- Containers and threads: `pc t d` is where thread `t` is with its operation on container `d` alone. -/
structure MState (K V : Type) where
  mem : Nat → Mem K V
  pc : Nat → Nat → Pc K V
  two : Nat → TPc K V

/-- Container `d` as a system of its own. -/
def MState.view (s : MState K V) (d : Nat) : State K V := ⟨s.mem d, fun u => s.pc u d⟩

/-- Container `d` and the threads' places in it replaced. -/
def MState.put (s : MState K V) (d : Nat) (x : State K V) : MState K V :=
  ⟨fun e => if e = d then x.mem else s.mem e, fun u e => if e = d then x.pc u else s.pc u e, s.two⟩

def MState.tabs (s : MState K V) (d : Nat) : Table K V := (s.mem d).tab

/-- Between operations. -/
def atRest : Pc K V → Bool
  | .idle | .done _ => true
  | _ => false

/-- Thread `t` can take the exclusive locks of the containers involved: no thread is inside (concurrent_table.hpp:1139-1151,
`multimutex::lock` 112-118 for each); it is not itself in the middle of an operation on one of them; nobody works on an object
being constructed. -/
structure Free (s : MState K V) (t : Nat) (o : COp K V) : Prop where
  out : ∀ u, ∀ d ∈ o.uses, (s.pc u d).inside = false
  rest : ∀ d ∈ o.uses, atRest (s.pc t d) = true
  build : ∀ r, o.builds = some r → ∀ u, atRest (s.pc u r) = true

/-- One step of thread `t`: in its operation on container `d` alone (`some d`), or with an operation on whole containers. -/
inductive MStepBy (c : MCfg) (veq : K × V → K × V → Bool) (t : Nat) (s : MState K V) : Option Nat → MState K V → Prop where
  | one (d : Nat) (x : State K V) : StepBy c.toCfg t (s.view d) x → MStepBy c veq t s (some d) (s.put d x)
  | call (o : COp K V) : (s.two t = .idle ∨ ∃ r, s.two t = .done r) →
      MStepBy c veq t s none ⟨s.mem, s.pc, fun u => if u = t then .called o else s.two u⟩
  | exec (o : COp K V) (tabs' : Nat → Table K V) (res : Spec.Res K V) (cnt : Nat → Nat → Nat) : s.two t = .called o →
      Free s t o → o.Pre c s.tabs → step c veq s.tabs o.op = some (tabs', res) →
      (∀ d, d ∉ o.uses → cnt d = (s.mem d).cnt) →
      MStepBy c veq t s none ⟨fun d => ⟨tabs' d, cnt d⟩, s.pc,
        fun u => if u = t then .done (o.answer s.tabs tabs' res) else s.two u⟩
  | execBad (o : COp K V) : s.two t = .called o → Free s t o → o.Pre c s.tabs → step c veq s.tabs o.op = none →
      MStepBy c veq t s none ⟨s.mem, s.pc, fun u => if u = t then .bad else s.two u⟩

/-- Every variable holds a new container, no operations. -/
def minit (c : MCfg) (f : Fns K) : MState K V := ⟨fun _ => ⟨Table.mk_ c.toCfg f 0 0, fun _ => 0⟩, fun _ _ => .idle, fun _ => .idle⟩

/-- No insertion counter wraps around during a single insertion. -/
def MNoWrap (s : MState K V) : Prop := ∀ d, NoWrap (s.view d)

/-- Reachable. -/
inductive MReach (c : MCfg) (veq : K × V → K × V → Bool) (f : Fns K) : MState K V → Prop where
  | init : MReach c veq f (minit c f)
  | step {s s' t w} : MReach c veq f s → MNoWrap s → MStepBy c veq t s w s' → MReach c veq f s'

/-- A run of `n` steps: `who i` makes step `i`, in container `loc i` if it belongs to an operation on one container. -/
structure MRun (c : MCfg) (veq : K × V → K × V → Bool) (σ : Nat → MState K V) (who : Nat → Nat) (loc : Nat → Option Nat)
    (n : Nat) : Prop where
  step : ∀ i < n, MStepBy c veq (who i) (σ i) (loc i) (σ (i + 1))
  nowrap : ∀ i < n, MNoWrap (σ i)

end Conc.Multi

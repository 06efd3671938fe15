/-
Exceptions in concurrent containers: the model of `Verif.Conc.Table` with throwing user code and allocation.
Source: /repo/include/boost/unordered/detail/foa/concurrent_table.hpp (and core.hpp for the parts of `table_core` it uses).

`may` tells which kinds of calls can throw (as in `Verif.Foa.Exceptions`; `pred` stands for all callbacks and predicates);
whether one does is chosen at every call. `mv` selects the version of `nosize_transfer_element` that moves (core.hpp:2331-2364).
An exception passes through the destructors of the guards on the stack in the reverse order of their construction; these
are ordinary steps of the thread, made while it is marked `exc`:
  `rslot` (`reset`), `lck` (group lock), `rsize` (`--size`), the lock of the container
(concurrent_table.hpp:1601-1605, 1697-1706). A thread stays marked until its next call; so `done` and `exc` together mean that
the operation was left by an exception.

Destructors do not throw. Simplifications as in `Verif.Conc.Table` otherwise.
-/
import Verif.Conc.TabLin
import Verif.Foa.ExcOps2

namespace Conc.Exc
open Foa Conc.Tab
open Conc.Locking (Mode)

variable {K V : Type}

/-- The operations under the exclusive lock, with exceptions (concurrent_table.hpp:1067-1077, 969-973, 1613-1629). -/
def runX (may : Call → Bool) (mv : Bool) (cfg : Cfg) (t : Table K V) (env : Env) : ExOp K V → Out (Table K V) (Table K V)
  | .rehash n => t.rehashX may mv cfg n env
  | .reserve n => t.reserveX may mv cfg n env
  | .clear => .done env t.clear
  | .emplace x => match t.emplaceImplX may mv cfg x env with
      | .done e r => .done e r.1
      | .threw e t' => .threw e t'
      | .bad => .bad
  | .eraseKey k => match t.eraseKeyX may k env with
      | .done e r => .done e r.1
      | .threw e t' => .threw e t'
      | .bad => .bad

/-- `new_arrays_for_growth` and `unchecked_rehash` (core.hpp:1974-1978) for `n` slots. -/
def growX (may : Call → Bool) (mv : Bool) (cfg : Cfg) (n : Nat) (t : Table K V) (env : Env) : Out (Table K V) (Table K V) :=
  match Arrays.newX may cfg t.al n env with
  | none => .threw env t
  | some (e, new) => t.uncheckedRehashX may mv new e

/-- `rehash_if_full` (concurrent_table.hpp:1726-1732) -/
def rehashIfFullX (may : Call → Bool) (mv : Bool) (cfg : Cfg) (t : Table K V) (env : Env) : Out (Table K V) (Table K V) :=
  if t.size = t.ml then growX may mv cfg (growthRequest t.size) t env else .done env t

/-- Calls that throw, inside the shared section. -/
inductive Throw (may : Call → Bool) (m : Mem K V) : Pc K V → Mem K V → Pc K V → Prop where
  /- `hash_for(k)` (concurrent_table.hpp:1209-1210, 1689); no group lock is held -/
  | hash (o) : may .hash = true → Throw may m (.start (.key o)) m (.leave 0)
  /- `alloc_cted_insert_type x(al(),args...)` (1502-1503) -/
  | early (o) : may .construct = true → o.isInsert = true → Throw may m (.start (.key o)) m (.leave 0)
  /- `pred()(x,...)` (1320-1321), under the group lock -/
  | eq (o c pb j ms) : may .eq = true → (m.grp pb.pos).md j ≠ 0 →
      Throw may m (.check o c pb (j :: ms)) m (.unlock pb.pos o.mode 0)
  /- the callbacks of `visit`, of an insertion that finds an element, and the predicate of `erase_if` (1322, 918) -/
  | visit (md k f pb j y v) : may .pred = true → m.slot pb.pos j = some y →
      Throw may m (.hit (.visit md k f) pb j) (m.call md pb.pos j y v) (.unlock pb.pos md 0)
  | found (md x f2 f1 pb j y v) : may .pred = true → m.slot pb.pos j = some y →
      Throw may m (.hit (.insert md x f2 f1) pb j) (m.call md pb.pos j y v) (.unlock pb.pos md 0)
  | erase (k p pb j y v) : may .pred = true → m.slot pb.pos j = some y →
      Throw may m (.hit (.erase k p) pb j) (m.call .excl pb.pos j y v) (.unlock pb.pos .excl 0)
  /- `construct_element` (1712): the counter has been incremented, `rslot` and `rsize` have not been committed -/
  | construct (o c pb j) : may .construct = true → m.cnt (m.pos0 o.key) % 2 ^ 32 = c % 2 ^ 32 → m.slot pb.pos j = none →
      Throw may m (.insInc o c pb j) (m.incCnt (m.pos0 o.key)) (.rollReset o pb j)
  /- `f1` (1715): after both commits -/
  | inserted (md x f2 f1 c pb j v) : may .pred = true → m.cnt (m.pos0 x.1) % 2 ^ 32 = c % 2 ^ 32 → m.slot pb.pos j = none →
      Throw may m (.insInc (.insert md x f2 f1) c pb j)
        ((m.incCnt (m.pos0 x.1)).setSlot pb.pos j (some (x.1, v))) (.unlock pb.pos .excl 0)
  /- the callback of a whole-table pass (1770, 935-939) -/
  | pass (md act g j js r y v) : may .pred = true → m.slot g j = some y →
      Throw may m (.swAt md act g (j :: js) r) (m.call md g j y v) (.unlock g md r)

/-- Exclusive sections that throw; the arrays, and with them the insertion counters, stay the same ones. -/
inductive ThrowAlone (may : Call → Bool) (mv : Bool) (cfg : Cfg) (m : Mem K V) : Pc K V → Mem K V → Pc K V → Prop where
  | ex (e t' env env') : runX may mv cfg m.tab env e = .threw env' t' →
      ThrowAlone may mv cfg m (.start (.ex e)) ⟨t', m.cnt⟩ (.done 0)
  | exBad (e env) : runX may mv cfg m.tab env e = .bad → ThrowAlone may mv cfg m (.start (.ex e)) m .bad
  | grow (o t' env env') : rehashIfFullX may mv cfg m.tab env = .threw env' t' →
      ThrowAlone may mv cfg m (.full o) ⟨t', m.cnt⟩ (.done 0)
  | growBad (o env) : rehashIfFullX may mv cfg m.tab env = .bad → ThrowAlone may mv cfg m (.full o) m .bad

/-- Memory, threads, and which threads' operations are being or have been left by an exception. -/
structure XState (K V : Type) where
  st : State K V
  exc : Nat → Bool

/-- Not in an operation. -/
def resting : Pc K V → Bool
  | .idle | .done _ => true
  | _ => false

/-- One step of thread `t`. -/
inductive XStepBy (may : Call → Bool) (mv : Bool) (cfg : Cfg) (t : Nat) (x : XState K V) : XState K V → Prop where
  /- as without exceptions, except that an insertion whose guards have been unwound does not start over; a call begins afresh -/
  | base {s'} : StepBy cfg t x.st s' → (x.exc t = true → ∀ o, x.st.pc t ≠ .counter o) →
      XStepBy may mv cfg t x ⟨s', fun u => if u = t ∧ resting (x.st.pc t) = true then false else x.exc u⟩
  | throw {m' p'} : Throw may x.st.mem (x.st.pc t) m' p' →
      XStepBy may mv cfg t x ⟨x.st.set t m' p', fun u => if u = t then true else x.exc u⟩
  | alone {m' p'} : (∀ u, (x.st.pc u).inside = false) → ThrowAlone may mv cfg x.st.mem (x.st.pc t) m' p' →
      XStepBy may mv cfg t x ⟨x.st.set t m' p', fun u => if u = t then true else x.exc u⟩
  /- after the last guard of the insertion the exception leaves the shared section (1604) -/
  | unwound {o} : x.exc t = true → x.st.pc t = .counter o → XStepBy may mv cfg t x ⟨x.st.set t x.st.mem (.leave 0), x.exc⟩

/-- A newly constructed container. -/
def init (cfg : Cfg) (f : Fns K) (al n : Nat) : XState K V := ⟨Tab.init cfg f al n, fun _ => false⟩

/-- Reachable without wrap-around of an insertion counter during a single insertion. -/
inductive XReach (may : Call → Bool) (mv : Bool) (cfg : Cfg) (f : Fns K) (al n : Nat) : XState K V → Prop where
  | init : XReach may mv cfg f al n (init cfg f al n)
  | step {x x' t} : XReach may mv cfg f al n x → NoWrap x.st → XStepBy may mv cfg t x x' → XReach may mv cfg f al n x'

/-- A run of `n` steps: `who i` makes step `i`. -/
structure XRun (may : Call → Bool) (mv : Bool) (cfg : Cfg) (σ : Nat → XState K V) (who : Nat → Nat) (n : Nat) : Prop where
  step : ∀ i < n, XStepBy may mv cfg (who i) (σ i) (σ (i + 1))
  nowrap : ∀ i < n, NoWrap (σ i).st

end Conc.Exc

/-
Bulk visitation of the concurrent table: `[c]visit(first,last,f)`.
Source: /repo/include/boost/unordered/detail/foa/concurrent_table.hpp:1216-1234 (`bulk_visit_impl`), 1343-1418
(`unprotected_bulk_visit`).

A thread executing a bulk visit keeps, for every key, the state of the search for it (in the code: the arrays `hashes`,
`positions`, `masks` and, for the key at hand, `pb`, `pos`, `pg`, `mask`), and works through the keys in chunks: it hashes all
keys of the chunk, then reads the metadata of the first group of each, then completes the searches one after the other. The
steps of the single searches are those of the model of `visit` (`Verif.Conc.Table`); other threads may do anything, bulk visits
included.

Simplifications: those of `Verif.Conc.Table`; the arrays have one entry per key of the whole range instead of being reused by the
chunks; `index` numbers the keys in the order of the range (the code numbers them backwards).
-/
import Verif.Conc.TabLin

namespace Conc.Tab
open Foa
open Conc.Locking (Mode)

variable {K V : Type}

/-- A call `visit(first,last,f)` / `cvisit(first,last,f)`: access mode, keys of the range, callback. -/
structure BOp (K V : Type) where
  md : Mode
  ks : List K
  f : K × V → V

/-- The search for a key of the range. -/
def BOp.op (b : BOp K V) (k : K) : KOp K V := .visit b.md k b.f

/-- `m=n<2*bulk_visit_size?n:bulk_visit_size` (concurrent_table.hpp:1225), `n` keys left. -/
def chunk (n : Nat) : Nat := if n < 2 * 16 then n else 16

/-- Where a thread is in a bulk visit; `lo` and `hi` delimit the chunk, `i` is the current key, `acc` is `res`. -/
inductive Ctl (K V : Type) where
  /-- not in a bulk visit -/
  | out
  | ret (r : Nat)
  /-- called, shared section not entered (1221) -/
  | call (b : BOp K V)
  /-- the first loop: hashes and positions (1355-1359); `c`: about to hash key `i` -/
  | hash (b : BOp K V) (lo hi i acc : Nat) (c : Bool)
  /-- the second loop: first metadata reading (1361-1370) -/
  | first (b : BOp K V) (lo hi i acc : Nat)
  /-- the third loop: the rest of the searches, and the callbacks (1372-1415) -/
  | visit (b : BOp K V) (lo hi i acc : Nat)
  /-- before leaving the shared section (1233) -/
  | leave (acc : Nat)

/-- A thread: its ordinary operation, its bulk visit, the searches of its bulk visit. -/
structure BTh (K V : Type) where
  p : Pc K V
  ctl : Ctl K V
  v : Nat → Pc K V

structure BState (K V : Type) where
  mem : Mem K V
  th : Nat → BTh K V

/-- No operation with a single key or on the whole container is under way. -/
def Pc.rest : Pc K V → Bool
  | .idle | .done _ => true
  | _ => false

def Ctl.rest : Ctl K V → Bool
  | .out | .ret _ => true
  | _ => false

/-- Inside the shared section of the container. -/
def Ctl.inside : Ctl K V → Bool
  | .out | .ret _ | .call _ => false
  | _ => true

def BTh.inside (x : BTh K V) : Bool := x.p.inside || x.ctl.inside

def BTh.setV (x : BTh K V) (c : Ctl K V) (i : Nat) (p : Pc K V) : BTh K V :=
  ⟨x.p, c, fun j => if j = i then p else x.v j⟩
def BTh.setCtl (x : BTh K V) (c : Ctl K V) : BTh K V := ⟨x.p, c, x.v⟩

/-- The state of a thread holds a lock. -/
def BTh.Holds (x : BTh K V) (l : Nat × Mode) : Prop := x.p.locks = some l ∨ ∃ j, (x.v j).locks = some l

def BState.canS (s : BState K V) (t g : Nat) : Prop := ∀ u, u ≠ t → ¬ (s.th u).Holds (g, .excl)
def BState.canX (s : BState K V) (t g : Nat) : Prop := ∀ u, u ≠ t → ∀ m, ¬ (s.th u).Holds (g, m)

/-- The first chunk of the keys left, or the end of the loop (1224-1233). -/
def nextChunk (b : BOp K V) (from_ acc : Nat) : Ctl K V :=
  if b.ks.length - from_ = 0 then .leave acc else .hash b from_ (from_ + chunk (b.ks.length - from_)) from_ acc false

/-- Steps of a thread in a bulk visit. -/
inductive BStep (m : Mem K V) (S X : Nat → Prop) : BTh K V → Mem K V → BTh K V → Prop where
  /- calls -/
  | call (x b) : x.p.rest = true → x.ctl.rest = true → BStep m S X x m (x.setCtl (.call b))
  | enter (x b) : x.ctl = .call b → BStep m S X x m (x.setCtl (nextChunk b 0 0))
  /- the first loop (1355-1359) -/
  | hashKey (x b lo hi i acc k) : x.ctl = .hash b lo hi i acc false → i < hi → b.ks[i]? = some k →
      BStep m S X x m (x.setV (.hash b lo hi i acc true) i (.start (.key (b.op k))))
  | hash (x b lo hi i acc o) : x.ctl = .hash b lo hi i acc true → x.v i = .start (.key o) →
      BStep m S X x m (x.setV (.hash b lo hi (i + 1) acc false) i (enterPc m o))
  | hashEnd (x b lo hi acc) : x.ctl = .hash b lo hi hi acc false → BStep m S X x m (x.setCtl (.first b lo hi lo acc))
  /- the second loop (1361-1370): `match` for the first group -/
  | read (x b lo hi i acc o c pb todo ac p') : x.ctl = .first b lo hi i acc → i < hi → x.v i = .scan o c pb todo ac → todo ≠ [] →
      Quiet m S X (x.v i) p' → BStep m S X x m (x.setV (.first b lo hi i acc) i p')
  | readNext (x b lo hi i acc o c pb ac) : x.ctl = .first b lo hi i acc → i < hi → x.v i = .scan o c pb [] ac →
      BStep m S X x m (x.setCtl (.first b lo hi (i + 1) acc))
  | readEnd (x b lo hi acc) : x.ctl = .first b lo hi hi acc → BStep m S X x m (x.setCtl (.visit b lo hi lo acc))
  /- the third loop (1372-1415): the search for key `i` goes on from its mask -/
  | quiet (x b lo hi i acc p') : x.ctl = .visit b lo hi i acc → i < hi → (x.v i).rest = false →
      Quiet m S X (x.v i) p' → BStep m S X x m (x.setV (.visit b lo hi i acc) i p')
  | eff (x b lo hi i acc m' p') : x.ctl = .visit b lo hi i acc → i < hi →
      Eff m (x.v i) m' p' → BStep m S X x m' (x.setV (.visit b lo hi i acc) i p')
  /- `++res` if the element was found; `next_key` -/
  | next (x b lo hi i acc r) : x.ctl = .visit b lo hi i acc → i < hi → x.v i = .done r →
      BStep m S X x m (x.setCtl (.visit b lo hi (i + 1) (acc + r)))
  /- end of the chunk (1226-1231) -/
  | visitEnd (x b lo hi acc) : x.ctl = .visit b lo hi hi acc → BStep m S X x m (x.setCtl (nextChunk b hi acc))
  | leave (x acc) : x.ctl = .leave acc → BStep m S X x m (x.setCtl (.ret acc))

def BState.set (s : BState K V) (t : Nat) (m : Mem K V) (x : BTh K V) : BState K V :=
  ⟨m, fun u => if u = t then x else s.th u⟩

/-- One step of thread `t`. -/
inductive BStepBy (cfg : Cfg) (t : Nat) (s : BState K V) : BState K V → Prop where
  | quiet {p'} : (s.th t).ctl.rest = true → Quiet s.mem (s.canS t) (s.canX t) (s.th t).p p' →
      BStepBy cfg t s (s.set t s.mem { s.th t with p := p' })
  | eff {m' p'} : (s.th t).ctl.rest = true → Eff s.mem (s.th t).p m' p' → BStepBy cfg t s (s.set t m' { s.th t with p := p' })
  | alone {m' p'} : (s.th t).ctl.rest = true → (∀ u, (s.th u).inside = false) → Alone cfg s.mem (s.th t).p m' p' →
      BStepBy cfg t s (s.set t m' { s.th t with p := p' })
  | bulk {m' x'} : BStep s.mem (s.canS t) (s.canX t) (s.th t) m' x' → BStepBy cfg t s (s.set t m' x')

def BState.init (cfg : Cfg) (f : Fns K) (al n : Nat) : BState K V :=
  ⟨⟨Table.mk_ cfg f al n, fun _ => 0⟩, fun _ => ⟨.idle, .out, fun _ => .idle⟩⟩

/-- Every counter comparison is made before 2^32 insertions through the group (`NoWrap` of `Verif.Conc.Table`; searches of bulk
visits make no such comparison). -/
def BState.NoWrap (s : BState K V) : Prop :=
  ∀ t o c pb j, (s.th t).p = .insInc o c pb j → s.mem.cnt (s.mem.pos0 o.key) < c + 2 ^ 32

/-- Reachable. -/
inductive BReach (cfg : Cfg) (f : Fns K) (al n : Nat) : BState K V → Prop where
  | init : BReach cfg f al n (.init cfg f al n)
  | step {s s' t} : BReach cfg f al n s → s.NoWrap → BStepBy cfg t s s' → BReach cfg f al n s'

/-- A run: thread `who i` makes the step from `σ i`. -/
structure BRun (cfg : Cfg) (σ : Nat → BState K V) (who : Nat → Nat) (n : Nat) : Prop where
  step : ∀ i < n, BStepBy cfg (who i) (σ i) (σ (i + 1))
  nowrap : ∀ i < n, (σ i).NoWrap

end Conc.Tab

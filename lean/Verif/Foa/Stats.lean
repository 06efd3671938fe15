/-
Model of the statistics of the open-addressing containers (compiled in with BOOST_UNORDERED_ENABLE_STATS).
Sources: /repo/include/boost/unordered/detail/foa/cumulative_stats.hpp, /repo/include/boost/unordered/detail/foa/core.hpp.

Every function of `Verif/Foa/Table.lean` and `Verif/Foa/Machine.lean` that records a datum is given again with the recording
in it (suffix `W`); `Verif/Foa/StatsLemmas.lean` proves that without the recording they are the same functions.

Simplifications: arithmetic on `double` is done in exact rational numbers (no rounding); the standard deviation, the square
root of the variance, is left out; the locking of `concurrent_cumulative_stats` (cumulative_stats.hpp:118-160) is left out here, each
`add`, `reset` and `get_summary` is one step.
-/
import Verif.Foa.Machine
import Verif.SpecStats

namespace Foa
open Spec (Op Res upd)
open SpecStats (Sample SeqSummary Summary StatsRes SOp SRes)

/-- `sequence_stats_data` (cumulative_stats.hpp:33-38). -/
structure SeqData where
  m : Rat := 0
  mPrior : Rat := 0
  s : Rat := 0
deriving DecidableEq

/-- `welfords_algorithm::operator()` (cumulative_stats.hpp:42-54), `n` the number of data including `x`. -/
def welford (n : Nat) (x : Rat) (d : SeqData) : SeqData :=
  let mPrior := d.m
  let m := d.m + (x - d.m) / n
  { m := m, mPrior := mPrior, s := d.s + (if n ≠ 1 then 1 else 0) * (x - mPrior) * (x - m) }

/-- `cumulative_stats<N>` (cumulative_stats.hpp:70-113); the `N` sequences as a list. -/
structure Cumul where
  n : Nat := 0
  data : List SeqData
deriving DecidableEq

/-- A new object for `k` sequences (cumulative_stats.hpp:110-112). -/
def Cumul.fresh (k : Nat) : Cumul := { n := 0, data := List.replicate k {} }

/-- `reset` (cumulative_stats.hpp:79). -/
def Cumul.reset (c : Cumul) : Cumul := Cumul.fresh c.data.length

/-- `add` (cumulative_stats.hpp:81-95): `++n` on a 64-bit number; if it wraps around, everything is reset. -/
def Cumul.add (c : Cumul) (xs : List Rat) : Cumul :=
  let n := (c.n + 1) % 2 ^ 64
  let c1 : Cumul := if n = 0 then { c.reset with n := 1 } else { c with n := n }
  { c1 with data := List.zipWith (fun x d => welford c1.n x d) xs c1.data }

/-- `get_summary` (cumulative_stats.hpp:97-108); the types `summary`, `sequence_stats_summary` (58-63, 73-77) and
`table_core_stats` (core.hpp:1151-1169) are those of the specification, `Verif/SpecStats.lean`. -/
def Cumul.summary (c : Cumul) : Summary :=
  { count := c.n,
    seqs := c.data.map (fun d => { average := d.m, variance := if c.n ≠ 0 then d.s / c.n else 0 }) }

/-- `table_core_cumulative_stats` (core.hpp:1144-1149). -/
structure CStats where
  insertion : Cumul := Cumul.fresh 1
  successful : Cumul := Cumul.fresh 2
  unsuccessful : Cumul := Cumul.fresh 2
deriving DecidableEq

/-- `BOOST_UNORDERED_ADD_STATS` (core.hpp:1171) at its four uses (core.hpp:1738-1739, 1746-1747, 1752-1753, 2380). -/
def CStats.add (c : CStats) : Sample → CStats
  | .ins len => { c with insertion := c.insertion.add [(len : Rat)] }
  | .look true len cmps => { c with successful := c.successful.add [(len : Rat), (cmps : Rat)] }
  | .look false len cmps => { c with unsuccessful := c.unsuccessful.add [(len : Rat), (cmps : Rat)] }

/-- several data in order -/
def CStats.addAll (c : CStats) (l : List Sample) : CStats := l.foldl CStats.add c

/-- `reset_stats` (core.hpp:1862-1867). -/
def CStats.reset (c : CStats) : CStats :=
  { insertion := c.insertion.reset, successful := c.successful.reset, unsuccessful := c.unsuccessful.reset }

/-- `get_stats` (core.hpp:1839-1860). -/
def CStats.get (c : CStats) : StatsRes :=
  { insertion := c.insertion.summary, successful := c.successful.summary, unsuccessful := c.unsuccessful.summary }

variable {K V : Type}

/-- What a lookup does to memory and calls of the user, in order: a group is examined, the key of an element is handed to the
equality function. Not in the code: it is what the statistics are about. -/
inductive Ev (K : Type) where
  | group (g : Nat)
  | cmp (k : K)
deriving DecidableEq

/-- Outcome of a lookup: the position, the recorded `pb.length()` and `num_cmps`, what it did. -/
structure Look (K : Type) where
  res : Option Pos
  len : Nat
  cmps : Nat
  trace : List (Ev K)
deriving DecidableEq

namespace Arrays

/-- Inner loop of `find` (core.hpp:1734-1743) with `num_cmps`: the slot found, `num_cmps` afterwards, the keys compared. -/
def scanSlotsW (slot : Nat → Option (K × V)) (p : K → Bool) : List Nat → Nat → Option (Option Nat × Nat × List (Ev K))
  | [], c => some (none, c, [])
  | j :: js, c =>
    match slot j with
    | none => none
    | some x =>
      if p x.1 then some (some j, c + 1, [.cmp x.1])
      else
        match scanSlotsW slot p js (c + 1) with
        | none => none
        | some (r, c', tr) => some (r, c', .cmp x.1 :: tr)

/-- `find(x,pos0,hash)` (core.hpp:1720-1755), `pb` the prober, `c` the value of `num_cmps`. The loop bound is never
reached. -/
def findLoopW (a : Arrays K V) (p : K → Bool) (h : Nat) : Nat → Prober → Nat → Option (Look K)
  | 0, _, _ => none
  | fuel + 1, pb, c =>
    match scanSlotsW (a.slot pb.pos) p ((a.grp pb.pos).matchSlots h) c with
    | none => none
    | some (some j, c', tr) => some ⟨some (pb.pos, j), pb.step + 1, c', .group pb.pos :: tr⟩
    | some (none, c', tr) =>
      if (a.grp pb.pos).isNotOverflowed h then some ⟨none, pb.step + 1, c', .group pb.pos :: tr⟩
      else
        let nx := pb.next a.mask
        if nx.2 then
          match findLoopW a p h fuel nx.1 c' with
          | none => none
          | some l => some { l with trace := .group pb.pos :: (tr ++ l.trace) }
        else some ⟨none, nx.1.step + 1, c', .group pb.pos :: tr⟩

/-- `nosize_unchecked_emplace_at` (core.hpp:2366-2385) with the recorded probe length. After `mask+1` steps all groups have
been seen and are full: the C++ loop never ends, which counts as a fault. -/
def emplaceLoopW (h : Nat) (x : K × V) : Arrays K V → Nat → Prober → Option (Arrays K V × Pos × Nat)
  | _, 0, _ => none
  | a, fuel + 1, pb =>
    match (a.grp pb.pos).availSlots with
    | j :: _ =>
      if a.hasElems = true ∧ (a.slot pb.pos j).isNone then
        some ((a.setSlot pb.pos j (some x)).setGrp pb.pos ((a.grp pb.pos).set j h), (pb.pos, j), pb.step + 1)
      else none
    | [] =>
      if a.hasElems = true then
        emplaceLoopW h x (a.setGrp pb.pos ((a.grp pb.pos).markOverflow h)) fuel (pb.next a.mask).1
      else none

/-- `nosize_unchecked_emplace_at(arrays_,position_for(hash,arrays_),hash,x)` (core.hpp:2366-2385). -/
def emplaceW (a : Arrays K V) (h : Nat) (x : K × V) : Option (Arrays K V × Pos × Sample) :=
  (emplaceLoopW h x a (a.mask + 1) (Prober.init (a.posFor h))).map (fun r => (r.1, r.2.1, .ins r.2.2))

/-- `transferAll` with recording (core.hpp:2291-2293, 2331-2364). -/
def transferAllW (f : Fns K) (src : Arrays K V) : List Pos → Arrays K V → Option (Arrays K V × List Sample)
  | [], dst => some (dst, [])
  | p :: ps, dst =>
    match src.slot p.1 p.2 with
    | none => none
    | some x =>
      match dst.emplaceW (f.hash x.1) x with
      | none => none
      | some (dst', _, s) => (transferAllW f src ps dst').map (fun r => (r.1, s :: r.2))

end Arrays

namespace Table
open Arrays

/-- `find(x)` (core.hpp:1707-1755). -/
def findW (t : Table K V) (x : K) : Option (Look K) :=
  findLoopW t.arr (t.fns.eq x) (t.fns.hash x) (t.arr.mask + 2) (Prober.init (t.arr.posFor (t.fns.hash x))) 0

end Table

/-- What `find` records (core.hpp:1738-1739, 1746-1747, 1752-1753). -/
def Look.sample (l : Look K) : Sample := .look l.res.isSome l.len l.cmps

namespace Table
open Arrays

/-- `unchecked_emplace_at`, `unchecked_insert` (core.hpp:1964-1972, 2324-2329). -/
def uncheckedInsertW (t : Table K V) (x : K × V) : Option (Table K V × Pos × Sample) :=
  match t.arr.emplaceW (t.fns.hash x.1) x with
  | none => none
  | some (a, p, s) => some ({ t with arr := a, size := t.size + 1 }, p, s)

/-- `unchecked_rehash` (core.hpp:2287-2322). -/
def uncheckedRehashW (t : Table K V) (new : Arrays K V) : Option (Table K V × List Sample) :=
  match transferAllW t.fns t.arr t.arr.occ new with
  | none => none
  | some (a, l) =>
    match t.arr.delete_ t.al with
    | none => none
    | some _ => some ({ t with arr := a, ml := initMl a }, l)

/-- `unchecked_emplace_with_rehash` (core.hpp:1985-2001). -/
def emplaceIntoNewW (t : Table K V) (x : K × V) (new : Arrays K V) : Option (Table K V × Pos × List Sample) :=
  match new.emplaceW (t.fns.hash x.1) x with
  | none => none
  | some (a, p, s) =>
    match t.uncheckedRehashW a with
    | none => none
    | some (t', l) => some ({ t' with size := t'.size + 1 }, p, s :: l)

/-- `emplace_impl` (table.hpp:628-655). -/
def emplaceImplW (cfg : Cfg) (t : Table K V) (x : K × V) : Option (Table K V × Pos × Bool × List Sample) :=
  match t.findW x.1 with
  | none => none
  | some lk =>
    match lk.res with
    | some p => some (t, p, false, [lk.sample])
    | none =>
      if t.size < t.ml then
        (t.uncheckedInsertW x).map (fun r => (r.1, r.2.1, true, [lk.sample, r.2.2]))
      else
        (t.emplaceIntoNewW x (Arrays.new_ cfg t.al (growthRequest t.size))).map
          (fun r => (r.1, r.2.1, true, lk.sample :: r.2.2))

/-- `erase(key)` (table.hpp:484-496). -/
def eraseKeyW (t : Table K V) (x : K) : Option (Table K V × Nat × List Sample) :=
  match t.findW x with
  | none => none
  | some lk =>
    match lk.res with
    | none => some (t, 0, [lk.sample])
    | some p => (t.eraseAt p).map (fun t' => (t', 1, [lk.sample]))

/-- `rehash(n)` (core.hpp:1824-1831). -/
def rehashW (cfg : Cfg) (t : Table K V) (n : Nat) : Option (Table K V × List Sample) :=
  let m := slotsFor t.size
  let n := if m > n then m else n
  let n := if n ≠ 0 then capacityFor n else n
  if n ≠ t.capacity then t.uncheckedRehashW (Arrays.new_ cfg t.al n) else some (t, [])

/-- `reserve(n)` (core.hpp:1833-1836). -/
def reserveW (cfg : Cfg) (t : Table K V) (n : Nat) : Option (Table K V × List Sample) := t.rehashW cfg (slotsFor n)

/-- element-wise insertion (core.hpp:1544-1546, 1674-1676, 2175-2177) -/
def insertAllW (src : Arrays K V) : List Pos → Table K V → Option (Table K V × List Sample)
  | [], t => some (t, [])
  | p :: ps, t =>
    match src.slot p.1 p.2 with
    | none => none
    | some x =>
      match t.uncheckedInsertW x with
      | none => none
      | some (t', _, s) => (insertAllW src ps t').map (fun r => (r.1, s :: r.2))

/-- `copy_elements_from` (core.hpp:2167-2258): nothing is recorded when the arrays are copied wholesale. -/
def copyElementsFromW (t x : Table K V) : Option (Table K V × List Sample) :=
  if t.arr.mask = x.arr.mask then (t.copyElementsFrom x).map (fun t' => (t', []))
  else insertAllW x.arr x.arr.occ t

/-- Copy constructor (core.hpp:1520-1524). -/
def copyCtorW (cfg : Cfg) (x : Table K V) (al : Nat) : Option (Table K V × List Sample) :=
  (Table.mk_ cfg x.fns al (slotsFor x.size)).copyElementsFromW x

/-- Copy assignment (core.hpp:1576-1614); `noshrink_reserve` and the new arrays record nothing. -/
def copyAssignW (cfg : Cfg) (t x : Table K V) : Option (Table K V × List Sample) :=
  let t := t.clear
  let t := { t with fns := x.fns }
  let step1 : Option (Table K V) :=
    if cfg.pocca then
      if t.al ≠ x.al then
        let ah : Arrays K V := Arrays.new_ cfg x.al (slotsFor x.size)
        match t.arr.delete_ t.al with
        | none => none
        | some _ => some { t with arr := ah, ml := initMl ah, al := x.al }
      else some { t with al := x.al }
    else some t
  match step1 with
  | none => none
  | some t =>
    match t.noshrinkReserve cfg x.size with
    | none => none
    | some t => t.copyElementsFromW x

/-- Allocator-extended move constructor (core.hpp:1526-1548): new table, source, and the statistics of both, given those of the
source. -/
def moveCtorAllocW (cfg : Cfg) (x : Table K V) (al : Nat) (sx : CStats) :
    Option ((Table K V × Table K V) × CStats × CStats) :=
  let t : Table K V := Table.mk_ cfg x.fns al 0
  let st : CStats := {}
  if t.al = x.al then
    some (({ t with arr := x.arr, ml := x.ml, size := x.size }, { x with arr := t.arr, ml := t.ml, size := t.size }), sx, st)
  else
    match t.reserveW cfg x.size with
    | none => none
    | some (t1, l1) =>
      match insertAllW x.arr x.arr.occ t1 with
      | none => none
      | some (t2, l2) => some ((t2, x.clear), (st.addAll l1).addAll l2, sx.reset)

/-- Move assignment (core.hpp:1621-1682): target, source, and the statistics of both. -/
def moveAssignW (cfg : Cfg) (t x : Table K V) (st sx : CStats) : Option ((Table K V × Table K V) × CStats × CStats) :=
  let t := t.clear
  if cfg.pocma = true ∨ t.al = x.al then
    let ah : Arrays K V := Arrays.new_ cfg x.al 0
    match t.arr.delete_ t.al with
    | none => none
    | some _ =>
      some (({ fns := x.fns, al := if cfg.pocma then x.al else t.al, arr := x.arr, ml := x.ml, size := x.size },
            { fns := t.fns, al := x.al, arr := ah, ml := initMl ah, size := 0 }), sx, sx.reset)
  else
    let t1 := { t with fns := x.fns }
    let x1 := { x with fns := t.fns }
    match t1.noshrinkReserve cfg x.size with
    | none => none
    | some t2 =>
      match insertAllW x.arr x.arr.occ t2 with
      | none => none
      | some (t3, l) => some ((t3, x1.clear), st.addAll l, sx.reset)

/-- The loop of `merge` (table.hpp:523-531). -/
def mergeLoopW (cfg : Cfg) : List Pos → Table K V → Table K V → Option (Table K V × Table K V × List Sample)
  | [], t, x => some (t, x, [])
  | p :: ps, t, x =>
    match x.arr.slot p.1 p.2 with
    | none => none
    | some e =>
      match t.emplaceImplW cfg e with
      | none => none
      | some (t', _, true, l) =>
        match x.eraseAt p with
        | none => none
        | some x' => (mergeLoopW cfg ps t' x').map (fun r => (r.1, r.2.1, l ++ r.2.2))
      | some (t', _, false, l) => (mergeLoopW cfg ps t' x).map (fun r => (r.1, r.2.1, l ++ r.2.2))

/-- `x.merge(x)` (table.hpp:523-531). -/
def mergeSelfLoopW (cfg : Cfg) : List Pos → Table K V → Option (Table K V × List Sample)
  | [], t => some (t, [])
  | p :: ps, t =>
    match t.arr.slot p.1 p.2 with
    | none => none
    | some e =>
      match t.emplaceImplW cfg e with
      | none => none
      | some (t', _, true, l) =>
        match t'.eraseAt p with
        | none => none
        | some t'' => (mergeSelfLoopW cfg ps t'').map (fun r => (r.1, l ++ r.2))
      | some (t', _, false, l) => (mergeSelfLoopW cfg ps t').map (fun r => (r.1, l ++ r.2))

/-- `operator==` (core.hpp:1870-1881): the lookups are recorded by the second operand. -/
def equalLoopW (veq : K × V → K × V → Bool) (x y : Table K V) : List Pos → Option (Bool × List Sample)
  | [] => some (true, [])
  | p :: ps =>
    match x.arr.slot p.1 p.2 with
    | none => none
    | some e =>
      match y.findW e.1 with
      | none => none
      | some lk =>
        match lk.res with
        | none => some (false, [lk.sample])
        | some q =>
          match y.arr.slot q.1 q.2 with
          | none => none
          | some e' =>
            if veq e e' then (equalLoopW veq x y ps).map (fun r => (r.1, lk.sample :: r.2))
            else some (false, [lk.sample])

/-- `operator==` (core.hpp:1870-1881). -/
def equalW (veq : K × V → K × V → Bool) (x y : Table K V) : Option (Bool × List Sample) :=
  if x.size = y.size then equalLoopW veq x y x.arr.occ else some (false, [])

/-- `insert(first,last)` (unordered_flat_map.hpp:323-343). -/
def insertRangeW (cfg : Cfg) : List (K × V) → Table K V → Option (Table K V × List Sample)
  | [], t => some (t, [])
  | x :: xs, t =>
    match t.emplaceImplW cfg x with
    | none => none
    | some (t', _, _, l) => (insertRangeW cfg xs t').map (fun r => (r.1, l ++ r.2))

end Table

/-- State of a program: the containers and their statistics. -/
structure SState (K V : Type) where
  tab : Nat → Table K V
  stats : Nat → CStats

/-- What the calls that record into one container record, given the containers (`none` = the call is not of this kind). Each is a
lookup or an insertion through the functions above. -/
def recorded (c : MCfg) (veq : K × V → K × V → Bool) (s : Nat → Table K V) : Op K V → Option (Nat × Option (List Sample))
  | .insert r x => some (r, ((s r).emplaceImplW c.toCfg x).map (·.2.2.2))
  | .insertRange r xs => some (r, (Table.insertRangeW c.toCfg xs (s r)).map (·.2))
  | .insertOrAssign r k v => some (r, ((s r).emplaceImplW c.toCfg (k, v)).map (·.2.2.2))
  | .index r k d => some (r, ((s r).emplaceImplW c.toCfg (k, d)).map (·.2.2.2))
  | .at r k => some (r, ((s r).findW k).map (fun l => [l.sample]))
  | .find r k => some (r, ((s r).findW k).map (fun l => [l.sample]))
  | .count r k => some (r, ((s r).findW k).map (fun l => [l.sample]))
  | .contains r k => some (r, ((s r).findW k).map (fun l => [l.sample]))
  | .erase r k => some (r, ((s r).eraseKeyW k).map (·.2.2))
  | .eraseIt r k => some (r, ((s r).findW k).map (fun l => [l.sample]))
  | .extract r k => some (r, ((s r).findW k).map (fun l => [l.sample]))
  | .rehash r n => some (r, ((s r).rehashW c.toCfg n).map (·.2))
  | .reserve r n => some (r, ((s r).reserveW c.toCfg n).map (·.2))
  | .copyAssign r q => if r = q then none else some (r, ((s r).copyAssignW c.toCfg (s q)).map (·.2))
  | .merge r q =>
    if r = q then some (r, (Table.mergeSelfLoopW c.toCfg (s r).arr.occ (s r)).map (·.2))
    else some (r, (Table.mergeLoopW c.toCfg (s q).arr.occ (s r) (s q)).map (·.2.2))
  | .equal r q => some (q, (Table.equalW veq (s r) (s q)).map (·.2))
  | _ => none

/-- the statistics after a call that records into one container (see `recorded`) -/
def recordInto (st : Nat → CStats) : Option (Nat × Option (List Sample)) → Option (Nat → CStats)
  | none => some st
  | some (_, none) => none
  | some (r, some l) => some (upd st r ((st r).addAll l))

/-- The statistics after a call. Constructors start new statistics (core.hpp:2081), moves take them along
(core.hpp:1507, 1533, 1539, 1655-1669); `swap` (core.hpp:1761-1784) leaves them where they are. -/
def statsAfter (c : MCfg) (veq : K × V → K × V → Bool) (s : SState K V) (op : Op K V) : Option (Nat → CStats) :=
  match op with
  | .construct r _ _ _ _ => some (upd s.stats r {})
  | .copyConstruct r q al => ((s.tab q).copyCtorW c.toCfg al).map (fun x => upd s.stats r (CStats.addAll {} x.2))
  | .moveConstruct r q => some (upd (upd s.stats r (s.stats q)) q {})
  | .moveConstructAlloc r q al =>
    ((s.tab q).moveCtorAllocW c.toCfg al (s.stats q)).map (fun x => upd (upd s.stats r x.2.1) q x.2.2)
  | .moveAssign r q =>
    if r = q then some s.stats
    else ((s.tab r).moveAssignW c.toCfg (s.tab q) (s.stats r) (s.stats q)).map
      (fun x => upd (upd s.stats r x.2.1) q x.2.2)
  | op => recordInto s.stats (recorded c veq s.tab op)

/-- One call, with the statistics. -/
def stepS (c : MCfg) (veq : K × V → K × V → Bool) (s : SState K V) (op : Op K V) : Option (SState K V × Res K V) :=
  match step c veq s.tab op, statsAfter c veq s op with
  | some (tab', res), some st => some (⟨tab', st⟩, res)
  | _, _ => none

/-- One call. -/
def stepStats (c : MCfg) (veq : K × V → K × V → Bool) (s : SState K V) : SOp K V → Option (SState K V × SRes K V)
  | .op o => (stepS c veq s o).map (fun r => (r.1, .res r.2))
  | .getStats r => some (s, .stats (s.stats r).get)
  | .resetStats r => some (⟨s.tab, upd s.stats r (s.stats r).reset⟩, .unit)

/-- A program. -/
def runStats (c : MCfg) (veq : K × V → K × V → Bool) : List (SOp K V) → SState K V →
    Option (SState K V × List (SRes K V))
  | [], s => some (s, [])
  | o :: ops, s =>
    match stepStats c veq s o with
    | none => none
    | some (s', x) => (runStats c veq ops s').map (fun r => (r.1, x :: r.2))

/-- Program start: default-constructed containers. -/
def startStats (c : MCfg) (h : K → Nat) (e : K → K → Bool) : SState K V := ⟨start c h e, fun _ => {}⟩

end Foa

/-
Throwing executions of the open-addressing containers.
Sources: /repo/include/boost/unordered/detail/foa/core.hpp, /repo/include/boost/unordered/detail/foa/table.hpp.

Every call of user code or of the allocator that may throw asks `Env.call`; the environment holds the number of such calls
that still succeed, so that quantifying over it ranges over all throw points. Which kinds of calls can throw at all is given
by `may`. The environment also keeps two ledgers: array blocks allocated minus freed, and element objects constructed minus
destroyed.

As in `Verif/Foa/Table.lean`, `bad` is undefined behaviour: reading or destroying a slot without live element, constructing
over a live element, freeing arrays that still hold live elements (a leak), with the wrong allocator, counter wrap-around,
or a failed assertion.
-/
import Verif.Foa.Machine

namespace Foa
variable {K V : Type}

/-- The kinds of calls that may throw: the hash function, the key equality, allocation of arrays, construction of an element
from user arguments, move/copy construction of an element when it is transferred to other arrays (core.hpp:2331-2364), the
user's predicate (table.hpp:570-587), copying function objects (core.hpp:1588-1589). -/
inductive Call where
  | hash | eq | alloc | construct | transfer | pred | fnCopy
deriving DecidableEq, Repr

/-- Number of may-throw calls that still succeed; array blocks allocated minus freed; elements constructed minus
destroyed. -/
structure Env where
  left : Nat
  blocks : Int := 0
  elems : Int := 0
deriving DecidableEq, Repr

/-- One call of kind `k`; `none` = it throws. -/
def Env.call (may : Call → Bool) (k : Call) (e : Env) : Option Env :=
  if may k then
    match e.left with
    | 0 => none
    | n + 1 => some { e with left := n }
  else some e

/-- Result of a function: it returns, an exception leaves it (with the state it leaves behind), or UB. -/
inductive Out (α σ : Type) where
  | done (e : Env) (a : α)
  | threw (e : Env) (s : σ)
  | bad

/-- one more / fewer element object -/
def Env.addElems (e : Env) (n : Int) : Env := { e with elems := e.elems + n }
/-- one more / fewer block -/
def Env.addBlocks (e : Env) (n : Int) : Env := { e with blocks := e.blocks + n }

namespace Arrays

/-- `new_arrays(n)` (core.hpp:2114-2117, 1036-1089): no allocation for the dummy arrays. `none` = bad_alloc. -/
def newX (may : Call → Bool) (cfg : Cfg) (al n : Nat) (e : Env) : Option (Env × Arrays K V) :=
  if (new_ cfg al n : Arrays K V).hasElems then
    (e.call may .alloc).map (fun e => (e.addBlocks 1, new_ cfg al n))
  else some (e, new_ cfg al n)

/-- `delete_arrays` (core.hpp:2135-2138, 1105-1114): `none` if the allocator is a different one, or if elements are still
alive in the arrays (they would leak). -/
def freeX (al : Nat) (a : Arrays K V) (e : Env) : Option Env :=
  if a.hasElems then
    if a.al = al ∧ (allPos a.k).all (fun p => (a.slot p.1 p.2).isNone) then some (e.addBlocks (-1)) else none
  else some e

/-- Inner loop of `find` (core.hpp:1734-1743) with a throwing key comparison. -/
def scanX (may : Call → Bool) (slot : Nat → Option (K × V)) (p : K → Bool) : List Nat → Env → Out (Option Nat) Unit
  | [], e => .done e none
  | j :: js, e =>
    match slot j with
    | none => .bad
    | some x =>
      match e.call may .eq with
      | none => .threw e ()
      | some e => if p x.1 then .done e (some j) else scanX may slot p js e

/-- Outer loop of `find` (core.hpp:1720-1755). -/
def findLoopX (may : Call → Bool) (a : Arrays K V) (p : K → Bool) (h : Nat) : List Nat → Env → Out (Option Pos) Unit
  | [], e => .done e none
  | g :: gs, e =>
    match scanX may (a.slot g) p ((a.grp g).matchSlots h) e with
    | .bad => .bad
    | .threw e _ => .threw e ()
    | .done e (some j) => .done e (some (g, j))
    | .done e none => if (a.grp g).isNotOverflowed h then .done e none else findLoopX may a p h gs e

/-- `nosize_unchecked_emplace_at` (core.hpp:2366-2385): the construction may throw, after full groups on the way have
already been marked as overflowed. -/
def emplaceLoopX (may : Call → Bool) (kind : Call) (h : Nat) (x : K × V) :
    Arrays K V → List Nat → Env → Out (Arrays K V × Pos) (Arrays K V)
  | _, [], _ => .bad
  | a, g :: gs, e =>
    match (a.grp g).availSlots with
    | j :: _ =>
      if a.hasElems = true ∧ (a.slot g j).isNone then
        match e.call may kind with
        | none => .threw e a
        | some e => .done (e.addElems 1) ((a.setSlot g j (some x)).setGrp g ((a.grp g).set j h), (g, j))
      else .bad
    | [] =>
      if a.hasElems = true then emplaceLoopX may kind h x (a.setGrp g ((a.grp g).markOverflow h)) gs e else .bad

/-- `nosize_unchecked_emplace_at(arrays_,position_for(hash,arrays_),hash,x)` (core.hpp:2366-2385). -/
def emplaceX (may : Call → Bool) (kind : Call) (a : Arrays K V) (h : Nat) (x : K × V) (e : Env) :
    Out (Arrays K V × Pos) (Arrays K V) :=
  emplaceLoopX may kind h x a (probeSeq a.mask (a.posFor h)) e

/-- The `try` part of `unchecked_rehash` (core.hpp:2290-2294) with both versions of `nosize_transfer_element`
(core.hpp:2331-2364): `mv` selects the moving one, which destroys the source element even if its construction throws and
counts it; hashing precedes the count. State: (old arrays, new arrays, num_destroyed). -/
def transferX (may : Call → Bool) (mv : Bool) (f : Fns K) : List Pos → Arrays K V × Arrays K V × Nat → Env →
    Out (Arrays K V × Arrays K V × Nat) (Arrays K V × Arrays K V × Nat)
  | [], s, e => .done e s
  | p :: ps, (src, dst, num), e =>
    match src.slot p.1 p.2 with
    | none => .bad
    | some x =>
      match e.call may .hash with
      | none => .threw e (src, dst, num)
      | some e =>
        match emplaceX may .transfer dst (f.hash x.1) x e with
        | .bad => .bad
        | .threw e dst' =>
          if mv then .threw (e.addElems (-1)) (src.setSlot p.1 p.2 none, dst', num + 1) else .threw e (src, dst', num)
        | .done e (dst', _) =>
          if mv then transferX may mv f ps (src.setSlot p.1 p.2 none, dst', num + 1) (e.addElems (-1))
          else transferX may mv f ps (src, dst', num) e

/-- `for_all_elements(arrays_,[](p){destroy_element(p);})` (core.hpp:2305-2307, 2315-2317, 1552-1554). -/
def destroyX : List Pos → Arrays K V → Env → Option (Arrays K V × Env)
  | [], a, e => some (a, e)
  | p :: ps, a, e =>
    match a.slot p.1 p.2 with
    | none => none
    | some _ => destroyX ps (a.setSlot p.1 p.2 none) (e.addElems (-1))

end Arrays

namespace Table
open Arrays

/-- `find(x)` (core.hpp:1707-1755). -/
def findX (may : Call → Bool) (t : Table K V) (x : K) (e : Env) : Out (Option Pos) Unit :=
  match e.call may .hash with
  | none => .threw e ()
  | some e => findLoopX may t.arr (t.fns.eq x) (t.fns.hash x) (probeSeq t.arr.mask (t.arr.posFor (t.fns.hash x))) e

/-- `recover_slot` (core.hpp:2260-2274) for the slots of elements that are already destroyed, in the catch block of
`unchecked_rehash` (core.hpp:2297-2304). -/
def recoverX : List Pos → Table K V → Option (Table K V)
  | [], t => some t
  | p :: ps, t =>
    let G := t.arr.grp p.1
    let d := if G.maybeCausedOverflow p.2 then 1 else 0
    if d ≤ t.ml ∧ 1 ≤ t.size then
      recoverX ps { t with arr := t.arr.setGrp p.1 (G.reset p.2), ml := t.ml - d, size := t.size - 1 }
    else none

/-- `unchecked_rehash(new_arrays_)` (core.hpp:2287-2322). -/
def uncheckedRehashX (may : Call → Bool) (mv : Bool) (t : Table K V) (new : Arrays K V) (e : Env) :
    Out (Table K V) (Table K V) :=
  match transferX may mv t.fns t.arr.occ (t.arr, new, 0) e with
  | .bad => .bad
  | .threw e (src, dst, num) =>
    match recoverX (src.occ.take num) { t with arr := src } with
    | none => .bad
    | some t' =>
      match destroyX dst.occ dst e with
      | none => .bad
      | some (dst, e) =>
        match freeX t.al dst e with
        | none => .bad
        | some e => .threw e t'
  | .done e (src, dst, num) =>
    if num = t.size ∨ num = 0 then
      match (if num ≠ t.size then destroyX src.occ src e else some (src, e)) with
      | none => .bad
      | some (src, e) =>
        match freeX t.al src e with
        | none => .bad
        | some e => .done e { t with arr := dst, ml := initMl dst }
    else .bad

/-- `unchecked_emplace_at` (core.hpp:1964-1972). -/
def uncheckedEmplaceX (may : Call → Bool) (t : Table K V) (x : K × V) (e : Env) : Out (Table K V × Pos) (Table K V) :=
  match emplaceX may .construct t.arr (t.fns.hash x.1) x e with
  | .bad => .bad
  | .threw e a => .threw e { t with arr := a }
  | .done e (a, p) => .done e ({ t with arr := a, size := t.size + 1 }, p)

/-- Body of `unchecked_emplace_with_rehash` (core.hpp:1980-2002) after `new_arrays_for_growth` has determined the number `n`
of slots to request (core.hpp:2119-2133). -/
def emplaceIntoX (may : Call → Bool) (mv : Bool) (cfg : Cfg) (n : Nat) (t : Table K V) (x : K × V) (e : Env) :
    Out (Table K V × Pos) (Table K V) :=
  match newX may cfg t.al n e with
  | none => .threw e t
  | some (e, new) =>
    match emplaceX may .construct new (t.fns.hash x.1) x e with
    | .bad => .bad
    | .threw e new' =>
      match freeX t.al new' e with
      | none => .bad
      | some e => .threw e t
    | .done e (new', p) =>
      match t.uncheckedRehashX may mv new' e with
      | .bad => .bad
      | .threw e t' => .threw e t'
      | .done e t' => .done e ({ t' with size := t'.size + 1 }, p)

/-- `unchecked_emplace_with_rehash` (core.hpp:1980-2002). -/
def emplaceWithRehashX (may : Call → Bool) (mv : Bool) (cfg : Cfg) (t : Table K V) (x : K × V) (e : Env) :
    Out (Table K V × Pos) (Table K V) := t.emplaceIntoX may mv cfg (growthRequest t.size) x e

/-- `table::emplace_impl` (table.hpp:628-655). -/
def emplaceImplX (may : Call → Bool) (mv : Bool) (cfg : Cfg) (t : Table K V) (x : K × V) (e : Env) :
    Out (Table K V × Pos × Bool) (Table K V) :=
  match t.findX may x.1 e with
  | .bad => .bad
  | .threw e _ => .threw e t
  | .done e (some p) => .done e (t, p, false)
  | .done e none =>
    if t.size < t.ml then
      match t.uncheckedEmplaceX may x e with
      | .bad => .bad
      | .threw e t' => .threw e t'
      | .done e (t', p) => .done e (t', p, true)
    else
      match t.emplaceWithRehashX may mv cfg x e with
      | .bad => .bad
      | .threw e t' => .threw e t'
      | .done e (t', p) => .done e (t', p, true)

/-- `rehash(n)` (core.hpp:1824-1831, 2281-2285). -/
def rehashX (may : Call → Bool) (mv : Bool) (cfg : Cfg) (t : Table K V) (n : Nat) (e : Env) :
    Out (Table K V) (Table K V) :=
  let m := slotsFor t.size
  let n := if m > n then m else n
  let n := if n ≠ 0 then capacityFor n else n
  if n ≠ t.capacity then
    match newX may cfg t.al n e with
    | none => .threw e t
    | some (e, new) => t.uncheckedRehashX may mv new e
  else .done e t

/-- `reserve(n)` (core.hpp:1833-1836). -/
def reserveX (may : Call → Bool) (mv : Bool) (cfg : Cfg) (t : Table K V) (n : Nat) (e : Env) :
    Out (Table K V) (Table K V) := t.rehashX may mv cfg (slotsFor n) e

/-- Erasure of one live element (core.hpp:1693-1704), with the ledger. -/
def eraseAtX (t : Table K V) (p : Pos) (e : Env) : Option (Table K V × Env) :=
  (t.eraseAt p).map (fun t' => (t', e.addElems (-1)))

/-- `erase(key)` (table.hpp:484-496). -/
def eraseKeyX (may : Call → Bool) (t : Table K V) (x : K) (e : Env) : Out (Table K V × Nat) (Table K V) :=
  match t.findX may x e with
  | .bad => .bad
  | .threw e _ => .threw e t
  | .done e none => .done e (t, 0)
  | .done e (some p) =>
    match t.eraseAtX p e with
    | none => .bad
    | some (t', e) => .done e (t', 1)

/-- `insert(first,last)` (unordered_flat_map.hpp:323-343). -/
def insertRangeX (may : Call → Bool) (mv : Bool) (cfg : Cfg) : List (K × V) → Table K V → Env →
    Out (Table K V) (Table K V)
  | [], t, e => .done e t
  | x :: xs, t, e =>
    match t.emplaceImplX may mv cfg x e with
    | .bad => .bad
    | .threw e t' => .threw e t'
    | .done e (t', _, _) => insertRangeX may mv cfg xs t' e

/-- `erase_if` (table.hpp:563-579) with a throwing predicate. -/
def eraseIfX (may : Call → Bool) (pr : K × V → Bool) : List Pos → Table K V → Env → Out (Table K V) (Table K V)
  | [], t, e => .done e t
  | p :: ps, t, e =>
    match t.arr.slot p.1 p.2 with
    | none => .bad
    | some x =>
      match e.call may .pred with
      | none => .threw e t
      | some e =>
        if pr x then
          match t.eraseAtX p e with
          | none => .bad
          | some (t', e) => eraseIfX may pr ps t' e
        else eraseIfX may pr ps t e

/-- `clear()` (core.hpp:1786-1804), with the ledger: every traversed slot is destroyed, so all of them must be live. -/
def clearX (t : Table K V) (e : Env) : Option (Table K V × Env) :=
  (destroyX t.arr.occ t.arr e).map (fun r => (t.clear, r.2))

/-- Element-wise copy or move from `src` (core.hpp:1544-1546, 1674-1676, 2175-2177). Moved-from elements stay alive in the
source. -/
def insertAllX (may : Call → Bool) (src : Arrays K V) : List Pos → Table K V → Env → Out (Table K V) (Table K V)
  | [], t, e => .done e t
  | p :: ps, t, e =>
    match src.slot p.1 p.2 with
    | none => .bad
    | some x =>
      match e.call may .hash with
      | none => .threw e t
      | some e =>
        match t.uncheckedEmplaceX may x e with
        | .bad => .bad
        | .threw e t' => .threw e t'
        | .done e (t', _) => insertAllX may src ps t' e

/-- `copy_elements_array_from` (core.hpp:2216-2236): constructs the same slots; state (element array, num_constructed). -/
def copyArrayX (may : Call → Bool) (src : Arrays K V) : List Pos → Arrays K V → Nat → Env →
    Out (Arrays K V) (Arrays K V × Nat)
  | [], a, _, e => .done e a
  | p :: ps, a, num, e =>
    match src.slot p.1 p.2, a.slot p.1 p.2 with
    | some x, none =>
      match e.call may .construct with
      | none => .threw e (a, num)
      | some e => copyArrayX may src ps (a.setSlot p.1 p.2 (some x)) (num + 1) (e.addElems 1)
    | _, _ => .bad

/-- `copy_elements_from` (core.hpp:2167-2189). The fast path rolls back on a throw (core.hpp:2226-2234). -/
def copyElementsFromX (may : Call → Bool) (t x : Table K V) (e : Env) : Out (Table K V) (Table K V) :=
  if t.arr.mask = x.arr.mask then
    if t.arr.hasElems = true ∧ x.arr.hasElems = true then
      match copyArrayX may x.arr x.arr.occ t.arr 0 e with
      | .bad => .bad
      | .threw e (a, num) =>
        match destroyX (x.arr.occ.take num) a e with
        | none => .bad
        | some (a, e) => .threw e { t with arr := a }
      | .done e a => .done e { t with arr := { a with grp := x.arr.grp }, ml := x.ml, size := x.size }
    else .done e t
  else insertAllX may x.arr x.arr.occ t e

/-- Destructor (core.hpp:1550-1556). -/
def destroyTX (t : Table K V) (e : Env) : Option Env :=
  match destroyX t.arr.occ t.arr e with
  | none => none
  | some (a, e) => freeX t.al a e

/-- Copy constructor with allocator (core.hpp:1520-1524). It delegates to another constructor, so when the body throws the
destructor runs; no object remains. `n` is the number of slots requested. -/
def copyCtorNX (may : Call → Bool) (cfg : Cfg) (n : Nat) (x : Table K V) (al : Nat) (e : Env) : Out (Table K V) Unit :=
  match e.call may .fnCopy with
  | none => .threw e ()
  | some e =>
    match newX may cfg al n e with
    | none => .threw e ()
    | some (e, a) =>
      match ({ fns := x.fns, al := al, arr := a, ml := initMl a, size := 0 } : Table K V).copyElementsFromX may x e with
      | .bad => .bad
      | .threw e t =>
        match t.destroyTX e with
        | none => .bad
        | some e => .threw e ()
      | .done e t => .done e t

/-- Copy constructor with allocator (core.hpp:1520-1524). -/
def copyCtorX (may : Call → Bool) (cfg : Cfg) (x : Table K V) (al : Nat) (e : Env) : Out (Table K V) Unit :=
  x.copyCtorNX may cfg (slotsFor x.size) al e

/-- `noshrink_reserve(n)` (core.hpp:2004-2020). -/
def noshrinkReserveX (may : Call → Bool) (cfg : Cfg) (t : Table K V) (n : Nat) (e : Env) : Out (Table K V) (Table K V) :=
  if n ≠ 0 then
    let n := capacityFor (slotsFor n)
    if n > t.capacity then
      match newX may cfg t.al n e with
      | none => .threw e t
      | some (e, a) =>
        match freeX t.al t.arr e with
        | none => .bad
        | some e => .done e { t with arr := a, ml := initMl a }
    else .done e t
  else .done e t

/-- The POCCA step of copy assignment (core.hpp:1602-1610), on the cleared container. -/
def poccaX (may : Call → Bool) (cfg : Cfg) (t x : Table K V) (e : Env) : Out (Table K V) (Table K V) :=
  if cfg.pocca then
    if t.al ≠ x.al then
      match newX may cfg x.al (slotsFor x.size) e with
      | none => .threw e t
      | some (e, ah) =>
        match freeX t.al t.arr e with
        | none => .bad
        | some e => .done e { t with arr := ah, ml := initMl ah, al := x.al }
    else .done e { t with al := x.al }
  else .done e t

/-- Copy assignment from a different object (core.hpp:1576-1614). -/
def copyAssignX (may : Call → Bool) (cfg : Cfg) (t x : Table K V) (e : Env) : Out (Table K V) (Table K V) :=
  match e.call may .fnCopy with
  | none => .threw e t
  | some e =>
    match t.clearX e with
    | none => .bad
    | some (t, e) =>
      match ({ t with fns := x.fns } : Table K V).poccaX may cfg x e with
      | .bad => .bad
      | .threw e t => .threw e t
      | .done e t =>
        match t.noshrinkReserveX may cfg x.size e with
        | .bad => .bad
        | .threw e t => .threw e t
        | .done e t => t.copyElementsFromX may x e

/-- Move assignment from a different object (core.hpp:1621-1682). State: (target, source). The function objects are
exchanged *before* the allocation in `noshrink_reserve`, the guard that clears the source is created *after* it. -/
def moveAssignX (may : Call → Bool) (cfg : Cfg) (t x : Table K V) (e : Env) :
    Out (Table K V × Table K V) (Table K V × Table K V) :=
  match t.clearX e with
  | none => .bad
  | some (t, e) =>
    if cfg.pocma = true ∨ t.al = x.al then
      match newX may cfg x.al 0 e with
      | none => .threw e (t, x)
      | some (e, ah) =>
        match freeX t.al t.arr e with
        | none => .bad
        | some e =>
          .done e ({ fns := x.fns, al := if cfg.pocma then x.al else t.al, arr := x.arr, ml := x.ml, size := x.size },
            { fns := t.fns, al := x.al, arr := ah, ml := initMl ah, size := 0 })
    else
      match ({ t with fns := x.fns } : Table K V).noshrinkReserveX may cfg x.size e with
      | .bad => .bad
      | .threw e t1 => .threw e (t1, { x with fns := t.fns })
      | .done e t1 =>
        match insertAllX may x.arr x.arr.occ t1 e with
        | .bad => .bad
        | .threw e t2 =>
          match ({ x with fns := t.fns } : Table K V).clearX e with
          | none => .bad
          | some (x, e) => .threw e (t2, x)
        | .done e t2 =>
          match ({ x with fns := t.fns } : Table K V).clearX e with
          | none => .bad
          | some (x, e) => .done e (t2, x)

/-- Move constructor (core.hpp:1498-1518): `make_empty_arrays` comes first and is the only call that may throw (with fancy
pointers, which need allocated dummy arrays). State on a throw: the source. -/
def moveCtorX (may : Call → Bool) (cfg : Cfg) (x : Table K V) (e : Env) : Out (Table K V × Table K V) (Table K V) :=
  match newX may cfg x.al 0 e with
  | none => .threw e x
  | some (e, ah) => .done e (x, { x with arr := ah, ml := initMl ah, size := 0 })

/-- Allocator-extended move constructor (core.hpp:1526-1548). On a throw during the element-wise moves, `clear_on_exit` clears
the source, then the destructor of the new object runs (the constructor is a delegating one). State on a throw: the source. -/
def moveCtorAllocX (may : Call → Bool) (mv : Bool) (cfg : Cfg) (x : Table K V) (al : Nat) (e : Env) :
    Out (Table K V × Table K V) (Table K V) :=
  match newX may cfg al 0 e with
  | none => .threw e x
  | some (e, a) =>
    if al = x.al then
      .done e ({ fns := x.fns, al := al, arr := x.arr, ml := x.ml, size := x.size },
        { x with arr := a, ml := initMl a, size := 0 })
    else
      match ({ fns := x.fns, al := al, arr := a, ml := initMl a, size := 0 } : Table K V).reserveX may mv cfg x.size e with
      | .bad => .bad
      | .threw e t1 =>
        match t1.destroyTX e with
        | none => .bad
        | some e => .threw e x
      | .done e t1 =>
        match insertAllX may x.arr x.arr.occ t1 e with
        | .bad => .bad
        | .threw e t2 =>
          match x.clearX e with
          | none => .bad
          | some (x, e) =>
            match t2.destroyTX e with
            | none => .bad
            | some e => .threw e x
        | .done e t2 =>
          match x.clearX e with
          | none => .bad
          | some (x, e) => .done e (t2, x)

/-- `merge(x)` (table.hpp:523-531) from a different object. The guard `erase_on_exit` erases the source element also when
`emplace_impl` throws. State: (target, source). -/
def mergeX (may : Call → Bool) (mv : Bool) (cfg : Cfg) : List Pos → Table K V → Table K V → Env →
    Out (Table K V × Table K V) (Table K V × Table K V)
  | [], t, x, e => .done e (t, x)
  | p :: ps, t, x, e =>
    match x.arr.slot p.1 p.2 with
    | none => .bad
    | some y =>
      match t.emplaceImplX may mv cfg y e with
      | .bad => .bad
      | .threw e t' =>
        match x.eraseAtX p e with
        | none => .bad
        | some (x', e) => .threw e (t', x')
      | .done e (t', _, true) =>
        match x.eraseAtX p e with
        | none => .bad
        | some (x', e) => mergeX may mv cfg ps t' x' e
      | .done e (t', _, false) => mergeX may mv cfg ps t' x e

end Table
end Foa

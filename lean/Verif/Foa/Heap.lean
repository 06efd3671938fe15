/-
The memory blocks behind the open-addressing containers: every array buffer is a block of an explicit heap, containers hold the
block's address, and freeing checks that the block is alive, that it came from this allocator and that it has this size.
Sources: /repo/include/boost/unordered/detail/foa/core.hpp, /repo/include/boost/unordered/detail/foa/table.hpp.

The functions below are those of `Verif/Foa/Table.lean` and `Verif/Foa/Machine.lean` that allocate, free or hand over arrays,
with the heap made explicit; the arrays' contents are computed by the functions of `Verif/Foa/Table.lean`. That they compute the
same containers is proved (`Verif/Foa/HeapLemmas.lean`). Nothing throws here (exceptions: `Verif/Foa/Exceptions.lean`).
-/
import Verif.Foa.Machine

namespace Foa
open Spec (Op Res upd)
variable {K V : Type}

/-- The heap: the live blocks (address, allocator, size parameter) and the next fresh address. Addresses are not reused, so that a
second deallocation of a block cannot be mistaken for the first one of another. The size passed to allocate and deallocate is
`buffer_size(groups_size_mask+1)` (core.hpp:1081-1100), a function of `k`. -/
structure Heap where
  blocks : List (Nat × Nat × Nat) := []
  next : Nat := 1
deriving DecidableEq, Repr

/-- `allocate` -/
def Heap.alloc (h : Heap) (al k : Nat) : Heap := { blocks := (h.next, al, k) :: h.blocks, next := h.next + 1 }

/-- `deallocate(p,n)` with allocator `al`: undefined unless exactly such a block is alive. -/
def Heap.free (h : Heap) (id al k : Nat) : Option Heap :=
  if (id, al, k) ∈ h.blocks then some { h with blocks := h.blocks.erase (id, al, k) } else none

/-- A container with the address of its block; `0` (null) for the static dummy groups. -/
structure HTable (K V : Type) where
  t : Table K V
  id : Nat

/-- `new_arrays(n)` (core.hpp:2114-2117, 1036-1089): no allocation for the dummy groups. -/
def newH (cfg : Cfg) (al n : Nat) (h : Heap) : (Arrays K V × Nat) × Heap :=
  let a : Arrays K V := Arrays.new_ cfg al n
  if a.hasElems then ((a, h.next), h.alloc al a.k) else ((a, 0), h)

/-- `delete_arrays` (core.hpp:2135-2138, 1091-1100): `al` is the allocator of the container. -/
def deleteH (al : Nat) (a : Arrays K V) (id : Nat) (h : Heap) : Option Heap :=
  if a.hasElems then h.free id al a.k else some h

namespace HTable

/-- Constructor from a capacity (core.hpp:1469-1475). -/
def mk_ (cfg : Cfg) (f : Fns K) (al n : Nat) (h : Heap) : HTable K V × Heap :=
  let r := newH cfg al n h
  (⟨{ fns := f, al := al, arr := r.1.1, ml := Table.initMl r.1.1, size := 0 }, r.1.2⟩, r.2)

/-- Destructor (core.hpp:1550-1556). -/
def destroy (t : HTable K V) (h : Heap) : Option Heap := deleteH t.t.al t.t.arr t.id h

/-- `unchecked_rehash(new_arrays_)` (core.hpp:2287-2322). -/
def uncheckedRehash (t : HTable K V) (new : Arrays K V) (id : Nat) (h : Heap) : Option (HTable K V × Heap) :=
  match Arrays.transferAll t.t.fns t.t.arr t.t.arr.occ new with
  | none => none
  | some a =>
    match deleteH t.t.al t.t.arr t.id h with
    | none => none
    | some h => some (⟨{ t.t with arr := a, ml := Table.initMl a }, id⟩, h)

/-- `unchecked_emplace_with_rehash` (core.hpp:1980-2002) with `n` slots requested. -/
def emplaceIntoNew (cfg : Cfg) (t : HTable K V) (x : K × V) (n : Nat) (h : Heap) : Option ((HTable K V × Pos) × Heap) :=
  let r := newH cfg t.t.al n h
  match r.1.1.emplace (t.t.fns.hash x.1) x with
  | none => none
  | some (a, p) =>
    match t.uncheckedRehash a r.1.2 r.2 with
    | none => none
    | some (t', h) => some ((⟨{ t'.t with size := t'.t.size + 1 }, t'.id⟩, p), h)

/-- `unchecked_emplace_with_rehash` (core.hpp:1980-2002), `new_arrays_for_growth` (core.hpp:2119-2133). -/
def emplaceWithRehash (cfg : Cfg) (t : HTable K V) (x : K × V) (h : Heap) : Option ((HTable K V × Pos) × Heap) :=
  t.emplaceIntoNew cfg x (growthRequest t.t.size) h

/-- `table::emplace_impl` (table.hpp:628-655). -/
def emplaceImpl (cfg : Cfg) (t : HTable K V) (x : K × V) (h : Heap) : Option ((HTable K V × Pos × Bool) × Heap) :=
  match t.t.find x.1 with
  | none => none
  | some (some p) => some ((t, p, false), h)
  | some none =>
    if t.t.size < t.t.ml then
      (t.t.uncheckedInsert x).map (fun r => ((⟨r.1, t.id⟩, r.2, true), h))
    else
      (t.emplaceWithRehash cfg x h).map (fun r => ((r.1.1, r.1.2, true), r.2))

/-- `if(n!=capacity())unchecked_rehash(n)` (core.hpp:1830, 2281-2285). -/
def rehashTo (cfg : Cfg) (t : HTable K V) (n : Nat) (h : Heap) : Option (HTable K V × Heap) :=
  if n ≠ t.t.capacity then
    let r := newH cfg t.t.al n h
    t.uncheckedRehash r.1.1 r.1.2 r.2
  else some (t, h)

/-- `rehash(n)` (core.hpp:1824-1831). -/
def rehash (cfg : Cfg) (t : HTable K V) (n : Nat) (h : Heap) : Option (HTable K V × Heap) :=
  let m := slotsFor t.t.size
  let n := if m > n then m else n
  let n := if n ≠ 0 then capacityFor n else n
  t.rehashTo cfg n h

/-- `reserve(n)` (core.hpp:1833-1836). -/
def reserve (cfg : Cfg) (t : HTable K V) (n : Nat) (h : Heap) : Option (HTable K V × Heap) := t.rehash cfg (slotsFor n) h

/-- Replacing the arrays by new ones for `n` slots (core.hpp:2011-2017). -/
def replaceArrays (cfg : Cfg) (t : HTable K V) (n : Nat) (h : Heap) : Option (HTable K V × Heap) :=
  if n > t.t.capacity then
    let r := newH cfg t.t.al n h
    match deleteH t.t.al t.t.arr t.id r.2 with
    | none => none
    | some h => some (⟨{ t.t with arr := r.1.1, ml := Table.initMl r.1.1 }, r.1.2⟩, h)
  else some (t, h)

/-- `noshrink_reserve(n)` (core.hpp:2004-2020). -/
def noshrinkReserve (cfg : Cfg) (t : HTable K V) (n : Nat) (h : Heap) : Option (HTable K V × Heap) :=
  if n ≠ 0 then t.replaceArrays cfg (capacityFor (slotsFor n)) h else some (t, h)

/-- Copy construction with initial capacity `n` (core.hpp:1520-1524). -/
def copyCtorN (cfg : Cfg) (x : HTable K V) (al n : Nat) (h : Heap) : Option (HTable K V × Heap) :=
  let r := mk_ cfg x.t.fns al n h
  (r.1.t.copyElementsFrom x.t).map (fun t => (⟨t, r.1.id⟩, r.2))

/-- Copy constructor (core.hpp:1495-1496, 1520-1524). -/
def copyCtor (cfg : Cfg) (x : HTable K V) (al : Nat) (h : Heap) : Option (HTable K V × Heap) :=
  x.copyCtorN cfg al (slotsFor x.t.size) h

/-- Move constructor (core.hpp:1498-1518): the new container gets the block of the source. -/
def moveCtor (cfg : Cfg) (x : HTable K V) (h : Heap) : (HTable K V × HTable K V) × Heap :=
  let r := newH cfg x.t.al 0 h
  ((x, ⟨{ x.t with arr := r.1.1, ml := Table.initMl r.1.1, size := 0 }, r.1.2⟩), r.2)

/-- Allocator-extended move constructor (core.hpp:1526-1548). -/
def moveCtorAlloc (cfg : Cfg) (x : HTable K V) (al : Nat) (h : Heap) : Option ((HTable K V × HTable K V) × Heap) :=
  let r := mk_ cfg x.t.fns al 0 h
  let t := r.1
  if t.t.al = x.t.al then
    some ((⟨{ t.t with arr := x.t.arr, ml := x.t.ml, size := x.t.size }, x.id⟩,
      ⟨{ x.t with arr := t.t.arr, ml := t.t.ml, size := t.t.size }, t.id⟩), r.2)
  else
    match t.reserve cfg x.t.size r.2 with
    | none => none
    | some (t1, h) =>
      match Table.insertAll x.t.arr x.t.arr.occ t1.t with
      | none => none
      | some t2 => some ((⟨t2, t1.id⟩, ⟨x.t.clear, x.id⟩), h)

/-- The propagation part of copy assignment (core.hpp:1591-1607) on the cleared target, `n` slots being requested if the
allocators differ. -/
def copyAssignAl (cfg : Cfg) (t x : HTable K V) (n : Nat) (h : Heap) : Option (HTable K V × Heap) :=
  if cfg.pocca then
    if t.t.al ≠ x.t.al then
      let r := newH cfg x.t.al n h
      match deleteH t.t.al t.t.arr t.id r.2 with
      | none => none
      | some h => some (⟨{ t.t with arr := r.1.1, ml := Table.initMl r.1.1, al := x.t.al }, r.1.2⟩, h)
    else some (⟨{ t.t with al := x.t.al }, t.id⟩, h)
  else some (t, h)

/-- The rest of copy assignment (core.hpp:1608-1612). -/
def copyAssignEnd (cfg : Cfg) (t x : HTable K V) (h : Heap) : Option (HTable K V × Heap) :=
  match t.noshrinkReserve cfg x.t.size h with
  | none => none
  | some (t2, h) => (t2.t.copyElementsFrom x.t).map (fun t3 => (⟨t3, t2.id⟩, h))

/-- Copy assignment from a different object (core.hpp:1576-1614). -/
def copyAssign (cfg : Cfg) (t x : HTable K V) (h : Heap) : Option (HTable K V × Heap) :=
  match (⟨{ t.t.clear with fns := x.t.fns }, t.id⟩ : HTable K V).copyAssignAl cfg x (slotsFor x.t.size) h with
  | none => none
  | some (t1, h) => t1.copyAssignEnd cfg x h

/-- Move assignment from a different object (core.hpp:1621-1682). -/
def moveAssign (cfg : Cfg) (t x : HTable K V) (h : Heap) : Option ((HTable K V × HTable K V) × Heap) :=
  let t0 : Table K V := t.t.clear
  if cfg.pocma = true ∨ t0.al = x.t.al then
    let r := newH cfg x.t.al 0 h
    match deleteH t0.al t0.arr t.id r.2 with
    | none => none
    | some h =>
      some ((⟨{ fns := x.t.fns, al := if cfg.pocma then x.t.al else t0.al, arr := x.t.arr, ml := x.t.ml, size := x.t.size },
              x.id⟩,
             ⟨{ fns := t0.fns, al := x.t.al, arr := r.1.1, ml := Table.initMl r.1.1, size := 0 }, r.1.2⟩), h)
  else
    let t1 : Table K V := { t0 with fns := x.t.fns }
    let x1 : Table K V := { x.t with fns := t0.fns }
    match (⟨t1, t.id⟩ : HTable K V).noshrinkReserve cfg x.t.size h with
    | none => none
    | some (t2, h) =>
      match Table.insertAll x.t.arr x.t.arr.occ t2.t with
      | none => none
      | some t3 => some ((⟨t3, t2.id⟩, ⟨x1.clear, x.id⟩), h)

/-- `swap` (core.hpp:1761-1784): the blocks change places. -/
def swap (cfg : Cfg) (t x : HTable K V) : Option (HTable K V × HTable K V) :=
  if cfg.pocs then some (x, t)
  else if t.t.al = x.t.al then some (⟨{ x.t with al := t.t.al }, x.id⟩, ⟨{ t.t with al := x.t.al }, t.id⟩)
  else none

/-- The loop of `merge` (table.hpp:523-531). -/
def mergeLoop (cfg : Cfg) : List Pos → HTable K V → HTable K V → Heap → Option ((HTable K V × HTable K V) × Heap)
  | [], t, x, h => some ((t, x), h)
  | p :: ps, t, x, h =>
    match x.t.arr.slot p.1 p.2 with
    | none => none
    | some e =>
      match t.emplaceImpl cfg e h with
      | none => none
      | some ((t', _, true), h) =>
        match x.t.eraseAt p with
        | none => none
        | some x' => mergeLoop cfg ps t' ⟨x', x.id⟩ h
      | some ((t', _, false), h) => mergeLoop cfg ps t' x h

/-- `x.merge(x)` (table.hpp:523-531). -/
def mergeSelfLoop (cfg : Cfg) : List Pos → HTable K V → Heap → Option (HTable K V × Heap)
  | [], t, h => some (t, h)
  | p :: ps, t, h =>
    match t.t.arr.slot p.1 p.2 with
    | none => none
    | some e =>
      match t.emplaceImpl cfg e h with
      | none => none
      | some ((t', _, true), h) =>
        match t'.t.eraseAt p with
        | none => none
        | some t'' => mergeSelfLoop cfg ps ⟨t'', t'.id⟩ h
      | some ((t', _, false), h) => mergeSelfLoop cfg ps t' h

/-- `insert`/`emplace`/`try_emplace` (table.hpp:412-455). -/
def opInsert (cfg : Cfg) (t : HTable K V) (x : K × V) (h : Heap) : Option ((HTable K V × Res K V) × Heap) :=
  match t.emplaceImpl cfg x h with
  | none => none
  | some ((t', p, b), h) =>
    match t'.t.deref p with
    | none => none
    | some e => some ((t', .ins e b), h)

/-- `insert(first,last)` (unordered_flat_map.hpp:323-343). -/
def insertRange (cfg : Cfg) : List (K × V) → HTable K V → Heap → Option (HTable K V × Heap)
  | [], t, h => some (t, h)
  | x :: xs, t, h =>
    match t.emplaceImpl cfg x h with
    | none => none
    | some ((t', _, _), h) => insertRange cfg xs t' h

/-- `insert_or_assign` (unordered_flat_map.hpp:346-405). -/
def opInsertOrAssign (cfg : Cfg) (t : HTable K V) (k : K) (v : V) (h : Heap) : Option ((HTable K V × Res K V) × Heap) :=
  match t.emplaceImpl cfg (k, v) h with
  | none => none
  | some ((t', p, true), h) =>
    match t'.t.deref p with
    | none => none
    | some e => some ((t', .ins e true), h)
  | some ((t', p, false), h) =>
    match t'.t.assignAt p v with
    | none => none
    | some t'' =>
      match t''.deref p with
      | none => none
      | some e => some ((⟨t'', t'.id⟩, .ins e false), h)

/-- `operator[]` (unordered_flat_map.hpp:583-602). -/
def opIndex (cfg : Cfg) (t : HTable K V) (k : K) (d : V) (h : Heap) : Option ((HTable K V × Res K V) × Heap) :=
  match t.emplaceImpl cfg (k, d) h with
  | none => none
  | some ((t', p, _), h) =>
    match t'.t.deref p with
    | none => none
    | some e => some ((t', .val (some e.2)), h)

end HTable

/-- State of a program: the container variables and the heap. -/
abbrev HState (K V : Type) := (Nat → HTable K V) × Heap

/-- a call that keeps the container's block -/
def keep (s : HState K V) (r : Nat) (x : Option (Table K V × Res K V)) : Option (HState K V × Res K V) :=
  x.map (fun y => ((upd s.1 r ⟨y.1, (s.1 r).id⟩, s.2), y.2))

/-- a call on one container that uses the heap -/
def hon1 (s : HState K V) (r : Nat) (x : Option ((HTable K V × Res K V) × Heap)) : Option (HState K V × Res K V) :=
  x.map (fun y => ((upd s.1 r y.1.1, y.2), y.1.2))

/-- a call on two containers that uses the heap -/
def hon2 (s : HState K V) (r q : Nat) (x : Option ((HTable K V × HTable K V) × Heap)) : Option (HState K V × Res K V) :=
  x.map (fun y => ((upd (upd s.1 r y.1.1) q y.1.2, y.2), .unit))

/-- read-only call -/
def hon0 (s : HState K V) (x : Option (Res K V)) : Option (HState K V × Res K V) := x.map (fun y => (s, y))

/-- One call, as `Foa.step` (`Verif/Foa/Machine.lean`). -/
def hstep (c : MCfg) (veq : K × V → K × V → Bool) (s : HState K V) : Op K V → Option (HState K V × Res K V)
  | .construct r h e al n =>
    ((s.1 r).destroy s.2).bind fun hp =>
      let y := HTable.mk_ c.toCfg ⟨h, e⟩ al n hp
      some ((upd s.1 r y.1, y.2), .unit)
  | .insert r x => hon1 s r ((s.1 r).opInsert c.toCfg x s.2)
  | .insertRange r xs => hon1 s r ((HTable.insertRange c.toCfg xs (s.1 r) s.2).map (fun y => ((y.1, .unit), y.2)))
  | .insertOrAssign r k v => hon1 s r ((s.1 r).opInsertOrAssign c.toCfg k v s.2)
  | .index r k d => hon1 s r ((s.1 r).opIndex c.toCfg k d s.2)
  | .at r k => hon0 s (((s.1 r).t.lookup k).map (fun e => .val (e.map Prod.snd)))
  | .find r k => hon0 s (((s.1 r).t.lookup k).map .elem)
  | .count r k => hon0 s (((s.1 r).t.find k).map (fun p => .num (if p.isSome then 1 else 0)))
  | .contains r k => hon0 s (((s.1 r).t.find k).map (fun p => .bool p.isSome))
  | .erase r k => keep s r (((s.1 r).t.eraseKey k).map (fun y => (y.1, .num y.2)))
  | .eraseIt r k => keep s r (((s.1 r).t.opEraseIt k).map (fun t => (t, .unit)))
  | .extract r k => keep s r ((s.1 r).t.opExtract k)
  | .eraseIf r pr => keep s r (((s.1 r).t.eraseIf pr).map (fun y => (y.1, .num y.2)))
  | .eraseWalk r pr => keep s r ((s.1 r).t.opEraseWalk c.regular pr)
  | .clear r => keep s r (some ((s.1 r).t.clear, .unit))
  | .rehash r n => hon1 s r (((s.1 r).rehash c.toCfg n s.2).map (fun y => ((y.1, .unit), y.2)))
  | .reserve r n => hon1 s r (((s.1 r).reserve c.toCfg n s.2).map (fun y => ((y.1, .unit), y.2)))
  | .copyConstruct r q al =>
    ((s.1 r).destroy s.2).bind fun hp => hon1 s r (((s.1 q).copyCtor c.toCfg al hp).map (fun y => ((y.1, .unit), y.2)))
  | .moveConstruct r q => ((s.1 r).destroy s.2).bind fun hp => hon2 s r q (some ((s.1 q).moveCtor c.toCfg hp))
  | .moveConstructAlloc r q al => ((s.1 r).destroy s.2).bind fun hp => hon2 s r q ((s.1 q).moveCtorAlloc c.toCfg al hp)
  | .copyAssign r q =>
    if r = q then some (s, .unit)
    else hon1 s r (((s.1 r).copyAssign c.toCfg (s.1 q) s.2).map (fun y => ((y.1, .unit), y.2)))
  | .moveAssign r q => if r = q then some (s, .unit) else hon2 s r q ((s.1 r).moveAssign c.toCfg (s.1 q) s.2)
  | .swap r q => hon2 s r q (((s.1 r).swap c.toCfg (s.1 q)).map (fun y => (y, s.2)))
  | .merge r q =>
    if r = q then
      hon1 s r ((HTable.mergeSelfLoop c.toCfg (s.1 r).t.arr.occ (s.1 r) s.2).map (fun y => ((y.1, .unit), y.2)))
    else hon2 s r q (HTable.mergeLoop c.toCfg (s.1 q).t.arr.occ (s.1 r) (s.1 q) s.2)
  | .size r => some (s, .num (s.1 r).t.size)
  | .isEmpty r => some (s, .bool (decide ((s.1 r).t.size = 0)))
  | .iterate r => hon0 s ((s.1 r).t.opIterate c.regular)
  | .equal r q => hon0 s ((Table.equal veq (s.1 r).t (s.1 q).t).map .bool)

/-- A program. -/
def hrun (c : MCfg) (veq : K × V → K × V → Bool) : List (Op K V) → HState K V → Option (HState K V × List (Res K V))
  | [], s => some (s, [])
  | op :: ops, s =>
    match hstep c veq s op with
    | none => none
    | some (s', o) => (hrun c veq ops s').map (fun r => (r.1, o :: r.2))

/-- Program start: `R` default-constructed containers, one after the other (with fancy pointers even these own a block). The
variables from `R` on are not used. -/
def hstart (c : MCfg) (hs : K → Nat) (e : K → K → Bool) : Nat → HState K V
  | 0 => (fun _ => ⟨Table.mk_ c.toCfg ⟨hs, e⟩ 0 0, 0⟩, {})
  | r + 1 =>
    let s := hstart c hs e r
    let y := HTable.mk_ c.toCfg ⟨hs, e⟩ 0 0 s.2
    (upd s.1 r y.1, y.2)

/-- Program end: the variables `0..R-1` are destroyed. -/
def hfinish (s : Nat → HTable K V) : Nat → Heap → Option Heap
  | 0, h => some h
  | r + 1, h => ((s r).destroy h).bind (hfinish s r)

end Foa

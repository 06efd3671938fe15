/-
Model of `table_core` / `table`, the engine of unordered_flat_map/set and unordered_node_map/set.
Sources: /repo/include/boost/unordered/detail/foa/core.hpp, /repo/include/boost/unordered/detail/foa/table.hpp.

Conventions
* An outer `none` (Option monad) is undefined behaviour or non-termination: reading a slot with no live element,
  constructing over a live element, writing to the shared read-only dummy groups, deallocating with an allocator that is
  not equal to the one that allocated, unsigned wrap-around of `size`/`max_load`, a probe loop that never ends.
* Elements are pairs (key, payload). For sets the payload is `Unit`; for node containers the payload includes the
  node's address, so that "the element is moved" means "the node pointer is moved".
* Hash values are natural numbers below 2^64 *after* mixing (`mix_policy`, core.hpp:896-931, see `Verif/Mulx.lean`).
* No operation throws here; throwing executions are modelled in `Verif/Foa/Exceptions.lean`.
* Statistics (`cstats`, disabled by default) are omitted here, see `Verif/Foa/Stats.lean`; prefetching is omitted.
-/
import Verif.Foa.Group
import Verif.Foa.Load

namespace Foa

/-- The hash function (composed with the mixing policy) and equality predicate held by a container
(core.hpp:1423, `empty_value<Hash,0>`, `empty_value<Pred,1>`; `hash_for` core.hpp:1941-1945). -/
structure Fns (K : Type) where
  hash : K → Nat
  eq : K → K → Bool

/-- What the user must provide: 64-bit hash values, an equivalence relation, and equal hashes for equivalent keys. -/
structure Fns.Lawful {K : Type} (f : Fns K) : Prop where
  hash_lt : ∀ k, f.hash k < 2 ^ 64
  refl : ∀ k, f.eq k k = true
  symm : ∀ a b, f.eq a b = true → f.eq b a = true
  trans : ∀ a b c, f.eq a b = true → f.eq b c = true → f.eq a c = true
  compat : ∀ a b, f.eq a b = true → f.hash a = f.hash b

/-- Compile-time configuration: propagation traits of the allocator and whether it uses fancy pointers
(core.hpp:1446-1449, 1581, 1629, 1769). -/
structure Cfg where
  fancy : Bool := false
  pocca : Bool := false
  pocma : Bool := false
  pocs : Bool := false
deriving DecidableEq, Repr

/-- Position of a slot: group index and slot within the group. Stands for the (pg,n,p) triple of a locator. -/
abbrev Pos := Nat × Nat

/-- `table_arrays` (core.hpp:1008-1139). `k` encodes `groups_size_index = 64-k` and `groups_size_mask = 2^k-1`;
`hasElems` is `elements()!=nullptr`; `al` is the allocator the memory came from (meaningless if `¬hasElems`). A slot of
the element array is `none` when it is raw memory. -/
structure Arrays (K V : Type) where
  k : Nat
  hasElems : Bool
  al : Nat
  grp : Nat → Group
  slot : Nat → Nat → Option (K × V)

/-- `table_core` (core.hpp:1423-2390): function objects, allocator, arrays, `size_ctrl.ml`, `size_ctrl.size`. -/
structure Table (K V : Type) where
  fns : Fns K
  al : Nat
  arr : Arrays K V
  ml : Nat
  size : Nat

variable {K V : Type}

namespace Arrays

/-- `groups_size_mask` (core.hpp:1136). -/
def mask (a : Arrays K V) : Nat := 2 ^ a.k - 1

/-- `position_for` (core.hpp:1947-1957). -/
def posFor (a : Arrays K V) (h : Nat) : Nat := position h (64 - a.k)

/-- `table_core::capacity` (core.hpp:1809-1812). -/
def capacity (a : Arrays K V) : Nat := if a.hasElems then capOf a.k else 0

/-- `table_arrays::new_` / `set_arrays` / `dummy_groups` (core.hpp:944-958, 1036-1089): the dummy groups (each with a
sentinel, in read-only memory) when `n==0` and pointers are not fancy; otherwise zeroed groups and a sentinel in the
last one. Allocation failure is not modelled here. -/
def new_ (cfg : Cfg) (al n : Nat) : Arrays K V :=
  if n = 0 ∧ cfg.fancy = false then
    { k := kFor 0, hasElems := false, al := al, grp := fun _ => Group.empty.setSentinel, slot := fun _ _ => none }
  else
    { k := kFor n, hasElems := true, al := al,
      grp := fun g => if g = 2 ^ kFor n - 1 then Group.empty.setSentinel else Group.empty,
      slot := fun _ _ => none }

/-- `table_arrays::delete_` (core.hpp:1091-1100): deallocation with allocator `al`; undefined if the memory was
allocated by a different one. -/
def delete_ (al : Nat) (a : Arrays K V) : Option Unit :=
  if a.hasElems = true ∧ a.al ≠ al then none else some ()

/-- Replace group `g`. -/
def setGrp (a : Arrays K V) (g : Nat) (G : Group) : Arrays K V :=
  { a with grp := fun i => if i = g then G else a.grp i }

/-- Replace the content of a slot of the element array. -/
def setSlot (a : Arrays K V) (g j : Nat) (v : Option (K × V)) : Arrays K V :=
  { a with slot := fun i l => if i = g ∧ l = j then v else a.slot i l }

/-- All slot positions of `2^k` groups in memory order. -/
def allPos (k : Nat) : List Pos := (List.range (2 ^ k)).flatMap (fun g => (List.range N).map (fun j => (g, j)))

/-- Positions visited by `for_all_elements[_while]` (core.hpp:2058-2076) using `match_really_occupied`
(core.hpp:1958-1962): occupied slots except the sentinel slot of the last group, in memory order; none if there are no
elements. -/
def occ (a : Arrays K V) : List Pos :=
  if a.hasElems then
    (allPos a.k).filter (fun p => (a.grp p.1).md p.2 != 0 && !(decide (p.1 = 2 ^ a.k - 1) && decide (p.2 = N - 1)))
  else []

/-- Inner loop of `find` over the slots of the match mask (core.hpp:1734-1743): compare keys; reading a slot without a
live element is UB. -/
def scanSlots (slot : Nat → Option (K × V)) (p : K → Bool) : List Nat → Option (Option Nat)
  | [] => some none
  | j :: js =>
    match slot j with
    | none => none
    | some x => if p x.1 then some (some j) else scanSlots slot p js

/-- Outer loop of `find(x,pos0,hash)` (core.hpp:1720-1755) over the probe sequence. -/
def findLoop (a : Arrays K V) (p : K → Bool) (h : Nat) : List Nat → Option (Option Pos)
  | [] => some none
  | g :: gs =>
    match scanSlots (a.slot g) p ((a.grp g).matchSlots h) with
    | none => none
    | some (some j) => some (some (g, j))
    | some none => if (a.grp g).isNotOverflowed h then some none else findLoop a p h gs

/-- Loop of `nosize_unchecked_emplace_at` (core.hpp:2366-2385): first group with an available slot gets the element in
its lowest available slot; full groups get marked as overflowed. Running off the probe sequence means the C++ loop never
ends; writing to the dummy arrays or constructing over a live element is UB. -/
def emplaceLoop (h : Nat) (x : K × V) : Arrays K V → List Nat → Option (Arrays K V × Pos)
  | _, [] => none
  | a, g :: gs =>
    match (a.grp g).availSlots with
    | j :: _ =>
      if a.hasElems = true ∧ (a.slot g j).isNone then
        some ((a.setSlot g j (some x)).setGrp g ((a.grp g).set j h), (g, j))
      else none
    | [] => if a.hasElems = true then emplaceLoop h x (a.setGrp g ((a.grp g).markOverflow h)) gs else none

/-- `nosize_unchecked_emplace_at(arrays_,position_for(hash,arrays_),hash,x)` (core.hpp:2366-2385). -/
def emplace (a : Arrays K V) (h : Nat) (x : K × V) : Option (Arrays K V × Pos) :=
  emplaceLoop h x a (probeSeq a.mask (a.posFor h))

/-- The loop of `unchecked_rehash` (core.hpp:2291-2293) with `nosize_transfer_element` (core.hpp:2331-2364): each element
of the old arrays, in memory order, is hashed again and put into the new arrays. -/
def transferAll (f : Fns K) (src : Arrays K V) : List Pos → Arrays K V → Option (Arrays K V)
  | [], dst => some dst
  | p :: ps, dst =>
    match src.slot p.1 p.2 with
    | none => none
    | some x =>
      match dst.emplace (f.hash x.1) x with
      | none => none
      | some (dst', _) => transferAll f src ps dst'

/-- Live elements in iteration order. Slots without live element are dropped, which for reachable tables never
happens. -/
def contents (a : Arrays K V) : List (K × V) := a.occ.filterMap (fun p => a.slot p.1 p.2)

end Arrays

namespace Table
open Arrays

/-- `capacity()` (core.hpp:1809-1812), `bucket_count()` of the public containers. -/
def capacity (t : Table K V) : Nat := t.arr.capacity

/-- `initial_max_load()` (core.hpp:1558-1569). -/
def initMl (a : Arrays K V) : Nat := initialMaxLoad a.capacity

/-- Constructor from a capacity (core.hpp:1469-1475). -/
def mk_ (cfg : Cfg) (f : Fns K) (al n : Nat) : Table K V :=
  let a : Arrays K V := Arrays.new_ cfg al n
  { fns := f, al := al, arr := a, ml := initMl a, size := 0 }

/-- Elements in iteration order. -/
def contents (t : Table K V) : List (K × V) := t.arr.contents

/-- `find(x)` (core.hpp:1707-1755). -/
def find (t : Table K V) (x : K) : Option (Option Pos) :=
  findLoop t.arr (t.fns.eq x) (t.fns.hash x) (probeSeq t.arr.mask (t.arr.posFor (t.fns.hash x)))

/-- `unchecked_emplace_at(position_for(hash),hash,x)` (core.hpp:1964-1972) and `unchecked_insert`
(core.hpp:2324-2329). -/
def uncheckedInsert (t : Table K V) (x : K × V) : Option (Table K V × Pos) :=
  match t.arr.emplace (t.fns.hash x.1) x with
  | none => none
  | some (a, p) => some ({ t with arr := a, size := t.size + 1 }, p)

/-- `unchecked_rehash(new_arrays_)` (core.hpp:2287-2322) without exceptions: transfer, free the old arrays, install the
new ones, reset the maximum load. -/
def uncheckedRehash (t : Table K V) (new : Arrays K V) : Option (Table K V) :=
  match transferAll t.fns t.arr t.arr.occ new with
  | none => none
  | some a =>
    match t.arr.delete_ t.al with
    | none => none
    | some _ => some { t with arr := a, ml := initMl a }

/-- `unchecked_emplace_with_rehash` (core.hpp:1985-2001) after the new arrays have been allocated: the new element goes
into the new arrays first, then the old elements are transferred. -/
def emplaceIntoNew (t : Table K V) (x : K × V) (new : Arrays K V) : Option (Table K V × Pos) :=
  match new.emplace (t.fns.hash x.1) x with
  | none => none
  | some (a, p) =>
    match t.uncheckedRehash a with
    | none => none
    | some t' => some ({ t' with size := t'.size + 1 }, p)

/-- `unchecked_emplace_with_rehash` (core.hpp:1980-2002). -/
def emplaceWithRehash (cfg : Cfg) (t : Table K V) (x : K × V) : Option (Table K V × Pos) :=
  t.emplaceIntoNew x (Arrays.new_ cfg t.al (growthRequest t.size))

/-- `table::emplace_impl` (table.hpp:628-655). -/
def emplaceImpl (cfg : Cfg) (t : Table K V) (x : K × V) : Option (Table K V × Pos × Bool) :=
  match t.find x.1 with
  | none => none
  | some (some p) => some (t, p, false)
  | some none =>
    if t.size < t.ml then
      (t.uncheckedInsert x).map (fun r => (r.1, r.2, true))
    else
      (t.emplaceWithRehash cfg x).map (fun r => (r.1, r.2, true))

/-- `erase(pg,pos,p)`: `destroy_element` + `recover_slot` (core.hpp:1693-1704, 2260-2274). Erasing a slot without live
element is UB; wrap-around of the unsigned counters is reported as a fault. -/
def eraseAt (t : Table K V) (p : Pos) : Option (Table K V) :=
  match t.arr.slot p.1 p.2 with
  | none => none
  | some _ =>
    let G := t.arr.grp p.1
    let d := if G.maybeCausedOverflow p.2 then 1 else 0
    if t.arr.hasElems = true ∧ d ≤ t.ml ∧ 1 ≤ t.size then
      some { t with arr := (t.arr.setSlot p.1 p.2 none).setGrp p.1 (G.reset p.2), ml := t.ml - d, size := t.size - 1 }
    else none

/-- `table::erase(key)` (table.hpp:484-496). -/
def eraseKey (t : Table K V) (x : K) : Option (Table K V × Nat) :=
  match t.find x with
  | none => none
  | some none => some (t, 0)
  | some (some p) => (t.eraseAt p).map (fun t' => (t', 1))

/-- `clear()` (core.hpp:1786-1804): destroys every element, wipes all metadata including overflow bytes, restores the
sentinel, maximum load and size; does nothing for the dummy arrays. -/
def clear (t : Table K V) : Table K V :=
  if t.arr.hasElems then
    let a := { t.arr with
      grp := fun g => if g = 2 ^ t.arr.k - 1 then Group.empty.setSentinel else Group.empty,
      slot := fun _ _ => none }
    { t with arr := a, ml := initMl a, size := 0 }
  else t

/-- `rehash(n)` (core.hpp:1824-1831). -/
def rehash (cfg : Cfg) (t : Table K V) (n : Nat) : Option (Table K V) :=
  let m := slotsFor t.size
  let n := if m > n then m else n
  let n := if n ≠ 0 then capacityFor n else n
  if n ≠ t.capacity then t.uncheckedRehash (Arrays.new_ cfg t.al n) else some t

/-- `reserve(n)` (core.hpp:1833-1836). -/
def reserve (cfg : Cfg) (t : Table K V) (n : Nat) : Option (Table K V) := t.rehash cfg (slotsFor n)

/-- `noshrink_reserve(n)` (core.hpp:2004-2020), called on an empty container. -/
def noshrinkReserve (cfg : Cfg) (t : Table K V) (n : Nat) : Option (Table K V) :=
  if n ≠ 0 then
    let n := capacityFor (slotsFor n)
    if n > t.capacity then
      match t.arr.delete_ t.al with
      | none => none
      | some _ =>
        let a : Arrays K V := Arrays.new_ cfg t.al n
        some { t with arr := a, ml := initMl a }
    else some t
  else some t

/-- The loop `x.for_all_elements([this](p){unchecked_insert(*p);})` (core.hpp:1544-1546, 1674-1676, 2175-2177). -/
def insertAll (src : Arrays K V) : List Pos → Table K V → Option (Table K V)
  | [], t => some t
  | p :: ps, t =>
    match src.slot p.1 p.2 with
    | none => none
    | some x =>
      match t.uncheckedInsert x with
      | none => none
      | some (t', _) => insertAll src ps t'

/-- `copy_elements_from` / `fast_copy_elements_from` (core.hpp:2167-2189) and the array copies (core.hpp:2191-2258): with
equal masks, element slots and metadata (including overflow bytes), `ml` and `size` are copied verbatim, provided both
have elements; otherwise element-wise insertion. -/
def copyElementsFrom (t x : Table K V) : Option (Table K V) :=
  if t.arr.mask = x.arr.mask then
    if t.arr.hasElems = true ∧ x.arr.hasElems = true then
      some { t with arr := { t.arr with grp := x.arr.grp, slot := x.arr.slot }, ml := x.ml, size := x.size }
    else some t
  else insertAll x.arr x.arr.occ t

/-- Copy constructor with allocator `al` (core.hpp:1520-1524; plain copy construction, 1495-1496, passes
`select_on_container_copy_construction`). -/
def copyCtor (cfg : Cfg) (x : Table K V) (al : Nat) : Option (Table K V) :=
  (Table.mk_ cfg x.fns al (slotsFor x.size)).copyElementsFrom x

/-- Move constructor (core.hpp:1498-1518): steals the arrays; the source gets empty arrays. The moved-from function
objects of the source are taken to be unchanged (the standard leaves them valid). Result: (new table, source). -/
def moveCtor (cfg : Cfg) (x : Table K V) : Table K V × Table K V :=
  let ah : Arrays K V := Arrays.new_ cfg x.al 0
  (x, { x with arr := ah, ml := initMl ah, size := 0 })

/-- Allocator-extended move constructor (core.hpp:1526-1548). Result: (new table, source). -/
def moveCtorAlloc (cfg : Cfg) (x : Table K V) (al : Nat) : Option (Table K V × Table K V) :=
  let t : Table K V := Table.mk_ cfg x.fns al 0
  if t.al = x.al then
    some ({ t with arr := x.arr, ml := x.ml, size := x.size }, { x with arr := t.arr, ml := t.ml, size := t.size })
  else
    match t.reserve cfg x.size with
    | none => none
    | some t1 =>
      match insertAll x.arr x.arr.occ t1 with
      | none => none
      | some t2 => some (t2, x.clear)

/-- Destructor (core.hpp:1550-1556): destroys elements, frees the arrays. -/
def destroy (t : Table K V) : Option Unit := t.arr.delete_ t.al

/-- Copy assignment from a different object (core.hpp:1576-1614). -/
def copyAssign (cfg : Cfg) (t x : Table K V) : Option (Table K V) :=
  let t := t.clear
  let t := { t with fns := x.fns }
  let step1 : Option (Table K V) :=
    if cfg.pocca then
      if t.al ≠ x.al then
        let ah : Arrays K V := Arrays.new_ cfg x.al (slotsFor x.size)
        match t.arr.delete_ t.al with
        | none => none
        | some _ => some { t with arr := ah, ml := initMl ah, al := x.al }
      else some { t with al := x.al }
    else some t
  match step1 with
  | none => none
  | some t =>
    match t.noshrinkReserve cfg x.size with
    | none => none
    | some t => t.copyElementsFrom x

/-- Move assignment from a different object (core.hpp:1621-1682). Result: (target, source). -/
def moveAssign (cfg : Cfg) (t x : Table K V) : Option (Table K V × Table K V) :=
  let t := t.clear
  if cfg.pocma = true ∨ t.al = x.al then
    let ah : Arrays K V := Arrays.new_ cfg x.al 0
    match t.arr.delete_ t.al with
    | none => none
    | some _ =>
      some ({ fns := x.fns, al := if cfg.pocma then x.al else t.al, arr := x.arr, ml := x.ml, size := x.size },
            { fns := t.fns, al := x.al, arr := ah, ml := initMl ah, size := 0 })
  else
    let t1 := { t with fns := x.fns }
    let x1 := { x with fns := t.fns }
    match t1.noshrinkReserve cfg x.size with
    | none => none
    | some t2 =>
      match insertAll x.arr x.arr.occ t2 with
      | none => none
      | some t3 => some (t3, x1.clear)

/-- `swap` (core.hpp:1761-1784). Allocators are exchanged only if they propagate; otherwise they must be equal
(a precondition, checked by an assertion). Result: (this, other). -/
def swap (cfg : Cfg) (t x : Table K V) : Option (Table K V × Table K V) :=
  if cfg.pocs then some (x, t)
  else if t.al = x.al then some ({ x with al := t.al }, { t with al := x.al })
  else none

/-- The loop of `erase_if` (table.hpp:571-578). -/
def eraseIfLoop (pr : K × V → Bool) : List Pos → Table K V → Option (Table K V)
  | [], t => some t
  | p :: ps, t =>
    match t.arr.slot p.1 p.2 with
    | none => none
    | some x =>
      if pr x then
        match t.eraseAt p with
        | none => none
        | some t' => eraseIfLoop pr ps t'
      else eraseIfLoop pr ps t

/-- `erase_if(x,pr)` (table.hpp:563-579): removes matching elements; returns `s-x.size()`. -/
def eraseIf (t : Table K V) (pr : K × V → Bool) : Option (Table K V × Nat) :=
  (eraseIfLoop pr t.arr.occ t).map (fun t' => (t', t.size - t'.size))

/-- The loop of `merge` (table.hpp:523-531), source different from target: each element of the source is inserted into
the target and erased from the source unless an equivalent one was there. -/
def mergeLoop (cfg : Cfg) : List Pos → Table K V → Table K V → Option (Table K V × Table K V)
  | [], t, x => some (t, x)
  | p :: ps, t, x =>
    match x.arr.slot p.1 p.2 with
    | none => none
    | some e =>
      match t.emplaceImpl cfg e with
      | none => none
      | some (t', _, true) =>
        match x.eraseAt p with
        | none => none
        | some x' => mergeLoop cfg ps t' x'
      | some (t', _, false) => mergeLoop cfg ps t' x

/-- `merge(x)` (table.hpp:523-531). -/
def merge (cfg : Cfg) (t x : Table K V) : Option (Table K V × Table K V) := mergeLoop cfg x.arr.occ t x

/-- `x.merge(x)` (table.hpp:523-531 with both names the same object). -/
def mergeSelfLoop (cfg : Cfg) : List Pos → Table K V → Option (Table K V)
  | [], t => some t
  | p :: ps, t =>
    match t.arr.slot p.1 p.2 with
    | none => none
    | some e =>
      match t.emplaceImpl cfg e with
      | none => none
      | some (t', _, true) =>
        match t'.eraseAt p with
        | none => none
        | some t'' => mergeSelfLoop cfg ps t''
      | some (t', _, false) => mergeSelfLoop cfg ps t'

/-- Loop of `operator==` (core.hpp:1870-1881). `veq` is `==` on whole values. -/
def equalLoop (veq : K × V → K × V → Bool) (x y : Table K V) : List Pos → Option Bool
  | [] => some true
  | p :: ps =>
    match x.arr.slot p.1 p.2 with
    | none => none
    | some e =>
      match y.find e.1 with
      | none => none
      | some none => some false
      | some (some q) =>
        match y.arr.slot q.1 q.2 with
        | none => none
        | some e' => if veq e e' then equalLoop veq x y ps else some false

/-- `operator==` (core.hpp:1870-1881). -/
def equal (veq : K × V → K × V → Bool) (x y : Table K V) : Option Bool :=
  if x.size = y.size then equalLoop veq x y x.arr.occ else some false

/-- The element at a position: dereferencing an iterator; UB if there is none. -/
def deref (t : Table K V) (p : Pos) : Option (K × V) := t.arr.slot p.1 p.2

/-- Assignment through `it->second = v` (used by `insert_or_assign` and `operator[]`,
unordered_flat_map.hpp / unordered_node_map.hpp). -/
def assignAt (t : Table K V) (p : Pos) (v : V) : Option (Table K V) :=
  match t.arr.slot p.1 p.2 with
  | none => none
  | some x => some { t with arr := t.arr.setSlot p.1 p.2 (some (x.1, v)) }

end Table
end Foa

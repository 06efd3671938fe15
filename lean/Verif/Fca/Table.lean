/-
Model of `boost::unordered::detail::table`, the engine of unordered_map/set (unique keys) and unordered_multimap/multiset
(equivalent keys).
Source: /repo/include/boost/unordered/detail/implementation.hpp.

Conventions
* Outer `none` = undefined behaviour or non-termination (see `Verif/Fca/Gba.lean`).
* Elements are (key, payload) pairs; payload is `Unit` for sets. To talk about node identity let the payload include an
  address.
* `mlf_` is a binary32 value (`Verif/Float32.lean`) or infinity (`none`). The reduction of a `float` above 2^64 to `size_t`
  saturates (in `reserve_for_insert` the C++ conversion is undefined there; it takes more than 2^53 elements).
* Nodes hanging from an array come from the array's allocator; freeing one with another allocator is UB.
* Exceptions are not raised here; see `Verif/Fca/Exceptions.lean`.
-/
import Verif.Fca.Gba
import Verif.Float32
import Verif.Spec

namespace Fca

/-- Hash function and key equality (implementation.hpp:857-969, `functions`). -/
structure Fns (K : Type) where
  hash : K → Nat
  eq : K → K → Bool

/-- `table` (implementation.hpp:1210-1270): `current_functions()`, `size_`, `mlf_`, `max_load_`, `buckets_` with its
allocator. -/
structure Table (K V : Type) where
  fns : Fns K
  al : Nat
  size : Nat
  mlf : Option Nat
  maxLoad : Nat
  b : Gba (K × V)

/-- an element iterator (implementation.hpp:996-1206): bucket iterator and node pointer; `none` is `end()` (null node) -/
abbrev It := Option (BIt × Nat)

/-- the float 1.0 -/
def one : Nat := F32.SC
/-- `minimum_max_load_factor = 1e-3f` (implementation.hpp:95) -/
def minMlf : Nat := F32.rnd 24 F32.SC 1000

/-- `SIZE_MAX` -/
def sizeMax : Nat := 2 ^ 64 - 1

/-- `double_to_size` (implementation.hpp:980-990) of `v/2^149`. -/
def doubleToSize (v : Nat) : Nat := if 2 ^ 64 * F32.SC ≤ v then sizeMax else v / F32.SC

/-- `min_buckets` (implementation.hpp:1811-1820). -/
def minBuckets (n : Nat) (mlf : Option Nat) : Nat :=
  let q := match mlf with
    | none => 0
    | some m => doubleToSize (F32.ceilN (F32.div (F32.ofNat n) m) * F32.SC)
  if q = 0 ∧ 0 < n then 1 else q

/-- `recalculate_max_load` (implementation.hpp:1366-1380): `double(mlf_)*double(bc)` rounded to 53 bits. -/
def maxLoadFor (mlf : Option Nat) (bc : Nat) : Nat :=
  if bc = 0 then 0
  else
    match mlf with
    | none => sizeMax
    | some m => doubleToSize (F32.rnd 53 (m * bc) 1)

/-- bucket count requested by `reserve_for_insert` (implementation.hpp:2747-2754). -/
def insertBuckets (n : Nat) (mlf : Option Nat) (bc : Nat) : Nat :=
  max (match mlf with
    | none => 1
    | some m => doubleToSize (F32.add one (F32.ceilN (F32.div (F32.ofNat n) m) * F32.SC))) (bc + 1)

namespace Gba
variable {α : Type}

/-- reading the node an iterator points to -/
def deref (a : Gba α) (it : BIt × Nat) : Option α :=
  match a.get it.1 with
  | none => none
  | some l => l[it.2]?

/-- element iterator `++` (implementation.hpp:1180-1187). -/
def incIt (a : Gba α) (it : BIt × Nat) : Option It :=
  match a.get it.1 with
  | none => none
  | some l =>
    if it.2 + 1 < l.length then some (some (it.1, it.2 + 1))
    else
      match a.inc it.1 with
      | none => none
      | some it' =>
        match a.get it' with
        | none => none
        | some [] => some none
        | some (_ :: _) => some (some (it', 0))

/-- element `begin()` when the table is not empty (implementation.hpp:1327-1335). -/
def beginIt (a : Gba α) : Option It :=
  match a.begin_ with
  | none => none
  | some it =>
    match a.get it with
    | none => none
    | some [] => some none
    | some (_ :: _) => some (some (it, 0))

/-- `for(;it!=end();++it)` collecting the elements, at most `fuel` rounds (more is reported as a fault) -/
def walk (a : Gba α) : Nat → It → Option (List α)
  | _, none => some []
  | 0, some _ => none
  | f + 1, some it =>
    match a.deref it, a.incIt it with
    | some x, some it' => (walk a f it').map (x :: ·)
    | _, _ => none

/-- Unlink the node at an iterator; also returns the node that followed it (`c_iterator next=pos; ++next;` then
`extract_node`; implementation.hpp:2245-2261, 2162-2167, 1545-1558). The node after it in the same bucket moves down one
index. -/
def extractIt (a : Gba α) (it : BIt × Nat) : Option (Gba α × α × It) :=
  match a.deref it, a.incIt it with
  | some x, some nx =>
    match a.extractNode it.1 it.2 with
    | none => none
    | some a' =>
      some (a', x, match nx with
        | none => none
        | some (b, j) => if b.p = it.1.p then some (b, j - 1) else some (b, j))
  | _, _ => none

/-- number of elements: all chains -/
def contents (a : Gba α) : List α := (List.range a.size).flatMap a.chain

end Gba

namespace Table
variable {K V : Type}

/-- `bucket_count()` (implementation.hpp:1276) -/
def bucketCount (t : Table K V) : Nat := t.b.size

/-- elements in bucket order (ghost) -/
def contents (t : Table K V) : List (K × V) := t.b.contents

/-- bucket iterator for a hash value: `buckets_.at(buckets_.position(h))` -/
def bucketFor (t : Table K V) (h : Nat) : BIt := t.b.at_ (t.b.position h)

/-- constructor with `n` buckets (implementation.hpp:1398-1404). -/
def mk_ (fns : Fns K) (n al : Nat) : Table K V :=
  { fns := fns, al := al, size := 0, mlf := some one, maxLoad := maxLoadFor (some one) (Gba.new n al : Gba (K × V)).size,
    b := Gba.new n al }

/-- `begin()` (implementation.hpp:1327-1335). -/
def begin_ (t : Table K V) : Option It := if t.size = 0 then some none else t.b.beginIt

/-- all elements, as seen by `for(it=begin();it!=end();++it)` -/
def iterate (t : Table K V) : Option (List (K × V)) := t.begin_.bind (t.b.walk t.size)

/-- `find_node_impl` (implementation.hpp:1721-1734): index of the first node with an equivalent key. -/
def findImpl (t : Table K V) (k : K) (itb : BIt) : Option (Option Nat) :=
  if itb.p = t.b.size then some none
  else
    match t.b.get itb with
    | none => none
    | some l => some (l.findIdx? (fun e => t.fns.eq k e.1))

/-- `find` / `transparent_find` (implementation.hpp:1747-1768). -/
def find (t : Table K V) (k : K) : Option It :=
  if 0 < t.size then
    let itb := t.bucketFor (t.fns.hash k)
    match t.b.get itb with
    | none => none
    | some l =>
      match l.findIdx? (fun e => t.fns.eq k e.1) with
      | none => some none
      | some i => some (some (itb, i))
  else some none

/-- `find_node(k)` (implementation.hpp:1736-1740). -/
def findNode (t : Table K V) (k : K) : Option It :=
  let itb := t.bucketFor (t.fns.hash k)
  match t.findImpl k itb with
  | none => none
  | some none => some none
  | some (some i) => some (some (itb, i))

/-- `delete_node` (implementation.hpp:1535-1543): destroy and deallocate with the table's allocator. -/
def deleteNode (t : Table K V) : Option Unit := if t.b.mal ≠ t.al then none else some ()

/-- moving nodes one by one into another array: `transfer_node` (implementation.hpp:1802-1809), also the body of
`copy_buckets`, `move_assign_buckets`, `move_construct_buckets` for unique keys: insert at the front of the bucket given by
the hash -/
def fillFront (fns : Fns K) : List (K × V) → Gba (K × V) → Option (Gba (K × V))
  | [], nb => some nb
  | x :: xs, nb =>
    match nb.insertNode (nb.at_ (nb.position (fns.hash x.1))) x with
    | none => none
    | some nb' => fillFront fns xs nb'

/-- `rehash_impl` (implementation.hpp:2759-2801) when nothing throws: transfer the nodes of buckets 0,1,… front to back, then
free the old arrays. -/
def rehashImpl (t : Table K V) (n : Nat) : Option (Table K V) :=
  match fillFront t.fns t.b.contents (Gba.new n t.al) with
  | none => none
  | some nb =>
    match t.b.dealloc t.al with
    | none => none
    | some _ => some { t with b := nb, maxLoad := maxLoadFor t.mlf nb.size }

/-- `rehash` (implementation.hpp:2729-2737). -/
def rehash (t : Table K V) (n : Nat) : Option (Table K V) :=
  let nb := Gba.bucketCountFor (max (minBuckets t.size t.mlf) n)
  if nb ≠ t.bucketCount then t.rehashImpl nb else some t

/-- `reserve` (implementation.hpp:2740-2744). -/
def reserve (t : Table K V) (n : Nat) : Option (Table K V) := t.rehash (minBuckets n t.mlf)

/-- `reserve_for_insert` (implementation.hpp:2747-2756). -/
def reserveForInsert (t : Table K V) (n : Nat) : Option (Table K V) :=
  if t.maxLoad < n then t.rehashImpl (insertBuckets n t.mlf t.bucketCount) else some t

/-- growth test of the single-element insertions: `if(size_+1>max_load_) reserve(size_+1)` -/
def growForOne (t : Table K V) : Option (Table K V) := if t.maxLoad < t.size + 1 then t.reserve (t.size + 1) else some t

/-- `max_load_factor(z)` (implementation.hpp:1382-1387). `none` = infinity. -/
def setMlf (t : Table K V) (z : Option Nat) : Table K V :=
  let m := z.map (max minMlf)
  { t with mlf := m, maxLoad := maxLoadFor m t.bucketCount }

/-! ### unique keys -/

/-- `emplace_unique`, `try_emplace_unique`, `insert_range_unique` loop body (implementation.hpp:1866-1960, 1962-2030,
2180-2212): returns the position of the element and whether it was inserted. -/
def emplaceUnique (t : Table K V) (x : K × V) : Option (Table K V × (BIt × Nat) × Bool) :=
  let h := t.fns.hash x.1
  let itb := t.bucketFor h
  match t.findImpl x.1 itb with
  | none => none
  | some (some i) => some (t, (itb, i), false)
  | some none =>
    match t.growForOne with
    | none => none
    | some t1 =>
      let itb1 := t1.bucketFor h
      match t1.b.insertNode itb1 x with
      | none => none
      | some b' => some ({ t1 with b := b', size := t1.size + 1 }, (itb1, 0), true)

/-- `emplace_hint_unique`, `try_emplace_hint_unique` (implementation.hpp:1855-1863, 1893-1921, 1994-2001, 2033-2041): use the hint if its key is
equivalent. -/
def emplaceHintUnique (t : Table K V) (hint : It) (x : K × V) : Option (Table K V × (BIt × Nat)) :=
  match hint with
  | none => (t.emplaceUnique x).map (fun r => (r.1, r.2.1))
  | some p =>
    match t.b.deref p with
    | none => none
    | some e => if t.fns.eq x.1 e.1 then some (t, p) else (t.emplaceUnique x).map (fun r => (r.1, r.2.1))

/-- writing the payload of a node: `p->value().second=obj` -/
def assignAt (t : Table K V) (it : BIt × Nat) (v : V) : Option (Table K V) :=
  match t.b.deref it with
  | none => none
  | some e => some { t with b := { t.b with chain := up t.b.chain it.1.p ((t.b.chain it.1.p).set it.2 (e.1, v)) } }

/-- `insert_or_assign_unique` (implementation.hpp:2044-2070). -/
def insertOrAssign (t : Table K V) (k : K) (v : V) : Option (Table K V × (BIt × Nat) × Bool) :=
  match t.emplaceUnique (k, v) with
  | none => none
  | some (t', it, true) => some (t', it, true)
  | some (t', it, false) => (t'.assignAt it v).map (fun t'' => (t'', it, false))

/-- `move_insert_node_type_unique` (implementation.hpp:2073-2106) with a non-empty handle holding `x`; the result says whether
the node was taken. -/
def insertNodeUnique (t : Table K V) (x : K × V) : Option (Table K V × (BIt × Nat) × Bool) :=
  let h := t.fns.hash x.1
  let itb := t.bucketFor h
  match t.findImpl x.1 itb with
  | none => none
  | some (some i) => some (t, (itb, i), false)
  | some none =>
    match t.reserveForInsert (t.size + 1) with
    | none => none
    | some t1 =>
      let itb1 := t1.bucketFor h
      match t1.b.insertNode itb1 x with
      | none => none
      | some b' => some ({ t1 with b := b', size := t1.size + 1 }, (itb1, 0), true)

/-- loop of `merge_unique` (implementation.hpp:2155-2173): `fuel` bounds the number of rounds. -/
def mergeLoop : Nat → Table K V → Table K V → It → Option (Table K V × Table K V)
  | _, t, o, none => some (t, o)
  | 0, _, _, some _ => none
  | f + 1, t, o, some pos =>
    match o.b.deref pos with
    | none => none
    | some x =>
      let itb := t.bucketFor (t.fns.hash x.1)
      match t.findImpl x.1 itb with
      | none => none
      | some (some _) =>
        match o.b.incIt pos with
        | none => none
        | some pos' => mergeLoop f t o pos'
      | some none =>
        match o.b.extractIt pos with
        | none => none
        | some (ob, y, pos') =>
          match t.b.insertNode itb y with
          | none => none
          | some b' => mergeLoop f { t with b := b', size := t.size + 1 } { o with b := ob, size := o.size - 1 } pos'

/-- `merge_unique` (implementation.hpp:2142-2174) from a different table with an equal allocator. -/
def mergeUnique (t o : Table K V) : Option (Table K V × Table K V) :=
  if t.al ≠ o.al then none
  else if o.size = 0 then some (t, o)
  else
    match t.reserveForInsert (t.size + o.size) with
    | none => none
    | some t1 =>
      match o.begin_ with
      | none => none
      | some it => mergeLoop o.size t1 o it

/-- `merge_unique` with itself: every key is found, so the loop only walks. -/
def mergeSelf (t : Table K V) : Option (Table K V) :=
  if t.size = 0 then some t
  else
    match t.reserveForInsert (t.size + t.size) with
    | none => none
    | some t1 =>
      match t1.iterate with
      | none => none
      | some l =>
        if l.all (fun x => match t1.findNode x.1 with
          | some (some _) => true
          | _ => false) then some t1 else none

/-- `erase_node` (implementation.hpp:2245-2261). -/
def eraseNode (t : Table K V) (it : BIt × Nat) : Option (Table K V × It) :=
  match t.b.extractIt it with
  | none => none
  | some (b', _, nx) =>
    match t.deleteNode with
    | none => none
    | some _ => if t.size = 0 then none else some ({ t with b := b', size := t.size - 1 }, nx)

/-- `extract_by_key_impl` / `extract_by_iterator_unique` (implementation.hpp:1788-1799, 2215-2224): unlink and hand out the
node. -/
def extractAt (t : Table K V) (it : BIt × Nat) : Option (Table K V × (K × V)) :=
  match t.b.deref it with
  | none => none
  | some x =>
    match t.b.extractNode it.1 it.2 with
    | none => none
    | some b' => if t.size = 0 then none else some ({ t with b := b', size := t.size - 1 }, x)

/-- `erase_key_unique_impl` (implementation.hpp:2230-2244). -/
def eraseKeyUnique (t : Table K V) (k : K) : Option (Table K V × Nat) :=
  let itb := t.bucketFor (t.fns.hash k)
  if 0 < t.size then
    match t.b.get itb with
    | none => none
    | some l =>
      match l.findIdx? (fun e => t.fns.eq k e.1) with
      | none => some (t, 0)
      | some i =>
        match t.b.extractNode itb i, t.deleteNode with
        | some b', some _ => some ({ t with b := b', size := t.size - 1 }, 1)
        | _, _ => none
  else some (t, 0)

/-- loop of `erase_if` (implementation.hpp:2927-2944): returns the elements seen -/
def eraseIfLoop (pr : K × V → Bool) : Nat → Table K V → It → Option (Table K V)
  | _, t, none => some t
  | 0, _, some _ => none
  | f + 1, t, some it =>
    match t.b.deref it with
    | none => none
    | some x =>
      if pr x then
        match t.eraseNode it with
        | none => none
        | some (t', nx) => eraseIfLoop pr f t' nx
      else
        match t.b.incIt it with
        | none => none
        | some nx => eraseIfLoop pr f t nx

/-- `erase_if(c,pred)`: the number of erased elements is the difference of sizes. -/
def eraseIf (t : Table K V) (pr : K × V → Bool) : Option (Table K V × Nat) :=
  match t.begin_ with
  | none => none
  | some it => (eraseIfLoop pr t.size t it).map (fun t' => (t', t.size - t'.size))

/-- loop of `clear_impl` over one bucket: `while(*pp) extract_node_after(itb,pp)` (implementation.hpp:2713-2717) -/
def clearBucket : Nat → Table K V → BIt → Option (Table K V)
  | 0, t, itb =>
    match t.b.get itb with
    | some [] => some t
    | _ => none
  | f + 1, t, itb =>
    match t.b.get itb with
    | none => none
    | some [] => some t
    | some (_ :: _) =>
      match t.b.extractNode itb 0, t.deleteNode with
      | some b', some _ => if t.size = 0 then none else clearBucket f { t with b := b', size := t.size - 1 } itb
      | _, _ => none

/-- loop of `clear_impl` (implementation.hpp:2708-2720); `fuel` bounds the number of buckets -/
def clearLoop : Nat → Table K V → BIt → Option (Table K V)
  | 0, t, itb => if itb.p = t.b.size then some t else none
  | f + 1, t, itb =>
    if itb.p = t.b.size then some t
    else
      match t.b.inc itb with
      | none => none
      | some nx =>
        match clearBucket t.size t itb with
        | none => none
        | some t' => clearLoop f t' nx

/-- `clear_impl` (implementation.hpp:2706-2721). -/
def clear (t : Table K V) : Option (Table K V) :=
  match t.b.begin_ with
  | none => none
  | some itb => clearLoop t.b.size t itb

/-- loop of `delete_buckets` (implementation.hpp:1547-1555) -/
def deleteLoop : Nat → Table K V → It → Option (Table K V)
  | _, t, none => some t
  | 0, _, some _ => none
  | f + 1, t, some it =>
    match t.eraseNode it with
    | none => none
    | some (t', nx) => deleteLoop f t' nx

/-- `delete_buckets` (implementation.hpp:1545-1558): delete all nodes, then `buckets_.clear()`. `max_load_` is not touched. -/
def deleteBuckets (t : Table K V) : Option (Table K V) :=
  match t.begin_ with
  | none => none
  | some it =>
    match deleteLoop t.size t it with
    | none => none
    | some t' =>
      match t'.b.dealloc t'.al with
      | none => none
      | some _ => some { t' with b := Gba.null t'.al }

/-- destructor (implementation.hpp:1533). -/
def destroy (t : Table K V) : Option Unit := t.deleteBuckets.map (fun _ => ())

/-- `swap` (implementation.hpp:1443-1485): buckets with their allocators (if `pocs`), sizes, load data, functions. Requires
equal allocators unless `pocs`. -/
def swap (pocs : Bool) (t o : Table K V) : Option (Table K V × Table K V) :=
  if pocs = false ∧ t.al ≠ o.al then none
  else some ({ o with al := if pocs then o.al else t.al }, { t with al := if pocs then t.al else o.al })

/-- move constructor (implementation.hpp:1413-1419): the source is left with no buckets. -/
def moveCtor (x : Table K V) : Table K V × Table K V :=
  (x, { x with size := 0, maxLoad := 0, b := Gba.null x.al })

/-- `move_buckets_from` (implementation.hpp:1490-1499) into a table whose arrays are `t.b` (freed first). -/
def moveBucketsFrom (t x : Table K V) : Option (Table K V × Table K V) :=
  match t.b.dealloc t.al with
  | none => none
  | some _ => some ({ t with b := x.b, size := x.size, maxLoad := x.maxLoad },
      { x with size := 0, maxLoad := 0, b := Gba.null x.al })

/-- elements after having been moved from: keys stay in a map, change in a set; `mv` is what a move leaves behind -/
def movedFrom (mv : K × V → K × V) (x : Table K V) : Table K V :=
  { x with b := { x.b with chain := fun b => (x.b.chain b).map mv } }

/-- move constructor with allocator: `table(x,a,m)` then `move_construct_buckets(x)` (implementation.hpp:1421-1427,
1502-1534). With unequal allocators the elements are moved one by one and the source keeps the moved-from elements. -/
def moveCtorAlloc (mv : K × V → K × V) (x : Table K V) (a : Nat) : Option (Table K V × Table K V) :=
  let t : Table K V := {
    fns := x.fns, al := a, size := 0, mlf := x.mlf,
    maxLoad := maxLoadFor x.mlf (Gba.new x.bucketCount a : Gba (K × V)).size, b := Gba.new x.bucketCount a }
  if a = x.al then t.moveBucketsFrom x
  else if x.size = 0 then some (t, x)
  else
    match t.reserve x.size, x.iterate with
    | some t1, some l =>
      match fillFront t1.fns l t1.b with
      | none => none
      | some b' => some ({ t1 with b := b', size := t1.size + l.length }, movedFrom mv x)
    | _, _ => none

/-! ### equivalent keys -/

/-- insertion next to the first equivalent node of its bucket, or at the front (`find_node_impl` then `insert_node_hint`) -/
def fillEquiv (fns : Fns K) : List (K × V) → Gba (K × V) → Option (Gba (K × V))
  | [], nb => some nb
  | x :: xs, nb =>
    let itb := nb.at_ (nb.position (fns.hash x.1))
    match nb.get itb with
    | none => none
    | some l =>
      match nb.insertNodeHint itb x (l.findIdx? (fun e => fns.eq x.1 e.1)) with
      | none => none
      | some nb' => fillEquiv fns xs nb'

/-- `copy_buckets` (implementation.hpp:2305-2324, 2648-2670). -/
def copyBuckets (uniq : Bool) (t src : Table K V) : Option (Table K V) :=
  match t.reserveForInsert src.size, src.iterate with
  | some t1, some l =>
    match (if uniq then fillFront t1.fns l t1.b else fillEquiv t1.fns l t1.b) with
    | none => none
    | some b' => some { t1 with b := b', size := t1.size + l.length }
  | _, _ => none

/-- copy constructor with allocator (implementation.hpp:1406-1411; unordered_map.hpp:1440-1465, 2050-2070). -/
def copyCtor (uniq : Bool) (x : Table K V) (a : Nat) : Option (Table K V) :=
  let t : Table K V := {
    fns := x.fns, al := a, size := 0, mlf := x.mlf,
    maxLoad := maxLoadFor x.mlf (Gba.new x.size a : Gba (K × V)).size, b := Gba.new x.size a }
  if x.size ≠ 0 then t.copyBuckets uniq x else some t

/-- `assign`, allocator not propagated (implementation.hpp:1581-1601): grow with the old functions, clear, switch functions,
copy. -/
def assignSame (uniq : Bool) (t x : Table K V) : Option (Table K V) :=
  let t0 := { t with mlf := x.mlf, maxLoad := maxLoadFor x.mlf t.bucketCount }
  match t0.reserveForInsert x.size with
  | none => none
  | some t1 =>
    match t1.clear with
    | none => none
    | some t2 => ({ t2 with fns := x.fns } : Table K V).copyBuckets uniq x

/-- `assign` (implementation.hpp:1569-1629). With a propagated unequal allocator `max_load_` is recomputed only if `reserve`
or `copy_buckets` rehash. -/
def assign (pocca uniq : Bool) (t x : Table K V) : Option (Table K V) :=
  if pocca = true ∧ t.al ≠ x.al then
    let nb : Gba (K × V) := Gba.new x.size x.al
    match ({ t with fns := x.fns } : Table K V).deleteBuckets with
    | none => none
    | some t1 =>
      match ({ t1 with al := x.al, b := nb, mlf := x.mlf } : Table K V).reserve x.size with
      | none => none
      | some t2 => if x.size ≠ 0 then t2.copyBuckets uniq x else some t2
  else assignSame uniq t x

/-- `move_assign` (implementation.hpp:1632-1704). -/
def moveAssign (pocma uniq : Bool) (mv : K × V → K × V) (t x : Table K V) : Option (Table K V × Table K V) :=
  if pocma = true ∨ t.al = x.al then
    match ({ t with fns := x.fns } : Table K V).deleteBuckets with
    | none => none
    | some t1 =>
      -- POCMA: `reset_allocator`; the arrays are null at this point
      ({ t1 with al := x.al, mlf := x.mlf, b := Gba.null x.al } : Table K V).moveBucketsFrom x
  else
    let t0 := { t with mlf := x.mlf, maxLoad := maxLoadFor x.mlf t.bucketCount }
    match (if 0 < x.size then t0.reserveForInsert x.size else some t0) with
    | none => none
    | some t1 =>
      match t1.clear, x.iterate with
      | some t2, some l =>
        match (if uniq then fillFront x.fns l t2.b else fillEquiv x.fns l t2.b) with
        | none => none
        | some b' => some ({ t2 with fns := x.fns, b := b', size := t2.size + l.length }, movedFrom mv x)
      | _, _ => none

/-- `emplace_equiv` (implementation.hpp:2449-2465): note that the hint node is found before a possible rehash and used after
it; the node keeps its identity, the index in its (new) bucket is looked up again. -/
def emplaceEquiv (t : Table K V) (x : K × V) : Option (Table K V × (BIt × Nat)) :=
  let h := t.fns.hash x.1
  match t.findImpl x.1 (t.bucketFor h) with
  | none => none
  | some hint =>
    match t.growForOne with
    | none => none
    | some t1 =>
      let itb1 := t1.bucketFor h
      match t1.b.get itb1 with
      | none => none
      | some l1 =>
        -- the hint node after a rehash: rehashing may reverse the group, so any index holding an equivalent element is a
        -- possible position of that node; the model uses the last one after a rehash and the first one otherwise
        let hint1 : Option Nat := match hint with
          | none => none
          | some i =>
            if t.maxLoad < t.size + 1 ∧ t1.bucketCount ≠ t.bucketCount
            then (l1.reverse.findIdx? (fun e => t.fns.eq x.1 e.1)).map (fun j => l1.length - 1 - j)
            else some i
        match t1.b.insertNodeHint itb1 x hint1 with
        | none => none
        | some b' => some ({ t1 with b := b', size := t1.size + 1 }, (itb1, match hint1 with
            | none => 0
            | some i => i + 1))

/-- `emplace_hint_equiv` (implementation.hpp:2467-2496): a hint with an equivalent key determines the neighbour; after a
rehash the neighbour is looked for at the corresponding place as in `emplaceEquiv`. -/
def emplaceHintEquiv (t : Table K V) (hint : It) (x : K × V) : Option (Table K V × (BIt × Nat)) :=
  match hint with
  | none => t.emplaceEquiv x
  | some p =>
    match t.b.deref p with
    | none => none
    | some e =>
      if t.fns.eq x.1 e.1 then
        match t.growForOne with
        | none => none
        | some t1 =>
          if t.maxLoad < t.size + 1 ∧ t1.bucketCount ≠ t.bucketCount then
            -- the node `p` is the `r`-th of its group of `g`; after the rehash it is the `g-1-r`-th
            let itb1 := t1.bucketFor (t.fns.hash x.1)
            match t.b.get p.1, t1.b.get itb1 with
            | some l, some l1 =>
              match l.findIdx? (fun e => t.fns.eq x.1 e.1), l1.reverse.findIdx? (fun e => t.fns.eq x.1 e.1) with
              | some i0, some j0 =>
                let i1 := l1.length - 1 - j0 - (p.2 - i0)
                match t1.b.insertNodeHint itb1 x (some i1) with
                | none => none
                | some b' => some ({ t1 with b := b', size := t1.size + 1 }, (itb1, i1 + 1))
              | _, _ => none
            | _, _ => none
          else
            -- `itb` is the hint's bucket iterator, or the same bucket recomputed
            match t1.b.insertNodeHint p.1 x (some p.2) with
            | none => none
            | some b' => some ({ t1 with b := b', size := t1.size + 1 }, (p.1, p.2 + 1))
      else t.emplaceEquiv x

/-- `move_insert_node_type_equiv` (implementation.hpp:2512-2533) with a non-empty handle holding `x`. -/
def insertNodeEquiv (t : Table K V) (x : K × V) : Option (Table K V × (BIt × Nat)) :=
  match t.reserveForInsert (t.size + 1) with
  | none => none
  | some t1 =>
    let itb := t1.bucketFor (t1.fns.hash x.1)
    match t1.findImpl x.1 itb with
    | none => none
    | some hint =>
      match t1.b.insertNodeHint itb x hint with
      | none => none
      | some b' => some ({ t1 with b := b', size := t1.size + 1 }, (itb, match hint with
          | none => 0
          | some i => i + 1))

/-- `insert_range_equiv` for forward iterators (implementation.hpp:2572-2597). -/
def insertRangeEquiv (t : Table K V) (xs : List (K × V)) : Option (Table K V) :=
  match xs with
  | [] => some t
  | [x] => (t.emplaceEquiv x).map Prod.fst
  | _ =>
    match t.reserveForInsert (t.size + xs.length) with
    | none => none
    | some t1 => (fillEquiv t1.fns xs t1.b).map (fun b' => { t1 with b := b', size := t1.size + xs.length })

/-- `insert_range_equiv` for input iterators (implementation.hpp:2601-2607). -/
def insertRangeEquiv1 : List (K × V) → Table K V → Option (Table K V)
  | [], t => some t
  | x :: xs, t =>
    match t.emplaceEquiv x with
    | none => none
    | some (t', _) => insertRangeEquiv1 xs t'

/-- `insert_range_unique` (implementation.hpp:2183-2210). -/
def insertRangeUnique : List (K × V) → Table K V → Option (Table K V)
  | [], t => some t
  | x :: xs, t =>
    match t.emplaceUnique x with
    | none => none
    | some (t', _, _) => insertRangeUnique xs t'

/-- loop of `group_count` (implementation.hpp:1297-1306) -/
def countRun (p : K × V → Bool) : Bool → List (K × V) → Nat
  | _, [] => 0
  | found, e :: l => if p e then countRun p true l + 1 else if found then 0 else countRun p false l

/-- `group_count` (implementation.hpp:1288-1308). -/
def groupCount (t : Table K V) (k : K) : Option Nat :=
  if t.size = 0 then some 0
  else (t.b.get (t.bucketFor (t.fns.hash k))).map (countRun (fun e => t.fns.eq k e.1) false)

/-- `next_group` (implementation.hpp:1279-1286) from an iterator, collecting the elements passed over -/
def nextGroup (t : Table K V) (k : K) : Nat → It → Option (List (K × V) × It)
  | _, none => some ([], none)
  | f, some it =>
    match t.b.deref it with
    | none => none
    | some e =>
      if t.fns.eq k e.1 then
        match f with
        | 0 => none
        | f + 1 =>
          match t.b.incIt it with
          | none => none
          | some it' => (nextGroup t k f it').map (fun r => (e :: r.1, r.2))
      else some ([], some it)

/-- `equal_range` of the multi containers (unordered_map.hpp:2408-2424): the elements of the range. -/
def equalRangeEquiv (t : Table K V) (k : K) : Option (List (K × V)) :=
  match t.find k with
  | none => none
  | some it => (t.nextGroup k t.size it).map Prod.fst

/-- `equal_range` of the unique containers (unordered_map.hpp:1802-1822): the element found, if any; the second iterator is one
past it. -/
def equalRangeUnique (t : Table K V) (k : K) : Option (List (K × V)) :=
  match t.find k with
  | none => none
  | some none => some []
  | some (some it) =>
    match t.b.deref it, t.b.incIt it with
    | some e, some _ => some [e]
    | _, _ => none

/-- loop of `erase_key_equiv_impl` (implementation.hpp:2633-2640): delete nodes at index `i` while the key is equivalent. -/
def eraseRun (p : K × V → Bool) (i : Nat) : Nat → List (K × V) → List (K × V) × Nat
  | 0, l => (l, 0)
  | f + 1, l =>
    match l[i]? with
    | none => (l, 0)
    | some e =>
      if p e then
        let r := eraseRun p i f (l.eraseIdx i)
        (r.1, r.2 + 1)
      else (l, 0)

/-- `erase_key_equiv_impl` (implementation.hpp:2626-2647). -/
def eraseKeyEquiv (t : Table K V) (k : K) : Option (Table K V × Nat) :=
  let itb := t.bucketFor (t.fns.hash k)
  if 0 < t.size then
    match t.b.get itb with
    | none => none
    | some l =>
      match l.findIdx? (fun e => t.fns.eq k e.1) with
      | none => some (t, 0)
      | some i =>
        match t.deleteNode with
        | none => none
        | some _ =>
          let r := eraseRun (fun e => t.fns.eq e.1 k) i l.length l
          let b' := { t.b with chain := up t.b.chain itb.p r.1 }
          if t.size < r.2 then none
          else
            match (if r.1.isEmpty then b'.unlinkBucket itb else some b') with
            | none => none
            | some b'' => some ({ t with b := b'', size := t.size - r.2 }, r.2)
  else some (t, 0)

/-- `unordered_multimap::merge` (unordered_map.hpp:2326-2363): `while(!source.empty()) insert(source.extract(source.begin()))`
from a different container with an equal allocator. -/
def mergeEquivLoop : Nat → Table K V → Table K V → Option (Table K V × Table K V)
  | 0, t, o => if o.size = 0 then some (t, o) else none
  | f + 1, t, o =>
    if o.size = 0 then some (t, o)
    else
      match o.begin_ with
      | none => none
      | some none => none
      | some (some it) =>
        match o.extractAt it with
        | none => none
        | some (o', x) =>
          match t.insertNodeEquiv x with
          | none => none
          | some (t', _) => mergeEquivLoop f t' o'

def mergeEquiv (t o : Table K V) : Option (Table K V × Table K V) :=
  if t.al ≠ o.al then none else mergeEquivLoop o.size t o

/-- loop of `erase_nodes_range` (implementation.hpp:2276-2299): `pp` is (bucket `itb`, index `i`); `rem` is the number of nodes
from `first` to `last`, so `*pp!=last.p` is `rem≠0`. -/
def eraseRangeLoop : Nat → Table K V → BIt → Nat → Option (Table K V)
  | 0, t, _, _ => some t
  | rem + 1, t, itb, i =>
    match t.b.get itb with
    | none => none
    | some l =>
      if l.length ≤ i ∨ t.size = 0 then none
      else
        match t.deleteNode with
        | none => none
        | some _ =>
          let l' := l.eraseIdx i
          let t' := { t with b := { t.b with chain := up t.b.chain itb.p l' }, size := t.size - 1 }
          if l'.length ≤ i then
            match t'.b.inc itb with
            | none => none
            | some nx =>
              match (if l'.isEmpty then t'.b.unlinkBucket itb else some t'.b) with
              | none => none
              | some b'' => eraseRangeLoop rem { t' with b := b'' } nx 0
          else eraseRangeLoop rem t' itb i

/-- `erase(first,last)` = `erase_nodes_range` (implementation.hpp:2263-2300) for `first` and the iterator `len` steps later. -/
def eraseRange (t : Table K V) (first : It) (len : Nat) : Option (Table K V) :=
  match first with
  | none => if len = 0 then some t else none
  | some (itb, i) => eraseRangeLoop len t itb i

/-- advance an iterator `n` times: `std::next(it,n)` -/
def advance (t : Table K V) : Nat → It → Option It
  | 0, it => some it
  | _ + 1, none => none
  | n + 1, some it =>
    match t.b.incIt it with
    | none => none
    | some it' => advance t n it'

/-- `equals_unique` (implementation.hpp:1832-1850). `veq` is `==` on elements. -/
def equalsLoop (veq : K × V → K × V → Bool) (o : Table K V) : List (K × V) → Option Bool
  | [] => some true
  | x :: xs =>
    match o.findNode x.1 with
    | none => none
    | some none => some false
    | some (some it) =>
      match o.b.deref it with
      | none => none
      | some e => if veq x e then equalsLoop veq o xs else some false

def equalsUnique (veq : K × V → K × V → Bool) (t o : Table K V) : Option Bool :=
  if t.size ≠ o.size then some false
  else
    match t.iterate with
    | none => none
    | some l => equalsLoop veq o l

/-- first loop of `group_equals_equiv` (implementation.hpp:2383-2394): strip the common prefix; `inl b` = answer known. The two
lists are the ranges [n1,end1) and [n2,end2), non-empty. -/
def stripEqual (veq : K × V → K × V → Bool) : List (K × V) → List (K × V) → Option (Bool ⊕ (List (K × V) × List (K × V)))
  | x :: xs, y :: ys =>
    if veq x y = false then some (.inr (x :: xs, y :: ys))
    else
      match xs, ys with
      | [], ys => some (.inl ys.isEmpty)
      | _ :: _, [] => some (.inl false)
      | x' :: xs, y' :: ys => stripEqual veq (x' :: xs) (y' :: ys)
  | _, _ => none

/-- second loop: do both ranges have the same length (implementation.hpp:2396-2411) -/
def sameLength : List (K × V) → List (K × V) → Option Bool
  | _ :: xs, _ :: ys =>
    match xs, ys with
    | [], [] => some true
    | [], _ :: _ => some false
    | _ :: _, [] => some false
    | x :: xs, y :: ys => sameLength (x :: xs) (y :: ys)
  | _, _ => none

/-- third loop (implementation.hpp:2413-2425): `seen` is [start,n1), `cur` is [n1,end1), `l2` is [n2,end2). -/
def countsAgree (veq : K × V → K × V → Bool) (l2 : List (K × V)) : List (K × V) → List (K × V) → Bool
  | _, [] => true
  | seen, v :: cur =>
    if seen.any (fun e => veq e v) then countsAgree veq l2 (seen ++ [v]) cur
    else
      let m := l2.countP (fun e => veq e v)
      if m = 0 then false
      else if m ≠ 1 + cur.countP (fun e => veq e v) then false
      else countsAgree veq l2 (seen ++ [v]) cur

/-- `group_equals_equiv` (implementation.hpp:2380-2427) on two non-empty ranges. -/
def groupEquals (veq : K × V → K × V → Bool) (l1 l2 : List (K × V)) : Option Bool :=
  match stripEqual veq l1 l2 with
  | none => none
  | some (.inl b) => some b
  | some (.inr (m1, m2)) =>
    match sameLength m1 m2 with
    | none => none
    | some false => some false
    | some true => some (countsAgree veq m2 [] m1)

/-- loop of `equals_equiv` (implementation.hpp:2358-2377) -/
def equalsEquivLoop (veq : K × V → K × V → Bool) (t o : Table K V) : Nat → It → Option Bool
  | _, none => some true
  | 0, some _ => none
  | f + 1, some n1 =>
    match t.b.deref n1 with
    | none => none
    | some e =>
      match o.find e.1 with
      | none => none
      | some none => some false
      | some (some n2) =>
        match t.nextGroup e.1 t.size (some n1), o.nextGroup e.1 o.size (some n2) with
        | some (g1, end1), some (g2, _) =>
          match groupEquals veq g1 g2 with
          | none => none
          | some false => some false
          | some true => equalsEquivLoop veq t o f end1
        | _, _ => none

def equalsEquiv (veq : K × V → K × V → Bool) (t o : Table K V) : Option Bool :=
  if t.size ≠ o.size then some false
  else
    match t.begin_ with
    | none => none
    | some it => equalsEquivLoop veq t o t.size it

/-- `bucket_size(n)` (implementation.hpp:1349-1361) -/
def bucketSize (t : Table K V) (n : Nat) : Option Nat :=
  if 0 < t.size then (t.b.get (t.b.at_ n)).map List.length else some 0

/-- `bucket(k)` (unordered_map.hpp:584-587, implementation.hpp:1344-1347) -/
def bucketOf (t : Table K V) (k : K) : Nat := t.b.position (t.fns.hash k)

/-- the elements seen by `for(it=begin(n);it!=end(n);++it)`: `begin(n)` (fca.hpp:739-747, unordered_map.hpp:597-612) is the
bucket's first node, `++` follows `next`, `end(n)` is null. Reading outside the bucket array is UB. -/
def localIterate (t : Table K V) (n : Nat) : Option (List (K × V)) :=
  if t.b.size = 0 then some [] else t.b.get ⟨n, none⟩

/-- loop of `erase_key_equiv_impl` (implementation.hpp:2633-2640) when the argument `k` is a reference to the key stored in the
node at index `j` of the bucket (`none`: that node has been deleted). Reading `k` then is a use after free. -/
def eraseRunAlias (eq : K → K → Bool) (k : K) (i : Nat) : Nat → List (K × V) → Option Nat → Option (List (K × V) × Nat)
  | 0, l, _ => some (l, 0)
  | f + 1, l, j =>
    match l[i]? with
    | none => some (l, 0)
    | some e =>
      match j with
      | none => none
      | some j =>
        if eq e.1 k then
          (eraseRunAlias eq k i f (l.eraseIdx i) (if j = i then none else if i < j then some (j - 1) else some j)).map
            (fun r => (r.1, r.2 + 1))
        else some (l, 0)

/-- `erase(it->first)` / `erase(*it)` on a multi container: `erase_key_equiv_impl` (implementation.hpp:2626-2647) with the key
aliasing the stored element at `it`. -/
def eraseKeyAlias (t : Table K V) (it : BIt × Nat) : Option (Table K V × Nat) :=
  match t.b.deref it with
  | none => none
  | some x =>
    let itb := t.bucketFor (t.fns.hash x.1)
    match t.b.get itb with
    | none => none
    | some l =>
      match l.findIdx? (fun e => t.fns.eq x.1 e.1) with
      | none => some (t, 0)
      | some i =>
        match t.deleteNode, eraseRunAlias t.fns.eq x.1 i l.length l (some it.2) with
        | some _, some r =>
          let b' := { t.b with chain := up t.b.chain itb.p r.1 }
          if t.size < r.2 then none
          else
            match (if r.1.isEmpty then b'.unlinkBucket itb else some b') with
            | none => none
            | some b'' => some ({ t with b := b'', size := t.size - r.2 }, r.2)
        | _, _ => none

end Table
end Fca

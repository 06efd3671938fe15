/-
Nodes in memory and node handles.
Sources: /repo/include/boost/unordered/detail/foa/node_handle.hpp, detail/foa/element_type.hpp,
detail/foa/node_map_types.hpp (node containers); unordered_map.hpp `node_handle_map`, likewise unordered_set.hpp
`node_handle_set`, detail/implementation.hpp `optional` and `node_tmp` (closed-addressing containers).

Conventions
* An outer `none` is undefined behaviour or a failed BOOST_ASSERT: freeing or writing through a pointer to a node that is not
  alive, freeing with an allocator not equal to the one that allocated, destroying or reading an allocator that was never
  constructed, constructing over a live one.
* Node addresses are numbers that are never reused (`Heap.next` only grows): a stale pointer never happens to look valid.
* Allocators are numbers; copying and moving them preserves their value.
-/
import Verif.Spec

namespace Node
open Spec (upd)
variable {K V : Type}

/-- Memory for nodes: the value of each live node and the allocator it came from; the next address; all addresses freed so far,
latest first (ghost). -/
structure Heap (K V : Type) where
  cell : Nat → Option ((K × V) × Nat)
  next : Nat
  freed : List Nat

namespace Heap

def init : Heap K V := ⟨fun _ => none, 0, []⟩

/-- allocate and construct a node (node_map_types.hpp:100-118 `construct`; implementation.hpp:707-818 `construct_node`) -/
def new_ (m : Heap K V) (al : Nat) (x : K × V) : Heap K V × Nat :=
  ({ m with cell := upd m.cell m.next (some (x, al)), next := m.next + 1 }, m.next)

/-- destroy and deallocate a node (node_map_types.hpp:135-142 `destroy`; implementation.hpp:685-692 `~node_tmp`,
1535-1543 `delete_node`) -/
def free (m : Heap K V) (al i : Nat) : Option (Heap K V) :=
  match m.cell i with
  | none => none
  | some (_, a) => if a = al then some { m with cell := upd m.cell i none, freed := i :: m.freed } else none

/-- a loop freeing nodes one after the other -/
def freeAll (m : Heap K V) (al : Nat) : List Nat → Option (Heap K V)
  | [] => some m
  | i :: l =>
    match m.free al i with
    | none => none
    | some m' => freeAll m' al l

/-- writing through a pointer to a node -/
def write (m : Heap K V) (i : Nat) (f : K × V → K × V) : Option (Heap K V) :=
  match m.cell i with
  | none => none
  | some (x, a) => some { m with cell := upd m.cell i (some (f x, a)) }

end Heap

/-- A node handle: the pointer (`none` = null) and the allocator storage (`none` = no allocator object constructed in it).
Node containers: `p_`, `a_` (node_handle.hpp:53-54). Closed-addressing containers: `ptr_`, `alloc_`
(unordered_map.hpp:2534-2535). -/
structure Hnd where
  p : Option Nat
  a : Option Nat
deriving DecidableEq

/-- default constructor (node_handle.hpp:127; unordered_map.hpp:2543) -/
def Hnd.dflt : Hnd := ⟨none, none⟩

/-! ### handles of node containers -/

namespace Open

/-- `al()` (node_handle.hpp:99-109): asserts `!empty()`. -/
def alOf (x : Hnd) : Option Nat := if x.p.isNone then none else x.a

/-- `emplace(x,a)` with `x.p` = `i` (node_handle.hpp:111-118): asserts `empty()`; constructs the allocator. Nulling `x.p` is left
to the caller of this function. -/
def emplace (x : Hnd) (i a : Nat) : Option Hnd := if x.p.isSome ∨ x.a.isSome then none else some ⟨some i, some a⟩

/-- `reset()` (node_handle.hpp:120-124): destroys the allocator. -/
def reset (x : Hnd) : Option Hnd := if x.a.isNone then none else some ⟨none, none⟩

/-- `type_policy::destroy(al(),&p_)` (node_map_types.hpp:135-142): frees the node if the pointer is not null; does not null the
pointer. -/
def destroyNode (m : Heap K V) (x : Hnd) : Option (Heap K V) :=
  match alOf x, x.p with
  | some al, some i => m.free al i
  | some _, none => some m
  | none, _ => none

/-- the node of `x` goes into the empty handle `y`: `emplace(std::move(x.p_),x.al()); x.reset()` -/
def take (y x : Hnd) : Option (Hnd × Hnd) :=
  match x.p, alOf x with
  | some i, some a =>
    match emplace y i a with
    | none => none
    | some y' => (reset { x with p := none }).map (fun x' => (y', x'))
  | _, _ => none

/-- move constructor (node_handle.hpp:129-136). Result: (new handle, source). -/
def moveCtor (x : Hnd) : Option (Hnd × Hnd) := if x.p.isSome then take .dflt x else some (.dflt, x)

/-- move assignment from a different handle (node_handle.hpp:138-165). Result: (this, source). -/
def assign (pocma : Bool) (m : Heap K V) (y x : Hnd) : Option (Heap K V × Hnd × Hnd) :=
  if y.p.isNone then
    if x.p.isNone then some (m, y, x)
    else (take y x).map (fun r => (m, r))
  else
    if x.p.isNone then
      match destroyNode m y with
      | none => none
      | some m' => (reset y).map (fun y' => (m', y', x))
    else
      match alOf y, alOf x with
      | some ay, some ax =>
        if pocma = true ∨ ay = ax then
          match destroyNode m y with
          | none => none
          | some m' =>
            -- `move_assign_allocator_if<pocma>`, then `p_=std::move(nh.p_); nh.reset();`
            (reset { x with p := none }).map (fun x' => (m', { p := x.p, a := if pocma then some ax else y.a }, x'))
        else none
      | _, _ => none

/-- move assignment from itself (node_handle.hpp:166-173). -/
def assignSelf (m : Heap K V) (y : Hnd) : Option (Heap K V × Hnd) :=
  if y.p.isNone then some (m, y)
  else
    match destroyNode m y with
    | none => none
    | some m' => (reset y).map (fun y' => (m', y'))

/-- destructor (node_handle.hpp:177-183). Only the memory matters afterwards; the allocator object must be gone. -/
def destroy (m : Heap K V) (y : Hnd) : Option (Heap K V) :=
  if y.p.isNone then some m
  else
    match destroyNode m y with
    | none => none
    | some m' => (reset y).map (fun _ => m')

/-- `swap` with a different handle (node_handle.hpp:199-226); with itself it does nothing. -/
def swap (pocs : Bool) (y x : Hnd) : Option (Hnd × Hnd) :=
  if y.p.isNone then
    if x.p.isNone then some (y, x) else take y x
  else
    if x.p.isNone then (take x y).map (fun r => (r.2, r.1))
    else
      match alOf y, alOf x with
      | some ay, some ax =>
        if pocs = true ∨ ay = ax then
          some ({ p := x.p, a := if pocs then some ax else y.a }, { p := y.p, a := if pocs then some ay else x.a })
        else none
      | _, _ => none

/-- the handle returned by `extract` (unordered_node_map.hpp:558-572): a default-constructed one into which the node is emplaced;
`none`: not found. -/
def ofExtract (al : Nat) : Option Nat → Option Hnd
  | none => some .dflt
  | some i => emplace .dflt i al

/-- may container with allocator `al` take from `x`? `BOOST_ASSERT(get_allocator()==nh.get_allocator())`
(unordered_node_map.hpp:360, 379) -/
def accepts (al : Nat) (x : Hnd) : Bool := alOf x == some al

/-- after the node has been taken: the table nulls the pointer when it moves from the element (node_map_types.hpp:65-70), then
`access::reset(nh)` (unordered_node_map.hpp:362-364, 381-383) -/
def taken (x : Hnd) : Option Hnd := reset { x with p := none }

/-- the handle in the answer of an insertion refused: `{itp.first,false,std::move(nh)}` (unordered_node_map.hpp:365-367).
Result: (handle returned, source). -/
def refused (x : Hnd) : Option (Hnd × Hnd) := moveCtor x

end Open

/-! ### handles of closed-addressing containers -/

namespace Closed

/-- `optional::operator=(optional&&)` from a different object (implementation.hpp:443-450): the source loses its value. Result:
(this, source). -/
def optMove (_y x : Option Nat) : Option Nat × Option Nat := (x, none)

/-- delete the node of `x`: `node_allocator node_alloc(*alloc_); node_tmp tmp(ptr_,node_alloc);` (unordered_map.hpp:2547-2554,
2570-2575): dereferences the optional. -/
def freeNode (m : Heap K V) (x : Hnd) : Option (Heap K V) :=
  match x.p with
  | none => some m
  | some i =>
    match x.a with
    | none => none
    | some al => m.free al i

/-- destructor (unordered_map.hpp:2547-2554) -/
def destroy (m : Heap K V) (x : Hnd) : Option (Heap K V) := freeNode m x

/-- move constructor (unordered_map.hpp:2556-2561). Result: (new handle, source). -/
def moveCtor (x : Hnd) : Hnd × Hnd := (⟨x.p, x.a⟩, ⟨none, none⟩)

/-- move assignment from a different handle (unordered_map.hpp:2563-2586). Result: (this, source). -/
def assign (pocma : Bool) (m : Heap K V) (y x : Hnd) : Option (Heap K V × Hnd × Hnd) :=
  if y.a = none ∨ pocma = true ∨ (x.a ≠ none ∧ y.a = x.a) then
    match freeNode m y with
    | none => none
    | some m' =>
      if y.a = none ∨ pocma = true then some (m', ⟨x.p, (optMove y.a x.a).1⟩, ⟨none, (optMove y.a x.a).2⟩)
      else some (m', ⟨x.p, y.a⟩, ⟨none, x.a⟩)
  else none

/-- move assignment from itself (unordered_map.hpp:2563-2586 with `n` = `*this`): after the node is deleted `ptr_` is null; the
optional assigned from itself is left without a value (implementation.hpp:443-450). -/
def assignSelf (pocma : Bool) (m : Heap K V) (y : Hnd) : Option (Heap K V × Hnd) :=
  match freeNode m y with
  | none => none
  | some m' => some (m', ⟨none, if y.a = none ∨ pocma = true then none else y.a⟩)

/-- `swap` (unordered_map.hpp:2609-2625) -/
def swap (pocs : Bool) (y x : Hnd) : Option (Hnd × Hnd) :=
  if y.a = none ∨ x.a = none ∨ pocs = true ∨ y.a = x.a then
    if pocs = true ∨ y.a = none ∨ x.a = none then some (⟨x.p, x.a⟩, ⟨y.p, y.a⟩)
    else some (⟨x.p, y.a⟩, ⟨y.p, x.a⟩)
  else none

/-- the handle returned by `extract` (unordered_map.hpp:293-316, 1033-1056): the allocator is stored even if nothing was found. -/
def ofExtract (al : Nat) (i : Option Nat) : Hnd := ⟨i, some al⟩

/-- the container does not check allocators (implementation.hpp:2072-2108) -/
def accepts (_al : Nat) (_x : Hnd) : Bool := true

/-- after the node has been taken: `np.ptr_=node_pointer()` (implementation.hpp:2101, 2137, 2529, 2559) -/
def taken (x : Hnd) : Hnd := { x with p := none }

/-- insertion refused: `result.node=std::move(np)`, where `result.node` is default-constructed (implementation.hpp:2086-2091,
unordered_map.hpp:318-323). Result: (handle returned, source). -/
def refused (pocma : Bool) (m : Heap K V) (x : Hnd) : Option (Heap K V × Hnd × Hnd) := assign pocma m .dflt x

end Closed
end Node

/-
What the open-addressing containers promise about pointers, references and iterators to their elements. Imports the abstract
specification of the containers only.

Flat containers keep elements in the slots of a memory block: an address is a block and a position in it. Node containers keep pointers to
nodes: there the (constant) key carries the address of its node (keys `K × Nat`, the number being ignored by hash and equality). An
iterator of these containers is determined by the address of the slot.
-/
import Verif.Spec

namespace SpecAddrO
open Spec (Op Traits)
variable {K V : Type}

/-- What can be observed of a container. -/
structure Obs (K : Type) where
  eq : K → K → Bool
  al : Nat
  size : Nat
  maxLoad : Nat
  buckets : Nat
  /-- `contains(k)` -/
  has : K → Prop

/-- Elements of container `r` that a call destroys: those it is asked to remove, and the elements of a container that is assigned to or
constructed anew. -/
def Destroyed (o : Nat → Obs K) (r : Nat) (e : K × V) : Op K V → Prop
  | .erase q k | .eraseIt q k | .extract q k => r = q ∧ (o q).eq k e.1 = true
  | .eraseIf q pr | .eraseWalk q pr => r = q ∧ pr e = true
  | .clear q => r = q
  | .construct q _ _ _ _ | .copyConstruct q _ _ | .moveConstruct q _ | .moveConstructAlloc q _ _ => r = q
  | .copyAssign q p | .moveAssign q p => r = q ∧ q ≠ p
  | _ => False

/-- The container an element `e` of container `r` is in after a call: `swap` and moves hand over all elements, `merge` those whose key the
target does not have. -/
def InHome (o : Nat → Obs K) (r : Nat) (e : K × V) (q : Nat) : Op K V → Prop
  | .swap a b => q = if r = a then b else if r = b then a else r
  | .moveConstruct a b | .moveConstructAlloc a b _ | .moveAssign a b => q = if r = b then a else r
  | .merge a b => (r = b ∧ ¬ (o a).has e.1 → q = a) ∧ (¬ (r = b ∧ ¬ (o a).has e.1) → q = r)
  | _ => q = r

/-- What a call makes of an element it leaves alone: `insert_or_assign` assigns the mapped value of the element with the key. -/
def assigned (o : Nat → Obs K) (r : Nat) (e : K × V) : Op K V → K × V
  | .insertOrAssign q k v => if r = q ∧ (o q).eq k e.1 = true then (e.1, v) else e
  | _ => e

/-- The call does not move the elements of container `r` of a flat container to other addresses (`o`, `o'`: before and after): insertions
find room below `max_load()` or the key there already, `rehash` and `reserve` do not change the bucket count, moves are between
equal or propagated allocators, `merge` does not take the element. -/
def Steady (tr : Traits) (o o' : Nat → Obs K) (r : Nat) (e : K × V) : Op K V → Prop
  | .insert q x => r = q → (o q).has x.1 ∨ (o q).size < (o q).maxLoad
  | .insertOrAssign q k _ | .index q k _ => r = q → (o q).has k ∨ (o q).size < (o q).maxLoad
  | .insertRange q xs => r = q → (o q).size + xs.length ≤ (o q).maxLoad
  | .rehash q _ | .reserve q _ => r = q → (o' q).buckets = (o q).buckets
  | .merge a b => a = b ∨ (r = a → (o a).size + (o b).size ≤ (o a).maxLoad) ∧ (r = b → (o a).has e.1)
  | .moveConstructAlloc _ b al => r = b → al = (o b).al
  | .moveAssign a b => r = b → a ≠ b → tr.pocma = true ∨ (o a).al = (o b).al
  | _ => True

/-- Node containers: the call hands nodes over, rather than moving elements into new nodes (moves between equal or propagated allocators;
`merge` requires equal allocators). -/
def Handed (tr : Traits) (o : Nat → Obs K) : Op K V → Prop
  | .merge a b => (o a).al = (o b).al
  | .moveConstructAlloc _ b al => al = (o b).al
  | .moveAssign a b => a ≠ b → tr.pocma = true ∨ (o a).al = (o b).al
  | _ => True

end SpecAddrO

/-
What the closed-addressing containers (unordered_map/set, unordered_multimap/multiset) promise about pointers, references and iterators to
their elements. Imports the abstract specification of the containers only.

An element carries the address of its node (payload `V × Nat`): a pointer or reference to an element is the number `e.2.2`. "The pointer
stays valid" is: the element with this address, the same key and the same value is still in the container - or, if the call hands nodes
over to another container, in that one.
-/
import Verif.SpecC

namespace SpecAddr
open Spec (Res Traits)
open SpecC (Op LOp)
variable {K V : Type}

/-- Elements of container `r` that a call may destroy: those it is asked to remove, and all elements of a container that is assigned to or
constructed anew. `eq` is the key equality of the containers, `res` the answer of the call. Which elements a range erasure concerns is
C40. The node of a failed insertion of a node handle is destroyed with the handle. -/
def Destroyed (eq : Nat → K → K → Bool) (op : Op K V) (res : Res K V) (r : Nat) (e : K × V) : Prop :=
  match op with
  | .on q (.erase k) => r = q ∧ eq r k e.1 = true
  | .on q (.extract _) => r = q ∧ res = .elem (some e)
  | .on q (.eraseAt _) => r = q ∧ res = .elem (some e)
  | .on q (.eraseRange _ n) => r = q ∧ 0 < n
  | .on q (.eraseIf pr) => r = q ∧ pr e = true
  | .on q .clear => r = q
  | .construct q _ _ _ _ => r = q
  | .copyConstruct q _ _ => r = q
  | .moveConstruct q _ => r = q
  | .moveConstructAlloc q _ _ => r = q
  | .copyAssign q p => r = q ∧ q ≠ p
  | .moveAssign q p => r = q ∧ q ≠ p
  | .transfer _ q k => r = q ∧ res = .bool false ∧ eq r k e.1 = true
  | _ => False

/-- The containers the elements of container `r` may be in after a call. -/
def home (op : Op K V) (r : Nat) : List Nat :=
  match op with
  | .swap a b => if r = a then [b] else if r = b then [a] else [r]
  | .moveConstruct a b => if r = b then [a] else [r]
  | .moveConstructAlloc a b _ => if r = b then [a] else [r]
  | .moveAssign a b => if r = b then [a] else [r]
  | .merge a b => if r = b then [a, b] else [r]
  | .transfer a b _ => if r = b then [a, b] else [r]
  | _ => [r]

/-- The call does not move elements one by one: moves are between equal or propagated allocators. -/
def Whole (tr : Traits) (al : Nat → Nat) : Op K V → Prop
  | .moveConstructAlloc _ q a => a = al q
  | .moveAssign r q => tr.pocma = true ∨ al r = al q
  | _ => True

/-- What a call makes of an element it leaves alone: `insert_or_assign` assigns the mapped value of an element with the key. -/
def assigned (eq : Nat → K → K → Bool) (op : Op K V) (r : Nat) (e : K × V) : K × V :=
  match op with
  | .on q (.insertOrAssign k v) => if r = q ∧ eq r k e.1 = true then (e.1, v) else e
  | _ => e

end SpecAddr

/-
Specification of object lifetimes in raw storage (used by C48). Independent of the model of the code.

A program fragment that builds and destroys objects of one type (size `sz` bytes) is the list of its events. The events are
executed on the list of the addresses of the objects that are alive.
-/
namespace SpecLife

/-- `construct a`: placement-new at address `a`; `destroy a`: destructor call at address `a`. -/
inductive Ev where
  | construct (a : Nat)
  | destroy (a : Nat)
  deriving DecidableEq, Repr

/-- The objects of size `sz` at `a` and `b` share no byte. -/
def Apart (sz a b : Nat) : Prop := a + sz ≤ b ∨ b + sz ≤ a

instance (sz a b : Nat) : Decidable (Apart sz a b) := by unfold Apart; infer_instance

/-- Bytes `[a, a+sz)` lie in the buffer `[base, base+len)`. -/
def Inside (sz a base len : Nat) : Prop := base ≤ a ∧ a + sz ≤ base + len

/-- Execute the events: building over a living object, and destroying where no object lives, are undefined (`none`). -/
def exec (sz : Nat) : List Ev → List Nat → Option (List Nat)
  | [], live => some live
  | .construct a :: es, live => if ∀ b ∈ live, Apart sz a b then exec sz es (a :: live) else none
  | .destroy a :: es, live => if a ∈ live then exec sz es (live.erase a) else none

end SpecLife

/-
Specification of the reentrancy check of concurrent containers (doc/modules/ROOT/pages/changes.adoc:75-76, "debug-mode
mechanisms for detecting illegal reentrancies into a concurrent container from user code"): what the log of a thread that runs operations, some of them from inside the functions it
passes to other operations, must look like. Imports nothing of the model.
-/

namespace SpecReentry

/-- What an operation asks for: shared access to a container (and the groups it locks one after the other, `true` =
exclusively), exclusive access, exclusive access to two. -/
inductive Guard where
  | shared (c : Nat) (groups : List (Nat × Bool))
  | excl (c : Nat)
  | both (x y : Nat)
deriving DecidableEq

/-- the containers of an operation -/
def Guard.conts : Guard → List Nat
  | .shared c _ => [c]
  | .excl c => [c]
  | .both x y => [x, y]

/-- Log of a thread. -/
inductive Ev where
  /-- an operation is called; the check passes, or fails for a container -/
  | call (g : Guard) (failed : Option Nat)
  /-- the operation has its lock -/
  | locked (g : Guard)
  /-- the lock is given back -/
  | unlocked (g : Guard)
deriving DecidableEq

/-- Is container `c` among those whose locks are held? -/
def Inside (held : List Guard) (c : Nat) : Prop := ∃ g ∈ held, c ∈ g.conts

/-- A log is right, when the locks `held` are held at its beginning: an operation on a container the thread is inside of fails
the check, and only such an operation; only locks on other containers are taken; the lock given back is the last one taken. -/
def Right : List Guard → List Ev → Prop
  | _, [] => True
  | held, .call g none :: l => (∀ c ∈ g.conts, ¬ Inside held c) ∧ Right held l
  | held, .call g (some c) :: l => (c ∈ g.conts ∧ Inside held c) ∧ Right held l
  | held, .locked g :: l => (∀ c ∈ g.conts, ¬ Inside held c) ∧ Right (g :: held) l
  | [], .unlocked _ :: _ => False
  | g' :: held, .unlocked g :: l => g = g' ∧ Right held l

/-- The locks held after a log. -/
def after : List Guard → List Ev → List Guard
  | held, [] => held
  | held, .call _ _ :: l => after held l
  | held, .locked g :: l => after (g :: held) l
  | held, .unlocked _ :: l => after held.tail l

end SpecReentry

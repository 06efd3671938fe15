/-
Abstract specification of what an operation of a concurrent container that is left by an exception may have done to the
contents. Imports only the specification of operations that return.
-/
import Verif.SpecT

namespace SpecT

variable {K V : Type}

/-- A callback threw: it may have changed the mapped value of the element it was given, if it had write access. -/
def CallbackThrew (eq : K → K → Bool) (wr : Bool) (k : K) (A A' : Con K V) : Prop :=
  ∃ y v, A y ∧ eq k y.1 = true ∧ Replaced A A' y (y.1, if wr then v else y.2)

/-- The callback on a newly inserted element threw: the element is there, with the key asked for. -/
def InsertedThrew (eq : K → K → Bool) (k : K) (A A' : Con K V) : Prop :=
  ¬ Present eq A k ∧ ∃ v, Added A A' (k, v)

/-- Elements may have been lost, none is new. -/
def Lost (A A' : Con K V) : Prop := ∀ x, A' x → A x

end SpecT

/-
Abstract specification of the hash/equality pairs of closed-addressing containers: every live container has exactly one pair,
which construction, assignment and swap replace as a whole. Imports nothing of the model. `F` is the type of pairs.
-/
import Verif.Spec

namespace SpecFn
open Spec (upd)
variable {F : Type}

/-- Calls of a program over container variables. The numbers say how often the call uses the container's functions (for
hashing or comparing elements) in its phases. -/
inductive Op (F : Type) where
  /-- construct with the pair `f`, then insert elements -/
  | construct (r : Nat) (f : F) (n : Nat)
  /-- construct `r` as a copy of `q`, then copy elements -/
  | copyConstruct (r q : Nat) (n : Nat)
  /-- construct `r` from the rvalue `q`, then move elements -/
  | moveConstruct (r q : Nat) (n : Nat)
  /-- `r = q`: `m` uses while room is made, `n` uses while elements are copied. `prop`: allocators differ and propagate -/
  | copyAssign (r q : Nat) (prop : Bool) (m n : Nat)
  /-- `r = std::move(q)`. `realloc`: allocators differ and do not propagate -/
  | moveAssign (r q : Nat) (realloc : Bool) (m n : Nat)
  | swap (r q : Nat)
  /-- any other call: uses the functions of `r` -/
  | use (r : Nat) (n : Nat)
  | destroy (r : Nat)

/-- the program only touches live containers, and constructs only where there is none -/
def Pre (a : Nat → Option F) : Op F → Prop
  | .construct r _ _ => a r = none
  | .copyConstruct r q _ => a r = none ∧ a q ≠ none
  | .moveConstruct r q _ => a r = none ∧ a q ≠ none
  | .copyAssign r q _ _ _ => a r ≠ none ∧ a q ≠ none
  | .moveAssign r q _ _ _ => a r ≠ none ∧ a q ≠ none
  | .swap r q => a r ≠ none ∧ a q ≠ none
  | .use r _ => a r ≠ none
  | .destroy r => a r ≠ none

/-- the functions used: first `i` times the old pair, then `j` times the new one; never the old one after the new one -/
def Uses (old new : F) (i j : Nat) (tr : List F) : Prop := tr = List.replicate i old ++ List.replicate j new

/-- The effect of a call that returns. `tr`: the pairs it used, in order. `mv f` is what moving from `f` leaves. -/
def Step (mv : F → F) (a : Nat → Option F) : Op F → List F → (Nat → Option F) → Prop
  | .construct r f n, tr, a' => tr = List.replicate n f ∧ a' = upd a r (some f)
  | .copyConstruct r q n, tr, a' => ∃ f, a q = some f ∧ tr = List.replicate n f ∧ a' = upd a r (some f)
  | .moveConstruct r q n, tr, a' => ∃ f, a q = some f ∧ tr = List.replicate n f ∧
      (a' = upd a r (some f) ∨ a' = upd (upd a r (some f)) q (some (mv f)))
  | .copyAssign r q _ m n, tr, a' => if r = q then tr = [] ∧ a' = a else
      ∃ g f, a r = some g ∧ a q = some f ∧ (∃ i, i ≤ m ∧ Uses g f i n tr) ∧ a' = upd a r (some f)
  | .moveAssign r q _ m n, tr, a' => if r = q then tr = [] ∧ a' = a else
      ∃ g f, a r = some g ∧ a q = some f ∧ (∃ i j, i ≤ m ∧ j ≤ n ∧ Uses g f i j tr) ∧
        (a' = upd a r (some f) ∨ a' = upd (upd a r (some f)) q (some (mv f)))
  | .swap r q, tr, a' => tr = [] ∧ a' = upd (upd a r (a q)) q (a r)
  | .use r n, tr, a' => ∃ f, a r = some f ∧ tr = List.replicate n f ∧ a' = a
  | .destroy r, tr, a' => tr = [] ∧ a' = upd a r none

/-- The effect of a call that is left by an exception: the pair has been replaced as a whole or not at all; if it has not, only
the old one has been used. -/
def Thrown (mv : F → F) (a : Nat → Option F) : Op F → List F → (Nat → Option F) → Prop
  -- there is no new container
  | .construct _ f _, tr, a' => (∃ i, tr = List.replicate i f) ∧ a' = a
  | .copyConstruct _ q _, tr, a' => ∃ f, a q = some f ∧ (∃ i, tr = List.replicate i f) ∧ a' = a
  | .moveConstruct _ q _, tr, a' => ∃ f, a q = some f ∧ (∃ i, tr = List.replicate i f) ∧ (a' = a ∨ a' = upd a q (some (mv f)))
  | .copyAssign r q _ _ _, tr, a' => ∃ g f, a r = some g ∧ a q = some f ∧
      (((∃ i, tr = List.replicate i g) ∧ a' = a) ∨ ((∃ i j, Uses g f i j tr) ∧ a' = upd a r (some f)))
  | .moveAssign r q _ _ _, tr, a' => ∃ g f, a r = some g ∧ a q = some f ∧
      (((∃ i, tr = List.replicate i g) ∧ a' = a) ∨ ((∃ i j, Uses g f i j tr) ∧ a' = upd a r (some f)))
  | .swap _ _, tr, a' => tr = [] ∧ a' = a
  | .use r _, tr, a' => ∃ f, a r = some f ∧ (∃ i, tr = List.replicate i f) ∧ a' = a
  | .destroy _, _, _ => False

/-- What became of a call: made and returned, or made and left by an exception, using the pairs listed; or not made because an
object it needs does not exist (its construction had thrown) or there is one already. -/
inductive Outcome (F : Type) where
  | returned (tr : List F)
  | threw (tr : List F)
  | skipped

/-- A program run: the calls with their outcomes. Exceptions are caught and the program goes on. -/
inductive Run (mv : F → F) : (Nat → Option F) → List (Op F × Outcome F) → (Nat → Option F) → Prop
  | nil (a) : Run mv a [] a
  | ok {a a' a'' op tr rest} : Pre a op → Step mv a op tr a' → Run mv a' rest a'' → Run mv a ((op, .returned tr) :: rest) a''
  | exc {a a' a'' op tr rest} : Pre a op → Thrown mv a op tr a' → Run mv a' rest a'' → Run mv a ((op, .threw tr) :: rest) a''
  | skip {a a'' op rest} : ¬ Pre a op → Run mv a rest a'' → Run mv a ((op, .skipped) :: rest) a''

/-- the variables of a call -/
def Op.vars : Op F → List Nat
  | .construct r _ _ => [r]
  | .copyConstruct r q _ => [r, q]
  | .moveConstruct r q _ => [r, q]
  | .copyAssign r q _ _ _ => [r, q]
  | .moveAssign r q _ _ _ => [r, q]
  | .swap r q => [r, q]
  | .use r _ => [r]
  | .destroy r => [r]

end SpecFn

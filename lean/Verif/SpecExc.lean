/-
Abstract specification of calls on unique-key containers that are left by an exception. Imports nothing of the model.
-/
import Verif.Spec

namespace Spec
variable {K V : Type}

/-- `l'` is `l` with some elements lost; with the strong guarantee, none. -/
def Loses (strong : Bool) (l l' : List (K × V)) : Prop :=
  ∃ lost, l.Perm (lost ++ l') ∧ (strong = true → lost = [])

/-- What a call may leave behind when an exception thrown by user code or by the allocator leaves it. `strong` says that
growing cannot lose elements: transferring elements to new arrays copies them, or neither hashing nor moving throws. -/
def Thrown (tr : Traits) (strong : Bool) : Op K V → (Nat → Obj K V) → (Nat → Obj K V) → Prop
  -- growing operations: contents unchanged, up to losses during the transfer
  | .insert r _, a, a' | .insertOrAssign r _ _, a, a' | .index r _ _, a, a' | .rehash r _, a, a' | .reserve r _, a, a' =>
    ∃ l, Loses strong (a r).elems l ∧ a' = upd a r { a r with elems := l }
  -- a prefix has been inserted
  | .insertRange r xs, a, a' =>
    ∃ ys zs l, xs = ys ++ zs ∧ Loses strong (ys.foldl (fun o x => (insert o x).1) (a r)).elems l ∧
      a' = upd a r { a r with elems := l }
  -- some of the matching elements have been erased
  | .eraseIf r pr, a, a' =>
    ∃ gone l, (a r).elems.Perm (gone ++ l) ∧ (∀ x ∈ gone, pr x = true) ∧ a' = upd a r { a r with elems := l }
  -- nothing happened, or the target holds some of the source's elements
  | .copyAssign r q, a, a' =>
    a' = a ∨ ∃ l rest al, (a q).elems.Perm (l ++ rest) ∧ (al = (a r).al ∨ tr.pocca = true ∧ al = (a q).al) ∧
      a' = upd a r ⟨(a q).eq, al, l⟩
  -- the target is cleared, or it holds some of the source's elements and the source is empty
  | .moveAssign r q, a, a' =>
    a' = upd a r { a r with elems := [] } ∨
    ∃ l rest, (a q).elems.Perm (l ++ rest) ∧
      a' = upd (upd a r ⟨(a q).eq, (a r).al, l⟩) q { a q with eq := (a r).eq, elems := [] }
  -- the source may have been emptied
  | .moveConstructAlloc _ q _, a, a' => a' = a ∨ a' = upd a q { a q with elems := [] }
  -- an element is lost (two containers)
  | .merge r q, a, a' =>
    if r = q then ∃ l, Loses false (a r).elems l ∧ a' = upd a r { a r with elems := l }
    else ∃ l m lost, ((a r).elems ++ (a q).elems).Perm (lost ++ (l ++ m)) ∧ (strong = true → lost.length = 1) ∧
      a' = upd (upd a r { a r with elems := l }) q { a q with elems := m }
  -- strong guarantee: nothing happened
  | .construct _ _ _ _ _, a, a' | .at _ _, a, a' | .find _ _, a, a' | .count _ _, a, a' | .contains _ _, a, a'
  | .erase _ _, a, a' | .eraseIt _ _, a, a' | .extract _ _, a, a' | .copyConstruct _ _ _, a, a' | .moveConstruct _ _, a, a'
  | .equal _ _, a, a' => a' = a
  -- never left by an exception
  | .eraseWalk _ _, _, _ | .clear _, _, _ | .swap _ _, _, _ | .size _, _, _ | .isEmpty _, _, _ | .iterate _, _, _ => False

/-- The container variables of a call. -/
def Op.vars : Op K V → List Nat
  | .construct r _ _ _ _ => [r]
  | .insert r _ => [r]
  | .insertRange r _ => [r]
  | .insertOrAssign r _ _ => [r]
  | .index r _ _ => [r]
  | .at r _ => [r]
  | .find r _ => [r]
  | .count r _ => [r]
  | .contains r _ => [r]
  | .erase r _ => [r]
  | .eraseIt r _ => [r]
  | .extract r _ => [r]
  | .eraseIf r _ => [r]
  | .eraseWalk r _ => [r]
  | .clear r => [r]
  | .rehash r _ => [r]
  | .reserve r _ => [r]
  | .copyConstruct r q _ => [r, q]
  | .moveConstruct r q => [r, q]
  | .moveConstructAlloc r q _ => [r, q]
  | .copyAssign r q => [r, q]
  | .moveAssign r q => [r, q]
  | .swap r q => [r, q]
  | .merge r q => [r, q]
  | .size r => [r]
  | .isEmpty r => [r]
  | .iterate r => [r]
  | .equal r q => [r, q]

/-- Outcome of a call: an answer, or an exception. -/
inductive Outcome (K V : Type) where
  | ok (o : Res K V)
  | exc

/-- The abstract executions of a program in which calls may be left by exceptions (which the program catches and then goes
on): from `a`, the calls with their outcomes lead to `a'`. -/
inductive XRun (tr : Traits) (veq : K × V → K × V → Bool) (strong : Bool) :
    (Nat → Obj K V) → List (Op K V × Outcome K V) → (Nat → Obj K V) → Prop
  | nil (a) : XRun tr veq strong a [] a
  | ok {a a' op o rest} : o.Agrees (step tr veq op a).2 → XRun tr veq strong (step tr veq op a).1 rest a' →
      XRun tr veq strong a ((op, .ok o) :: rest) a'
  | exc {a b a' op rest} : Thrown tr strong op a b → XRun tr veq strong b rest a' →
      XRun tr veq strong a ((op, .exc) :: rest) a'

/-- Preconditions of a call in a program with exceptions: the documented ones, and: no move assignment between containers
with different, non-propagating allocators if allocation can throw (this case is broken in the library). -/
def XPre (tr : Traits) (allocThrows : Bool) (op : Op K V) (a : Nat → Obj K V) : Prop :=
  Pre tr op a ∧ ∀ r q, op = .moveAssign r q → allocThrows = false ∨ tr.pocma = true ∨ (a r).al = (a q).al

/-- Every call of the program respects its precondition, whatever the outcomes of the calls before it. -/
def XPreAll (tr : Traits) (veq : K × V → K × V → Bool) (strong allocThrows : Bool) : List (Op K V) → (Nat → Obj K V) → Prop
  | [], _ => True
  | op :: ops, a => XPre tr allocThrows op a ∧ XPreAll tr veq strong allocThrows ops (step tr veq op a).1 ∧
    ∀ b, Thrown tr strong op a b → XPreAll tr veq strong allocThrows ops b

end Spec

/-
Abstract specification of calls on the closed-addressing containers that are left by an exception. Imports nothing of the
model.
-/
import Verif.SpecC

namespace SpecC
open Spec (Res Traits upd)
variable {K V : Type}

/-- `l'` is `l` with some elements lost; nothing is lost if `safe` (hashing cannot throw). -/
def Loses (safe : Bool) (l l' : List (K × V)) : Prop :=
  ∃ lost, l.Perm (lost ++ l') ∧ (safe = true → lost = [])

/-- What a call on one container may leave behind when an exception leaves it. -/
def LThrown (u safe : Bool) (o : Obj K V) : LOp K V → Obj K V → Prop
  -- calls that may grow the container: the new element is not in; growing may have lost elements
  | .insert _, o' | .insertHint _ _, o' | .insertOrAssign _ _, o' | .index _ _, o' | .rehash _, o' | .reserve _, o' =>
    ∃ l, Loses safe o.elems l ∧ o' = { o with elems := l }
  -- a proper prefix of the range is in
  | .insertRange _ xs, o' => ∃ ys zs o1 l, xs = ys ++ zs ∧ zs ≠ [] ∧ InsertsAll u o ys o1 ∧ Loses safe o1.elems l ∧
      o' = { o1 with elems := l }
  -- with equivalent keys some of the elements to erase are gone
  | .erase k, o' => if u then o' = o else
      ∃ gone l, o.elems.Perm (gone ++ l) ∧ (∀ e ∈ gone, o.eq k e.1 = true) ∧ o' = { o with elems := l }
  | .eraseIf pr, o' => ∃ gone l, o.elems.Perm (gone ++ l) ∧ (∀ e ∈ gone, pr e = true) ∧ o' = { o with elems := l }
  -- nothing happened
  | .at _, o' | .find _, o' | .count _, o' | .contains _, o' | .equalRange _, o' | .extract _, o' => o' = o
  -- never left by an exception
  | .eraseAt _, _ | .eraseRange _ _, _ | .clear, _ | .maxLoadFactor _, _ | .size, _ | .isEmpty, _ | .iterate, _ => False

/-- What a call may leave behind when an exception leaves it. -/
def Thrown (u : Bool) (tr : Traits) (safe : Bool) (s : Nat → Obj K V) : Op K V → (Nat → Obj K V) → Prop
  | .on r op, s' => ∃ o', LThrown u safe (s r) op o' ∧ s' = upd s r o'
  -- nothing happened
  | .construct _ _ _ _ _, s' | .copyConstruct _ _ _, s' | .moveConstruct _ _, s' | .swap _ _, s' | .equal _ _, s' => s' = s
  -- the elements of the source may have been moved from
  | .moveConstructAlloc _ q al, s' => s' = s ∨ (al ≠ (s q).al ∧ s' = upd s q { s q with defined := false })
  -- the target keeps its elements (up to losses while growing), or it holds some of the source's
  | .copyAssign r q, s' =>
    (∃ l, Loses safe (s r).elems l ∧ s' = upd s r { s r with elems := l }) ∨
    ∃ l rest, (s q).elems.Perm (l ++ rest) ∧
      s' = upd s r { eq := (s q).eq, al := if tr.pocca then (s q).al else (s r).al, elems := l, defined := true }
  -- likewise; in the second case the source has been moved from
  | .moveAssign r q, s' =>
    (∃ l, Loses safe (s r).elems l ∧ s' = upd s r { s r with elems := l }) ∨
    (tr.pocma = false ∧ (s r).al ≠ (s q).al ∧ ∃ l rest, (s q).elems.Perm (l ++ rest) ∧
      s' = upd (upd s r { eq := (s q).eq, al := (s r).al, elems := l, defined := true }) q { s q with defined := false })
  | .merge r q, s' =>
    if r = q then ∃ l, Loses safe (s r).elems l ∧ s' = upd s r { s r with elems := l }
    else if u then
      -- unique keys: either nothing has been taken (and growing may have lost elements of `r`) or nothing is lost
      (∃ l, Loses safe (s r).elems l ∧ s' = upd s r { s r with elems := l }) ∨
      ∃ took kept, (s q).elems.Perm (took ++ kept) ∧ (∀ e ∈ took, Absent (s r) e.1) ∧
        took.Pairwise (fun a b => (s r).eq a.1 b.1 = false) ∧
        s' = upd (upd s r { s r with elems := took ++ (s r).elems }) q { s q with elems := kept }
    else
      -- equivalent keys: the element `x` being moved is lost
      ∃ took x kept l, (s q).elems.Perm (took ++ x :: kept) ∧ Loses safe (took ++ (s r).elems) l ∧
        s' = upd (upd s r { s r with elems := l }) q { s q with elems := kept }
  -- nothing happened, or the extracted element `e` has not been inserted (it is still in the node handle)
  | .transfer r q k, s' =>
    s' = s ∨ ∃ e rest l, (s q).elems.Perm (e :: rest) ∧ (s q).eq k e.1 = true ∧ Loses safe (s r).elems l ∧
      s' = upd (upd s r { s r with elems := l }) q { s q with elems := rest }

/-- The container variables of a call. -/
def Op.vars : Op K V → List Nat
  | .on r _ => [r]
  | .construct r _ _ _ _ => [r]
  | .copyConstruct r q _ => [r, q]
  | .moveConstruct r q => [r, q]
  | .moveConstructAlloc r q _ => [r, q]
  | .copyAssign r q => [r, q]
  | .moveAssign r q => [r, q]
  | .swap r q => [r, q]
  | .merge r q => [r, q]
  | .transfer r q _ => [r, q]
  | .equal r q => [r, q]

variable (u : Bool) (tr : Traits) (veq : K × V → K × V → Bool) (safe : Bool)

/-- The executions allowed to a program in which calls may be left by exceptions, which the program catches before going on.
`some res`: the call returned `res`; `none`: it threw. -/
inductive XRun : (Nat → Obj K V) → List (Op K V × Option (Res K V)) → (Nat → Obj K V) → Prop
  | nil (s) : XRun s [] s
  | ok {s s' s'' op res rest} : Step u tr veq s op res s' → XRun s' rest s'' → XRun s ((op, some res) :: rest) s''
  | exc {s s' s'' op rest} : Thrown u tr safe s op s' → XRun s' rest s'' → XRun s ((op, none) :: rest) s''

/-- The program respects all preconditions, whatever the outcomes of its calls. -/
def XSafe : List (Op K V) → (Nat → Obj K V) → Prop
  | [], _ => True
  | op :: ops, s => Pre u tr veq s op ∧ (∀ res s', Step u tr veq s op res s' → XSafe ops s') ∧
    ∀ s', Thrown u tr safe s op s' → XSafe ops s'

end SpecC

/-
Specification of serialization. Imports nothing of the model.

An archive, as the loading code sees it, is a count followed by items, after which it reports an error. Nothing is assumed of
an archive to be loaded: it may hold equivalent keys, or fewer items than its count says.
-/

namespace SpecSer
variable {K V : Type}

structure Archive (X : Type) where
  count : Nat
  /-- the items that can be extracted before the archive reports an error -/
  items : List X

/-- How loading ends. -/
inductive Outcome where
  | done
  /-- `bad_archive_exception` -/
  | badArchive
  /-- the exception the archive throws when an item cannot be extracted -/
  | archiveError
deriving DecidableEq, Repr

/-- `ar` is a correct archive of a container holding `elems` -/
def Saves (elems : List (K × V)) (ar : Archive (K × V)) : Prop := ar.count = elems.length ∧ ar.items.Perm elems

/-- no two elements of `l` have equivalent keys -/
def NoDup (eq : K → K → Bool) (l : List (K × V)) : Prop := l.Pairwise (fun a b => eq a.1 b.1 = false)

/-- Loading `ar` into a container with key equality `eq` (`u`: unique keys) may end with `out`, the container then holding
`l`. -/
inductive Loads (u : Bool) (eq : K → K → Bool) (ar : Archive (K × V)) : Outcome → List (K × V) → Prop
  /-- all announced items were read and are in the container -/
  | done {l} (h : ar.count ≤ ar.items.length) (hu : u = true → NoDup eq (ar.items.take ar.count))
      (hl : l.Perm (ar.items.take ar.count)) : Loads u eq ar .done l
  /-- the item number `m` is equivalent to an earlier one: the container holds the items before it -/
  | dup {l} (m : Nat) (x : K × V) (hm : m < ar.count) (hx : ar.items[m]? = some x) (hu : u = true)
      (hd : NoDup eq (ar.items.take m)) (he : ∃ e ∈ ar.items.take m, eq x.1 e.1 = true)
      (hl : l.Perm (ar.items.take m)) : Loads u eq ar .badArchive l
  /-- the archive ended before the announced number of items -/
  | short {l} (h : ar.items.length < ar.count) (hu : u = true → NoDup eq ar.items) (hl : l.Perm ar.items) :
      Loads u eq ar .archiveError l

/-! ### Programs that also serialize

Programs use container variables and archive variables. -/

inductive SOp (K V Op : Type) where
  /-- an ordinary call -/
  | call (op : Op)
  /-- archive variable `a` gets arbitrary contents -/
  | forge (a : Nat) (ar : Archive (K × V))
  /-- container `r` is saved to archive variable `a` -/
  | save (r a : Nat)
  /-- archive variable `a` is loaded into container `r` -/
  | load (r a : Nat)

inductive SRes (Res : Type) where
  | call (res : Res)
  | unit
  | load (out : Outcome)

/-- What the specification of a container kind provides: allowed answers and final states of ordinary calls, what the caller
must respect, and, for an object, its equality, its elements, and the object with other elements. -/
structure Kind (K V Op Res O : Type) where
  u : Bool
  step : (Nat → O) → Op → Res → (Nat → O) → Prop
  pre : (Nat → O) → Op → Prop
  /-- may the object be saved? -/
  defined : O → Prop
  eq : O → K → K → Bool
  elems : O → List (K × V)
  setElems : O → List (K × V) → O

variable {Op Res O : Type}

def put {α : Type} (s : Nat → α) (r : Nat) (x : α) : Nat → α := fun i => if i = r then x else s i

/-- Allowed answers and final states. -/
inductive Step (k : Kind K V Op Res O) : (Nat → O) × (Nat → Archive (K × V)) → SOp K V Op → SRes Res →
    (Nat → O) × (Nat → Archive (K × V)) → Prop
  | call {s ars op res s'} (h : k.step s op res s') : Step k (s, ars) (.call op) (.call res) (s', ars)
  | forge {s ars} (a : Nat) (ar : Archive (K × V)) : Step k (s, ars) (.forge a ar) .unit (s, put ars a ar)
  | save {s ars} (r a : Nat) (ar : Archive (K × V)) (h : Saves (k.elems (s r)) ar) :
      Step k (s, ars) (.save r a) .unit (s, put ars a ar)
  | load {s ars} (r a : Nat) (out : Outcome) (l : List (K × V)) (h : Loads k.u (k.eq (s r)) (ars a) out l) :
      Step k (s, ars) (.load r a) (.load out) (put s r (k.setElems (s r) l), ars)

def Pre (k : Kind K V Op Res O) (s : (Nat → O) × (Nat → Archive (K × V))) : SOp K V Op → Prop
  | .call op => k.pre s.1 op
  | .save r _ => k.defined (s.1 r)
  | _ => True

/-- Allowed runs. -/
inductive Run (k : Kind K V Op Res O) : (Nat → O) × (Nat → Archive (K × V)) → List (SOp K V Op) → List (SRes Res) →
    (Nat → O) × (Nat → Archive (K × V)) → Prop
  | nil (s) : Run k s [] [] s
  | cons {s s' s'' op ops res outs} : Step k s op res s' → Run k s' ops outs s'' → Run k s (op :: ops) (res :: outs) s''

/-- The program respects all preconditions, whatever allowed answers it gets. -/
def Safe (k : Kind K V Op Res O) : List (SOp K V Op) → (Nat → O) × (Nat → Archive (K × V)) → Prop
  | [], _ => True
  | op :: ops, s => Pre k s op ∧ ∀ res s', Step k s op res s' → Safe k ops s'

end SpecSer

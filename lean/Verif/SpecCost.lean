/-
Specification of the cost of growth: what is counted. Independent of the model.
-/

namespace SpecCost

/-- What one call did besides looking at the buckets or groups its key leads to: elements hashed again and moved to new
arrays, buckets (or groups of 15 slots) of the old arrays visited to find them, buckets or groups of the new arrays
initialized, and calls to `allocate`. -/
structure Work where
  moved : Nat := 0
  scanned : Nat := 0
  inited : Nat := 0
  allocs : Nat := 0
deriving DecidableEq, Repr

/-- Work of two pieces of code one after the other. -/
def Work.add (a b : Work) : Work :=
  ⟨a.moved + b.moved, a.scanned + b.scanned, a.inited + b.inited, a.allocs + b.allocs⟩

/-- All elements moved and buckets or groups touched. -/
def Work.total (w : Work) : Nat := w.moved + w.scanned + w.inited

/-- A call of insert/erase traffic: insert the element `x` or erase the key `k`. -/
inductive Call (K V : Type) where
  | insert (x : K × V)
  | erase (k : K)

/-- number of insertions among the calls -/
def inserts {K V : Type} : List (Call K V) → Nat
  | [] => 0
  | .insert _ :: l => inserts l + 1
  | .erase _ :: l => inserts l

end SpecCost

/-
Abstract specification of single operations of concurrent containers. Imports nothing of the model.

The contents of a container is a set of (key, mapped value) pairs, given as a predicate. `eq` is the key equality, `r` the value
the operation returns (1/0 for true/false), `A` the contents before and `A'` after.
-/
namespace SpecT

variable {K V : Type}

abbrev Con (K V : Type) := K × V → Prop

def Same (A A' : Con K V) : Prop := ∀ x, A' x ↔ A x

/-- An element with a key equivalent to `k` is there. -/
def Present (eq : K → K → Bool) (A : Con K V) (k : K) : Prop := ∃ y, A y ∧ eq k y.1 = true

/-- `y` has been replaced by `z`. -/
def Replaced (A A' : Con K V) (y z : K × V) : Prop := ∀ x, A' x ↔ (A x ∧ x ≠ y) ∨ x = z

/-- `y` has been removed. -/
def Removed (A A' : Con K V) (y : K × V) : Prop := ∀ x, A' x ↔ A x ∧ x ≠ y

/-- `z` has been added. -/
def Added (A A' : Con K V) (z : K × V) : Prop := ∀ x, A' x ↔ A x ∨ x = z

/-- `visit(k,f)` (`wr = true`) or `cvisit(k,f)`, `contains`, `count` (`wr = false`): the element is passed to `f`, which may
change its mapped value if the access is not const. -/
def Visit (eq : K → K → Bool) (wr : Bool) (k : K) (f : K × V → V) (A A' : Con K V) (r : Nat) : Prop :=
  (∃ y, A y ∧ eq k y.1 = true ∧ Replaced A A' y (y.1, if wr then f y else y.2) ∧ r = 1) ∨
  (¬ Present eq A k ∧ Same A A' ∧ r = 0)

/-- `insert(x)`, `emplace`, `insert_or_visit`, `insert_and_visit`: an equivalent element is passed to `f2` and the answer is
false, or `x` is added, passed to `f1`, and the answer is true. -/
def Insert (eq : K → K → Bool) (wr : Bool) (x : K × V) (f2 f1 : K × V → V) (A A' : Con K V) (r : Nat) : Prop :=
  (∃ y, A y ∧ eq x.1 y.1 = true ∧ Replaced A A' y (y.1, if wr then f2 y else y.2) ∧ r = 0) ∨
  (¬ Present eq A x.1 ∧ Added A A' (x.1, f1 x) ∧ r = 1)

/-- `erase(k)`, `erase_if(k,p)`: the element goes if `p` says so (`none`), else stays with the mapped value `p` left. -/
def Erase (eq : K → K → Bool) (k : K) (p : K × V → Option V) (A A' : Con K V) (r : Nat) : Prop :=
  (∃ y, A y ∧ eq k y.1 = true ∧
    ((p y = none ∧ Removed A A' y ∧ r = 1) ∨ ∃ v, p y = some v ∧ Replaced A A' y (y.1, v) ∧ r = 0)) ∨
  (¬ Present eq A k ∧ Same A A' ∧ r = 0)

/-- `rehash(n)`, `reserve(n)` -/
def Keep (A A' : Con K V) (r : Nat) : Prop := Same A A' ∧ r = 0

/-- `clear()` -/
def Clear (A' : Con K V) (r : Nat) : Prop := (∀ x, ¬ A' x) ∧ r = 0

end SpecT

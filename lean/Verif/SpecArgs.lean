/-
Specification for C61: what insertions may do to the objects their arguments refer to. Independent of the model of the code.

Objects live at addresses; an object has a key part and a mapped part, each of which holds a value, has been moved from, or does not
exist. Arguments are references to parts of objects, which may be objects of the caller or elements of the container itself.
-/
namespace SpecArgs

variable {K V : Type}

/-- The state of (a part of) an object. -/
inductive Cell (α : Type) where
  | live (a : α)
  /-- moved from -/
  | husk
  /-- not constructed, or destroyed -/
  | dead
deriving DecidableEq, Repr

/-- All objects. No object exists at `next` and above. -/
structure Mem (K V : Type) where
  key : Nat → Cell K
  val : Nat → Cell V
  next : Nat

/-- A reference, with its value category: `rv` for an rvalue (the object may be moved from). -/
structure Ref where
  addr : Nat
  rv : Bool
deriving DecidableEq, Repr

/-- The container's elements are at the addresses `els`. Their mapped parts may have been moved from by the user. -/
structure Wf (m : Mem K V) (els : List Nat) : Prop where
  nodup : els.Nodup
  old : ∀ e ∈ els, e < m.next
  key : ∀ e ∈ els, ∃ k, m.key e = .live k
  val : ∀ e ∈ els, m.val e ≠ .dead
  free : ∀ x, m.next ≤ x → m.key x = .dead ∧ m.val x = .dead

/-- The caller's part: the arguments hold values, a key stored in the container is not passed as an rvalue (keys are const there), and
what is passed as an rvalue is not passed twice. -/
structure ArgsOk (m : Mem K V) (els : List Nat) (k : Ref) (args : List Ref) : Prop where
  key : ∃ k0, m.key k.addr = .live k0
  keyOut : k.rv = true → k.addr ∉ els
  vals : ∀ r ∈ args, ∃ v, m.val r.addr = .live v
  apart : args.Pairwise fun r r' => r.addr = r'.addr → r.rv = false ∧ r'.rv = false

/-- The key parts after the key was consumed through `k`. -/
def afterKey (m : Mem K V) (k : Ref) (x : Nat) : Cell K := if k.rv = true ∧ x = k.addr then .husk else m.key x

/-- The mapped parts after the arguments were consumed: those passed as rvalues are moved from. -/
def afterVal (m : Mem K V) (args : List Ref) (x : Nat) : Cell V := if (⟨x, true⟩ : Ref) ∈ args then .husk else m.val x

/-- Some element's key is equal to the argument's. -/
def Present (eq : K → K → Bool) (m : Mem K V) (els : List Nat) (k : Nat) : Prop :=
  ∃ e ∈ els, ∃ k0 ke, m.key k = .live k0 ∧ m.key e = .live ke ∧ eq k0 ke = true

/-- Nothing changed: no argument, no element, no object left behind. -/
def Same (m m' : Mem K V) : Prop := (∀ x, m'.key x = m.key x) ∧ ∀ x, m'.val x = m.val x

/-- An element was inserted, and is at address `a`: constructed from the values the arguments had. The other elements are where they
were or somewhere else, with the same keys and the same mapped values (except what was passed as an rvalue). Outside the container only
what was passed as an rvalue changed, and no object was left behind. -/
structure Inserted (m : Mem K V) (els : List Nat) (k : Ref) (args : List Ref) (mk : List V → V) (m' : Mem K V) (els' : List Nat)
    (a : Nat) : Prop where
  key : ∃ k0, m.key k.addr = .live k0 ∧ m'.key a = .live k0
  val : ∃ vs, args.map (fun r => m.val r.addr) = vs.map .live ∧ m'.val a = .live (mk vs)
  fresh : a ∉ els
  elems : ∃ f : Nat → Nat, els'.Perm (a :: els.map f) ∧
    ∀ e ∈ els, m'.key (f e) = m.key e ∧ m'.val (f e) = afterVal m args e
  outside : ∀ x, x < m.next → x ∉ els → m'.key x = afterKey m k x ∧ m'.val x = afterVal m args x
  gone : ∀ x, x ∉ els' → m.next ≤ x ∨ x ∈ els → m'.key x = .dead ∧ m'.val x = .dead

/-- The arguments were consumed, nothing else changed. -/
def Consumed (m : Mem K V) (k : Ref) (args : List Ref) (m' : Mem K V) : Prop :=
  (∀ x, m'.key x = afterKey m k x) ∧ ∀ x, m'.val x = afterVal m args x

/-- What an insertion of a key that must be unique does: the last component of the result tells whether it inserted, the one before is the
address of the element inserted, or of an element with an equal key. If it does not insert, nothing changes. -/
def Right (eq : K → K → Bool) (m : Mem K V) (els : List Nat) (k : Ref) (args : List Ref) (mk : List V → V)
    (r : Mem K V × List Nat × Nat × Bool) : Prop :=
  (r.2.2.2 = true ↔ ¬ Present eq m els k.addr) ∧ Wf r.1 r.2.1 ∧
  (r.2.2.2 = true → Inserted m els k args mk r.1 r.2.1 r.2.2.1) ∧
  (r.2.2.2 = false → Same m r.1 ∧ r.2.1 = els ∧ r.2.2.1 ∈ els ∧ Present eq m [r.2.2.1] k.addr)

/-- The same for insertions that construct something from the arguments `k'` and `args'` before looking up: these are consumed also if
nothing is inserted. -/
def RightEager (eq : K → K → Bool) (m : Mem K V) (els : List Nat) (k : Ref) (args : List Ref) (mk : List V → V) (k' : Ref)
    (args' : List Ref) (r : Mem K V × List Nat × Nat × Bool) : Prop :=
  (r.2.2.2 = true ↔ ¬ Present eq m els k.addr) ∧ Wf r.1 r.2.1 ∧
  (r.2.2.2 = true → Inserted m els k args mk r.1 r.2.1 r.2.2.1) ∧
  (r.2.2.2 = false → Consumed m k' args' r.1 ∧ r.2.1 = els ∧ r.2.2.1 ∈ els ∧ Present eq m [r.2.2.1] k.addr)

/-- What `insert_or_assign` does: if there is an element with an equal key, only that element's mapped part is overwritten with the value of
`obj`, which is moved from if it is an rvalue; the key argument is left alone. -/
def RightAssign (eq : K → K → Bool) (m : Mem K V) (els : List Nat) (k obj : Ref) (mk : List V → V)
    (r : Mem K V × List Nat × Nat × Bool) : Prop :=
  (r.2.2.2 = true ↔ ¬ Present eq m els k.addr) ∧ Wf r.1 r.2.1 ∧
  (r.2.2.2 = true → Inserted m els k [obj] mk r.1 r.2.1 r.2.2.1) ∧
  (r.2.2.2 = false → r.2.1 = els ∧ r.2.2.1 ∈ els ∧ Present eq m [r.2.2.1] k.addr ∧ r.1.val r.2.2.1 = m.val obj.addr ∧
    (∀ x, r.1.key x = m.key x) ∧ ∀ x, x ≠ r.2.2.1 → r.1.val x = afterVal m [obj] x)

end SpecArgs

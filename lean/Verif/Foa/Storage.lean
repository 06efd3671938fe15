/-
The storage of plain and concurrent open-addressing containers, with throwing allocators and throwing user code. A plain container
owns at most one block (elements and metadata); a concurrent container owns a second one, the access objects (one lock and one
insertion counter per group).
Sources: /repo/include/boost/unordered/detail/foa/core.hpp, /repo/include/boost/unordered/detail/foa/table.hpp,
/repo/include/boost/unordered/detail/foa/concurrent_table.hpp.

Every function below is the part of a function of the code that allocates, frees or hands over blocks, with its `try`/`catch` and
holders. What the calls store in the blocks is left out (`Verif/Foa/Table.lean`, `Verif/Conc/Table.lean` model that): the number of
slots a call asks for, and whether a call decides to reallocate, are arbitrary inputs of the call. All user code between two storage
actions (hashing, comparing, copying, moving elements, hash and equality objects) is one point that may throw. The locks a
concurrent container takes around these calls are left out.
-/
namespace Storage

/-- What is fixed at compile time: fancy pointers, propagation traits; `groups n` is the number of groups for `n` slots
(`size_policy::size(size_index_for(n))`, core.hpp:1083-1084), left arbitrary. -/
structure Cfg where
  groups : Nat → Nat
  fancy : Bool := false
  pocca : Bool := false
  pocma : Bool := false
  pocs : Bool := false

/-- The two sorts of blocks. -/
inductive Part where
  | elements
  | accesses
  deriving DecidableEq, Repr

/-- A block: address, sort, allocator, number of groups (the sizes given to `allocate` and `deallocate` are functions of it:
`buffer_size(groups)` for elements, core.hpp:1060, 1098; `groups` for access objects, concurrent_table.hpp:295, 334). -/
abbrev Block := Nat × Part × Nat × Nat

/-- The live blocks, the next address (addresses are not reused) and the number of points that could have thrown so far. -/
structure Heap where
  blocks : List Block := []
  next : Nat := 1
  tick : Nat := 0
  deriving DecidableEq, Repr

/-- `allocate` -/
def Heap.alloc (h : Heap) (p : Part) (al k : Nat) : Heap :=
  { blocks := (h.next, p, al, k) :: h.blocks, next := h.next + 1, tick := h.tick + 1 }

/-- an allocation, or user code, throws -/
def Heap.ticked (h : Heap) : Heap := { h with tick := h.tick + 1 }

/-- `deallocate`: undefined unless exactly such a block is alive. -/
def Heap.free (h : Heap) (b : Block) : Option Heap :=
  if b ∈ h.blocks then some { h with blocks := h.blocks.erase b } else none

/-- `table_arrays`/`concurrent_table_arrays` (core.hpp:1133-1136, concurrent_table.hpp:338): number of groups, whether `elements()` is
non-null, address of the elements' block, address of the access objects' block (`0`: static objects, or none). -/
structure Arr where
  k : Nat
  elems : Bool
  id : Nat
  acc : Nat
  deriving DecidableEq, Repr

/-- A container: concurrent or plain, its allocator, its arrays. -/
structure Box where
  conc : Bool
  al : Nat
  arr : Arr
  deriving DecidableEq, Repr

/-- Result of a call: normal, by exception (with what the objects involved are then), undefined behaviour. -/
inductive Out (α : Type) where
  | ok (a : α) (h : Heap)
  | exc (a : α) (h : Heap)
  | bad

variable (cfg : Cfg) (may : Nat → Bool)

/-- `table_arrays::new_` (core.hpp:1081-1089, 1036-1079): with raw pointers no allocation for `n=0`. -/
def newElems (al n : Nat) (h : Heap) : Out (Option Arr) :=
  if cfg.fancy = false ∧ n = 0 then .ok (some ⟨cfg.groups 0, false, 0, 0⟩) h
  else if may h.tick then .exc none h.ticked
  else .ok (some ⟨cfg.groups n, true, h.next, 0⟩) (h.alloc .elements al (cfg.groups n))

/-- `table_arrays::delete_` (core.hpp:1091-1100). -/
def deleteElems (al : Nat) (a : Arr) (h : Heap) : Option Heap :=
  if a.elems then h.free (a.id, .elements, al, a.k) else some h

/-- `new_group_access`, `set_group_access` (concurrent_table.hpp:283-323). -/
def newAccess (al : Nat) (a : Arr) (h : Heap) : Out (Option Arr) :=
  if cfg.fancy = false ∧ a.elems = false then .ok (some { a with acc := 0 }) h
  else if may h.tick then .exc none h.ticked
  else .ok (some { a with acc := h.next }) (h.alloc .accesses al a.k)

/-- `delete_group_access` (concurrent_table.hpp:331-338). -/
def deleteAccess (al : Nat) (a : Arr) (h : Heap) : Option Heap :=
  if a.elems then h.free (a.acc, .accesses, al, a.k) else some h

/-- `new_arrays(n)` (core.hpp:2114-2117): `table_arrays::new_` or `concurrent_table_arrays::new_` (concurrent_table.hpp:270-281). -/
def newArrays (conc : Bool) (al n : Nat) (h : Heap) : Out (Option Arr) :=
  match newElems cfg may al n h with
  | .bad => .bad
  | .exc _ h => .exc none h
  | .ok none _ => .bad
  | .ok (some a) h =>
    if conc = false then .ok (some a) h
    else
      match newAccess cfg may al a h with
      | .bad => .bad
      | .ok a h => .ok a h
      | .exc _ h =>
        match deleteElems al a h with
        | none => .bad
        | some h => .exc none h

/-- `delete_arrays` (core.hpp:2135-2138): `table_arrays::delete_` or `concurrent_table_arrays::delete_`
(concurrent_table.hpp:325-329). -/
def deleteArrays (conc : Bool) (al : Nat) (a : Arr) (h : Heap) : Option Heap :=
  if conc then (deleteAccess al a h).bind (deleteElems al a) else deleteElems al a h

/-- Clean-up with `delete_arrays` before an exception goes on. -/
def failWith {α : Type} (a : α) : Option Heap → Out α
  | none => .bad
  | some h => .exc a h

/-- Clean-up with `delete_arrays` in normal execution. -/
def okWith {α : Type} (a : α) : Option Heap → Out α
  | none => .bad
  | some h => .ok a h

/-- Constructor from a capacity (core.hpp:1469-1475, 2102-2106). -/
def create (conc : Bool) (al n : Nat) (h : Heap) : Out (Option Box) :=
  match newArrays cfg may conc al n h with
  | .bad => .bad
  | .exc _ h => .exc none h
  | .ok none _ => .bad
  | .ok (some a) h => .ok (some ⟨conc, al, a⟩) h

/-- Destructor (core.hpp:1550-1556). -/
def Box.destroy (t : Box) (h : Heap) : Option Heap := deleteArrays t.conc t.al t.arr h

/-- `unchecked_rehash(new_arrays_)` (core.hpp:2287-2322): if transferring throws, the new arrays are deleted. -/
def Box.rehashInto (t : Box) (new : Arr) (h : Heap) : Out Box :=
  if may h.tick then failWith t (deleteArrays t.conc t.al new h.ticked)
  else okWith { t with arr := new } (deleteArrays t.conc t.al t.arr h.ticked)

/-- `unchecked_rehash(n)` (core.hpp:2281-2285), `unchecked_rehash_for_growth` (core.hpp:1974-1978), used by `rehash`, `reserve` and
the growth of concurrent containers. -/
def Box.rehash (t : Box) (n : Nat) (h : Heap) : Out Box :=
  match newArrays cfg may t.conc t.al n h with
  | .bad => .bad
  | .exc _ h => .exc t h
  | .ok none _ => .bad
  | .ok (some a) h => t.rehashInto may a h

/-- `unchecked_emplace_with_rehash` (core.hpp:1980-2002): first the new element goes into the new arrays. -/
def Box.emplaceGrow (t : Box) (n : Nat) (h : Heap) : Out Box :=
  match newArrays cfg may t.conc t.al n h with
  | .bad => .bad
  | .exc _ h => .exc t h
  | .ok none _ => .bad
  | .ok (some a) h =>
    if may h.tick then failWith t (deleteArrays t.conc t.al a h.ticked) else t.rehashInto may a h.ticked

/-- `noshrink_reserve` (core.hpp:2004-2020), `n` being the slots it asks for if it reallocates. -/
def Box.noshrinkReserve (t : Box) (n : Option Nat) (h : Heap) : Out Box :=
  match n with
  | none => .ok t h
  | some n =>
    match newArrays cfg may t.conc t.al n h with
    | .bad => .bad
    | .exc _ h => .exc t h
    | .ok none _ => .bad
    | .ok (some a) h => okWith { t with arr := a } (deleteArrays t.conc t.al t.arr h)

/-- Copy constructor with allocator (core.hpp:1495-1496, 1520-1524): it delegates, so if copying throws the destructor runs. -/
def Box.copy (x : Box) (al n : Nat) (h : Heap) : Out (Option Box) :=
  match create cfg may x.conc al n h with
  | .bad => .bad
  | .exc _ h => .exc none h
  | .ok none _ => .bad
  | .ok (some t) h => if may h.tick then failWith none (t.destroy h.ticked) else .ok (some t) h.ticked

/-- Move constructor (core.hpp:1498-1518): `make_empty_arrays` into a holder; moving the hash and equality objects may throw. -/
def Box.move (x : Box) (h : Heap) : Out (Option Box × Box) :=
  match newArrays cfg may x.conc x.al 0 h with
  | .bad => .bad
  | .exc _ h => .exc (none, x) h
  | .ok none _ => .bad
  | .ok (some e) h =>
    if may h.tick then failWith (none, x) (deleteArrays x.conc x.al e h.ticked)
    else .ok (some x, { x with arr := e }) h.ticked

/-- `reserve` (core.hpp:1833-1836, 1824-1831), `n` being the slots it asks for if it rehashes. -/
def Box.reserve (t : Box) (n : Option Nat) (h : Heap) : Out Box :=
  match n with
  | none => .ok t h
  | some n => t.rehash cfg may n h

/-- Allocator-extended move constructor (core.hpp:1526-1548), `n` being the slots `reserve` asks for if it rehashes. -/
def Box.moveAl (x : Box) (al : Nat) (n : Option Nat) (h : Heap) : Out (Option Box × Box) :=
  match create cfg may x.conc al 0 h with
  | .bad => .bad
  | .exc _ h => .exc (none, x) h
  | .ok none _ => .bad
  | .ok (some t) h =>
    if al = x.al then .ok (some { t with arr := x.arr }, { x with arr := t.arr }) h
    else
      match t.reserve cfg may n h with
      | .bad => .bad
      | .exc t h => failWith (none, x) (t.destroy h)
      | .ok t h => if may h.tick then failWith (none, x) (t.destroy h.ticked) else .ok (some t, x) h.ticked

/-- Copy assignment from a different object (core.hpp:1576-1614): `n` slots for the new arrays if the allocators differ and
propagate, `m` the slots `noshrink_reserve` asks for. -/
def Box.copyAssign (t x : Box) (n : Nat) (m : Option Nat) (h : Heap) : Out Box :=
  if may h.tick then .exc t h.ticked
  else
    match (if cfg.pocca = true ∧ t.al ≠ x.al then
        match newArrays cfg may x.conc x.al n h.ticked with
        | .bad => Out.bad
        | .exc _ h => .exc t h
        | .ok none _ => .bad
        | .ok (some a) h => okWith { t with arr := a, al := x.al } (deleteArrays t.conc t.al t.arr h)
      else .ok (if cfg.pocca then { t with al := x.al } else t) h.ticked) with
    | .bad => .bad
    | .exc t h => .exc t h
    | .ok t h =>
      match t.noshrinkReserve cfg may m h with
      | .bad => .bad
      | .exc t h => .exc t h
      | .ok t h => if may h.tick then .exc t h.ticked else .ok t h.ticked

/-- Move assignment from a different object (core.hpp:1621-1682). -/
def Box.moveAssign (t x : Box) (m : Option Nat) (h : Heap) : Out (Box × Box) :=
  if cfg.pocma = true ∨ t.al = x.al then
    match newArrays cfg may x.conc x.al 0 h with
    | .bad => .bad
    | .exc _ h => .exc (t, x) h
    | .ok none _ => .bad
    | .ok (some e) h =>
      okWith ({ t with al := if cfg.pocma then x.al else t.al, arr := x.arr }, { x with arr := e })
        (deleteArrays t.conc t.al t.arr h)
  else
    match t.noshrinkReserve cfg may m h with
    | .bad => .bad
    | .exc t h => .exc (t, x) h
    | .ok t h => if may h.tick then .exc (t, x) h.ticked else .ok (t, x) h.ticked

/-- `swap` (core.hpp:1761-1784). -/
def Box.swap (t x : Box) : Box × Box :=
  if cfg.pocs then (x, t) else ({ t with arr := x.arr }, { x with arr := t.arr })

/-- Concurrent container from a plain one (concurrent_table.hpp:501-527): the elements' block is taken over and access objects are
allocated for it; `x` gets the empty arrays made before. -/
def Box.toConcurrent (x : Box) (h : Heap) : Out (Option Box × Box) :=
  match newArrays cfg may false x.al 0 h with
  | .bad => .bad
  | .exc _ h => .exc (none, x) h
  | .ok none _ => .bad
  | .ok (some e) h =>
    if may h.tick then failWith (none, x) (deleteArrays false x.al e h.ticked)
    else
      match newAccess cfg may x.al x.arr h.ticked with
      | .bad => .bad
      | .exc _ h => failWith (none, x) (deleteArrays false x.al e h)
      | .ok none _ => .bad
      | .ok (some a) h => .ok (some ⟨true, x.al, a⟩, { x with arr := e }) h

/-- Plain container from a concurrent one (table.hpp:378-379, 590-612): the elements' block is taken over, the access objects are
freed. -/
def Box.toPlain (x : Box) (h : Heap) : Out (Option Box × Box) :=
  match newArrays cfg may true x.al 0 h with
  | .bad => .bad
  | .exc _ h => .exc (none, x) h
  | .ok none _ => .bad
  | .ok (some e) h =>
    if may h.tick then failWith (none, x) (deleteArrays true x.al e h.ticked)
    else okWith (some ⟨false, x.al, { x.arr with acc := 0 }⟩, { x with arr := e }) (deleteAccess x.al x.arr h.ticked)

/-- The calls of a program over container variables. Numbers of slots are arbitrary, see the head of this file. -/
inductive Call where
  | create (r : Nat) (conc : Bool) (al n : Nat)
  | destroy (r : Nat)
  | copy (r q al n : Nat)
  | move (r q : Nat)
  | moveAl (r q al : Nat) (n : Option Nat)
  | copyAssign (r q n : Nat) (m : Option Nat)
  | moveAssign (r q : Nat) (m : Option Nat)
  | swap (r q : Nat)
  | rehash (r n : Nat)
  | emplaceGrow (r n : Nat)
  | toConcurrent (r q : Nat)
  | toPlain (r q : Nat)
  deriving DecidableEq, Repr

/-- The program's state: the variables (`none`: no living container) and the heap. -/
structure St where
  vars : Nat → Option Box
  heap : Heap

/-- Assign a variable. -/
def setVar (f : Nat → Option Box) (r : Nat) (x : Option Box) : Nat → Option Box := fun q => if q = r then x else f q

/-- End of a call on one variable: the flag says whether it threw. -/
def on1 (s : St) (r : Nat) : Out (Option Box) → Option (St × Bool)
  | .bad => none
  | .ok x h => some (⟨setVar s.vars r x, h⟩, false)
  | .exc x h => some (⟨setVar s.vars r x, h⟩, true)

/-- End of a call on two variables. -/
def on2 (s : St) (r q : Nat) : Out (Option Box × Option Box) → Option (St × Bool)
  | .bad => none
  | .ok x h => some (⟨setVar (setVar s.vars r x.1) q x.2, h⟩, false)
  | .exc x h => some (⟨setVar (setVar s.vars r x.1) q x.2, h⟩, true)

/-- map the result -/
def Out.map {α β : Type} (f : α → β) : Out α → Out β
  | .bad => .bad
  | .ok a h => .ok (f a) h
  | .exc a h => .exc (f a) h

/-- One call in a program over `R` variables; `none`: undefined behaviour. Calls no program can contain (a constructor for a living
variable, a call on a dead one, assignment between different container types, `swap` of containers with unequal allocators that do
not propagate) do nothing. -/
def step (R : Nat) (s : St) : Call → Option (St × Bool)
  | .create r conc al n =>
    if r < R ∧ s.vars r = none then on1 s r (create cfg may conc al n s.heap) else some (s, false)
  | .destroy r =>
    match (if r < R then s.vars r else none) with
    | none => some (s, false)
    | some t => (t.destroy s.heap).map (fun h => (⟨setVar s.vars r none, h⟩, false))
  | .copy r q al n =>
    match (if r < R ∧ q < R ∧ r ≠ q ∧ s.vars r = none then s.vars q else none) with
    | none => some (s, false)
    | some x => on1 s r (x.copy cfg may al n s.heap)
  | .move r q =>
    match (if r < R ∧ q < R ∧ r ≠ q ∧ s.vars r = none then s.vars q else none) with
    | none => some (s, false)
    | some x => on2 s r q ((x.move cfg may s.heap).map (fun y => (y.1, some y.2)))
  | .moveAl r q al n =>
    match (if r < R ∧ q < R ∧ r ≠ q ∧ s.vars r = none then s.vars q else none) with
    | none => some (s, false)
    | some x => on2 s r q ((x.moveAl cfg may al n s.heap).map (fun y => (y.1, some y.2)))
  | .copyAssign r q n m =>
    match (if r < R ∧ q < R ∧ r ≠ q then s.vars r else none), s.vars q with
    | some t, some x =>
      if t.conc = x.conc then on1 s r ((t.copyAssign cfg may x n m s.heap).map some) else some (s, false)
    | _, _ => some (s, false)
  | .moveAssign r q m =>
    match (if r < R ∧ q < R ∧ r ≠ q then s.vars r else none), s.vars q with
    | some t, some x =>
      if t.conc = x.conc then on2 s r q ((t.moveAssign cfg may x m s.heap).map (fun y => (some y.1, some y.2)))
      else some (s, false)
    | _, _ => some (s, false)
  | .swap r q =>
    match (if r < R ∧ q < R ∧ r ≠ q then s.vars r else none), s.vars q with
    | some t, some x =>
      if t.conc = x.conc ∧ (cfg.pocs = true ∨ t.al = x.al) then
        on2 s r q (.ok (some (t.swap cfg x).1, some (t.swap cfg x).2) s.heap)
      else some (s, false)
    | _, _ => some (s, false)
  | .rehash r n =>
    match (if r < R then s.vars r else none) with
    | none => some (s, false)
    | some t => on1 s r ((t.rehash cfg may n s.heap).map some)
  | .emplaceGrow r n =>
    match (if r < R then s.vars r else none) with
    | none => some (s, false)
    | some t => on1 s r ((t.emplaceGrow cfg may n s.heap).map some)
  | .toConcurrent r q =>
    match (if r < R ∧ q < R ∧ r ≠ q ∧ s.vars r = none then s.vars q else none) with
    | none => some (s, false)
    | some x =>
      if x.conc = false then on2 s r q ((x.toConcurrent cfg may s.heap).map (fun y => (y.1, some y.2))) else some (s, false)
  | .toPlain r q =>
    match (if r < R ∧ q < R ∧ r ≠ q ∧ s.vars r = none then s.vars q else none) with
    | none => some (s, false)
    | some x =>
      if x.conc = true then on2 s r q ((x.toPlain cfg may s.heap).map (fun y => (y.1, some y.2))) else some (s, false)

/-- A program (exceptions are caught by the program, which goes on). -/
def run (R : Nat) : List Call → St → Option (St × List Bool)
  | [], s => some (s, [])
  | c :: cs, s =>
    match step cfg may R s c with
    | none => none
    | some (s', b) => (run R cs s').map (fun r => (r.1, b :: r.2))

/-- Program start: no container, no block. -/
def init : St := ⟨fun _ => none, {}⟩

/-- Program end: the living containers are destroyed. -/
def finish (vars : Nat → Option Box) : Nat → Heap → Option Heap
  | 0, h => some h
  | r + 1, h =>
    match vars r with
    | none => finish vars r h
    | some t => (t.destroy h).bind (finish vars r)

end Storage

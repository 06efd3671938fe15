/-
The storage of closed-addressing containers (unordered_map, unordered_multimap, unordered_set, unordered_multiset) and of their node
handles, with throwing allocators, element constructors, hash functions, key equalities and predicates. A container owns two arrays
(buckets and bucket groups; none if it has no buckets) and one block per element (node); a node handle owns at most one node.
Sources: /repo/include/boost/unordered/detail/implementation.hpp, /repo/include/boost/unordered/detail/fca.hpp,
/repo/include/boost/unordered/unordered_map.hpp (likewise unordered_set.hpp).

Every function below is the part of a function of the code that allocates, frees or hands over blocks, with its `try`/`catch` and
holders (`node_tmp`, `node_constructor`, local bucket arrays). Which keys are equivalent, the number of buckets a call asks for and
whether it reallocates at all are arbitrary inputs of the call (`Verif/Fca/Table.lean`, `Verif/Fca/Exceptions.lean` model those). The
nodes of a container are a list without the division into buckets; the call `order` may rearrange it at any time, so no order is
assumed. The nodes and arrays hold no throwing constructors (`bucket_type()`, `group()`, `node()` do not throw).
-/
namespace FcaStorage

/-- What is fixed at compile time: `size_policy::size(size_policy::size_index(n))` (left arbitrary), the buckets per group
(`group::N`), propagation traits. -/
structure Cfg where
  sizeFor : Nat → Nat
  N : Nat
  pocca : Bool := false
  pocma : Bool := false
  pocs : Bool := false

/-- The sorts of blocks. -/
inductive Part where
  | buckets
  | groups
  | node
  deriving DecidableEq, Repr

/-- A block: address, sort, allocator, the number of objects given to `allocate`/`deallocate`. -/
abbrev Block := Nat × Part × Nat × Nat

/-- What may throw: `allocate`, the constructor of an element, other user code (hash, key equality, predicate; construction and
assignment of these). -/
inductive Kind where
  | alloc
  | value
  | user
  deriving DecidableEq, Repr

/-- The live blocks, the next address (addresses are not reused) and the number of points that could have thrown so far. -/
structure Heap where
  blocks : List Block := []
  next : Nat := 1
  tick : Nat := 0
  deriving DecidableEq, Repr

/-- a point that may throw is passed -/
def Heap.ticked (h : Heap) : Heap := { h with tick := h.tick + 1 }

/-- `deallocate`: undefined unless exactly such a block is alive. -/
def Heap.free (h : Heap) (b : Block) : Option Heap :=
  if b ∈ h.blocks then some { h with blocks := h.blocks.erase b } else none

/-- `grouped_bucket_array` (fca.hpp:526-529) without its allocator: `size_`, `buckets`, `groups` (`0`: null). -/
structure Arr where
  size : Nat
  bks : Nat
  grs : Nat
  deriving DecidableEq, Repr

/-- default constructed (fca.hpp:540-545) -/
def Arr.empty : Arr := ⟨0, 0, 0⟩

/-- A container: the allocator (held by the bucket array, fca.hpp:691-699), the bucket array, the nodes in its buckets. -/
structure Box where
  al : Nat
  arr : Arr
  nodes : List Nat
  deriving DecidableEq, Repr

/-- A node handle (unordered_map.hpp:2534-2535): the node (`none`: null), the optional allocator. -/
structure Hnd where
  p : Option Nat
  a : Option Nat
  deriving DecidableEq, Repr

/-- Result of a call: normal, by exception (with what the objects involved are then), undefined behaviour or failed assertion. -/
inductive Out (α : Type) where
  | ok (a : α) (h : Heap)
  | exc (a : α) (h : Heap)
  | bad
  deriving DecidableEq, Repr

/-- Go on with `f` after a normal result, with `g` (the handler) after an exception. -/
def Out.bind {α β : Type} (o : Out α) (f g : α → Heap → Out β) : Out β :=
  match o with
  | .ok a h => f a h
  | .exc a h => g a h
  | .bad => .bad

/-- map the result -/
def Out.map {α β : Type} (f : α → β) : Out α → Out β
  | .bad => .bad
  | .ok a h => .ok (f a) h
  | .exc a h => .exc (f a) h

/-- Clean-up before an exception goes on. -/
def failWith {α : Type} (a : α) : Option Heap → Out α
  | none => .bad
  | some h => .exc a h

/-- Clean-up in normal execution. -/
def okWith {α : Type} (a : α) : Option Heap → Out α
  | none => .bad
  | some h => .ok a h

variable (cfg : Cfg) (may : Kind → Nat → Bool)

/-- User code that may throw. -/
def user (h : Heap) : Out Unit := if may .user h.tick then .exc () h.ticked else .ok () h.ticked

/-- `allocate` -/
def alloc (p : Part) (al k : Nat) (h : Heap) : Out Nat :=
  if may .alloc h.tick then .exc 0 h.ticked
  else .ok h.next { blocks := (h.next, p, al, k) :: h.blocks, next := h.next + 1, tick := h.tick + 1 }

/-! ### Bucket arrays -/

/-- `grouped_bucket_array(n, al)` (fca.hpp:546-594); `buckets_len`, `groups_len` (fca.hpp:716-718): if allocating the groups throws,
the buckets are freed. -/
def newArr (al n : Nat) (h : Heap) : Out Arr :=
  if n = 0 then .ok .empty h
  else
    (alloc may .buckets al (cfg.sizeFor n + 1) h).bind
      (fun b h =>
        (alloc may .groups al (cfg.sizeFor n / cfg.N + 1) h).bind (fun g h => .ok ⟨cfg.sizeFor n, b, g⟩ h)
          (fun _ h => failWith .empty (h.free (b, .buckets, al, cfg.sizeFor n + 1))))
      (fun _ h => .exc .empty h)

/-- `deallocate()` (fca.hpp:644-675), also the destructor (596) and, with setting the sizes to zero, `clear` (778-783). -/
def Arr.dealloc (a : Arr) (al : Nat) (h : Heap) : Option Heap :=
  (if a.bks = 0 then some h else h.free (a.bks, .buckets, al, a.size + 1)).bind
    (fun h => if a.grs = 0 then some h else h.free (a.grs, .groups, al, a.size / cfg.N + 1))

/-- `operator=(grouped_bucket_array&&)` from a different object (fca.hpp:614-637), `al`, `al'` being the allocators of the two: asserts
they are equal. The result is the target; the source becomes empty. -/
def takeArr (al : Nat) (a : Arr) (al' : Nat) (a' : Arr) (h : Heap) : Out Arr :=
  if al = al' then okWith a' (a.dealloc cfg al h) else .bad

/-! ### Nodes -/

/-- The `construct_node` family (implementation.hpp:707-818) with `node_constructor` (613-660): if the element's constructor throws, the
node is freed. -/
def newNode (al : Nat) (h : Heap) : Out Nat :=
  (alloc may .node al 1 h).bind
    (fun p h =>
      if may .value h.tick then failWith 0 (h.ticked.free (p, .node, al, 1)) else .ok p h.ticked)
    (fun _ h => .exc 0 h)

/-- `delete_node` (implementation.hpp:1535-1543), `~node_tmp` (685-692) -/
def deleteNode (al p : Nat) (h : Heap) : Option Heap := h.free (p, .node, al, 1)

/-- a loop of `delete_node` -/
def deleteNodes (al : Nat) : List Nat → Heap → Option Heap
  | [], h => some h
  | p :: ps, h => (deleteNode al p h).bind (deleteNodes al ps)

/-! ### Containers -/

/-- `delete_buckets` (implementation.hpp:1545-1558) -/
def Box.deleteBuckets (t : Box) (h : Heap) : Option Heap := (deleteNodes t.al t.nodes h).bind (t.arr.dealloc cfg t.al)

/-- `~table` (implementation.hpp:1533) -/
def Box.destroy (t : Box) (h : Heap) : Option Heap := t.deleteBuckets cfg h

/-- `clear_impl` (implementation.hpp:2706-2721) -/
def Box.clear (t : Box) (h : Heap) : Out Box := okWith { t with nodes := [] } (deleteNodes t.al t.nodes h)

/-- The loop of `rehash_impl` (implementation.hpp:2765-2783, 1802-1809): the nodes already linked in the new array, and the rest. Hashing
may throw; then the node at hand is still in the old array (2778-2781). -/
def transfer : List Nat → List Nat → Heap → Out (List Nat × List Nat)
  | [], done, h => .ok (done, []) h
  | p :: rest, done, h =>
    if may .user h.tick then .exc (done, p :: rest) h.ticked else transfer rest (done ++ [p]) h.ticked

/-- `rehash_impl(n)` (implementation.hpp:2759-2801): the handler deletes the nodes in the new array. -/
def Box.rehashImpl (t : Box) (n : Nat) (h : Heap) : Out Box :=
  (newArr cfg may t.al n h).bind
    (fun a h =>
      (transfer may t.nodes [] h).bind
        (fun m h => (takeArr cfg t.al t.arr t.al a h).map (fun a => { t with arr := a, nodes := m.1 }))
        (fun m h => failWith { t with nodes := m.2 } ((deleteNodes t.al m.1 h).bind (a.dealloc cfg t.al))))
    (fun _ h => .exc t h)

/-- `rehash`, `reserve`, `reserve_for_insert` (implementation.hpp:2729-2756): maybe `rehash_impl`. -/
def Box.grow (t : Box) (n : Option Nat) (h : Heap) : Out Box :=
  match n with
  | none => .ok t h
  | some n => t.rehashImpl cfg may n h

/-- A node held by a `node_tmp` goes into the container, after making room. -/
def Box.link (t : Box) (p : Nat) (g : Option Nat) (h : Heap) : Out Box :=
  (t.grow cfg may g h).bind (fun t h => .ok { t with nodes := p :: t.nodes } h)
    (fun t h => failWith t (deleteNode t.al p h))

/-- Insertion with a key at hand: `emplace_unique(k, args...)`, `try_emplace_unique`, `insert_or_assign_unique` and the variants with a
hint (implementation.hpp:1855-1888, 1962-2070): `dup` says whether an equivalent key is found. -/
def Box.emplaceKey (t : Box) (dup : Bool) (g : Option Nat) (h : Heap) : Out Box :=
  (user may h).bind
    (fun _ h =>
      if dup then .ok t h
      else (newNode may t.al h).bind (fun p h => t.link cfg may p g h) (fun _ h => .exc t h))
    (fun _ h => .exc t h)

/-- Insertion that builds the node first: `emplace_unique(no_key, ...)`, `emplace_hint_unique(hint, no_key, ...)`, the loop bodies of
range insertion, `emplace_equiv`, `emplace_hint_equiv`, `emplace_no_rehash_equiv` (implementation.hpp:1890-1945, 2183-2210,
2449-2509). -/
def Box.emplaceNode (t : Box) (dup : Bool) (g : Option Nat) (h : Heap) : Out Box :=
  (newNode may t.al h).bind
    (fun p h =>
      (user may h).bind
        (fun _ h => if dup then okWith t (deleteNode t.al p h) else t.link cfg may p g h)
        (fun _ h => failWith t (deleteNode t.al p h)))
    (fun _ h => .exc t h)

/-- The loop of range insertion: for every element, whether it is a duplicate and how the container grows. -/
def Box.insertLoop (t : Box) : List (Bool × Option Nat) → Heap → Out Box
  | [], h => .ok t h
  | x :: xs, h =>
    (t.emplaceNode cfg may x.1 x.2 h).bind (fun t h => insertLoop t xs h) (fun t h => .exc t h)

/-- `insert_range_unique` (implementation.hpp:2183-2210; `g = none`), `insert_range_equiv` (2572-2607). -/
def Box.insertRange (t : Box) (g : Option Nat) (xs : List (Bool × Option Nat)) (h : Heap) : Out Box :=
  (t.grow cfg may g h).bind (fun t h => t.insertLoop cfg may xs h) (fun t h => .exc t h)

/-- The loops of `copy_buckets`, `move_assign_buckets`, `move_construct_buckets` (implementation.hpp:2311-2323, 2334-2346, 2664-2675,
2687-2699, 1515-1527) for `n` elements: hashing (and moving out the element) before, hashing or searching after the node is built,
`node_tmp` holding it. -/
def Box.fill (t : Box) : Nat → Heap → Out Box
  | 0, h => .ok t h
  | n + 1, h =>
    (user may h).bind
      (fun _ h =>
        (newNode may t.al h).bind
          (fun p h =>
            (user may h).bind (fun _ h => fill { t with nodes := p :: t.nodes } n h)
              (fun _ h => failWith t (deleteNode t.al p h)))
          (fun _ h => .exc t h))
      (fun _ h => .exc t h)

/-- `copy_buckets` (implementation.hpp:2305-2324, 2657-2676) -/
def Box.copyBuckets (t : Box) (n : Nat) (g : Option Nat) (h : Heap) : Out Box :=
  (t.grow cfg may g h).bind (fun t h => t.fill may n h) (fun t h => .exc t h)

/-- Constructor (implementation.hpp:1392-1405): function objects, then the bucket array. -/
def create (al n : Nat) (h : Heap) : Out (Option Box) :=
  (user may h).bind
    (fun _ h => (newArr cfg may al n h).bind (fun a h => .ok (some ⟨al, a, []⟩) h) (fun _ h => .exc none h))
    (fun _ h => .exc none h)

/-- The rest of a constructor that works on the complete member `table_`: an exception runs the destructor of `table_`. -/
def Out.orDestroy (o : Out Box) : Out (Option Box) :=
  o.bind (fun t h => .ok (some t) h) (fun t h => failWith none (t.destroy cfg h))

/-- Constructor from a range or an initializer list (unordered_map.hpp:1411-1420, 1475-1484) -/
def fromRange (al n : Nat) (g : Option Nat) (xs : List (Bool × Option Nat)) (h : Heap) : Out (Option Box) :=
  (create cfg may al n h).bind
    (fun t h =>
      match t with
      | none => .bad
      | some t => Out.orDestroy cfg (t.insertRange cfg may g xs h))
    (fun _ h => .exc none h)

/-- Copy constructor, also with allocator (implementation.hpp:1407-1412, unordered_map.hpp:1439-1475). -/
def Box.copy (x : Box) (al : Nat) (g : Option Nat) (h : Heap) : Out (Option Box) :=
  (create cfg may al x.nodes.length h).bind
    (fun t h =>
      match t with
      | none => .bad
      | some t => if x.nodes = [] then .ok (some t) h else Out.orDestroy cfg (t.copyBuckets cfg may x.nodes.length g h))
    (fun _ h => .exc none h)

/-- Move constructor (implementation.hpp:1414-1420, fca.hpp:601-612) -/
def Box.move (x : Box) (h : Heap) : Out (Option Box × Box) :=
  (user may h).bind (fun _ h => .ok (some x, { x with arr := .empty, nodes := [] }) h) (fun _ h => .exc (none, x) h)

/-- `move_buckets_from` (implementation.hpp:1490-1499): target and source. -/
def Box.moveBucketsFrom (t x : Box) (h : Heap) : Out (Box × Box) :=
  (takeArr cfg t.al t.arr x.al x.arr h).map
    (fun a => ({ t with arr := a, nodes := x.nodes }, { x with arr := .empty, nodes := [] }))

/-- Move constructor with allocator (implementation.hpp:1422-1427, 1502-1528, unordered_map.hpp:1467-1473). With unequal allocators the
source keeps its nodes (holding moved-from elements). -/
def Box.moveAl (x : Box) (al : Nat) (g : Option Nat) (h : Heap) : Out (Option Box × Box) :=
  (create cfg may al x.arr.size h).bind
    (fun t h =>
      match t with
      | none => .bad
      | some t =>
        if al = x.al then (t.moveBucketsFrom cfg x h).map (fun y => (some y.1, y.2))
        else if x.nodes = [] then .ok (some t, x) h
        else (Out.orDestroy cfg (t.copyBuckets cfg may x.nodes.length g h)).map (fun y => (y, x)))
    (fun _ h => .exc (none, x) h)

/-- `assign` without change of allocator, `assign(x, is_unique, false_type)` (implementation.hpp:1580-1603), from a different object:
`g` is the room made before, `g'` that made after clearing. -/
def Box.assignSame (t x : Box) (g g' : Option Nat) (h : Heap) : Out Box :=
  (user may h).bind
    (fun _ h =>
      (t.grow cfg may g h).bind
        (fun t h => (t.clear h).bind (fun t h => t.copyBuckets cfg may x.nodes.length g' h) (fun t h => .exc t h))
        (fun t h => .exc t h))
    (fun _ h => .exc t h)

/-- Copy assignment from a different object (implementation.hpp:1569-1629). -/
def Box.copyAssign (t x : Box) (g g' : Option Nat) (h : Heap) : Out Box :=
  if cfg.pocca = false then t.assignSame cfg may x g g' h
  else if t.al = x.al then Box.assignSame cfg may { t with al := x.al } x g g' h
  else
    (newArr cfg may x.al x.nodes.length h).bind
      (fun a h =>
        (user may h).bind
          (fun _ h =>
            match t.deleteBuckets cfg h with
            | none => .bad
            | some h =>
              (takeArr cfg x.al .empty x.al a h).bind
                (fun a h =>
                  (Box.grow cfg may ⟨x.al, a, []⟩ g h).bind
                    (fun t h => if x.nodes = [] then .ok t h else t.copyBuckets cfg may x.nodes.length g' h)
                    (fun t h => .exc t h))
                (fun _ _ => .bad))
          (fun _ h => failWith t (a.dealloc cfg x.al h)))
      (fun _ h => .exc t h)

/-- Move assignment from a different object (implementation.hpp:1632-1704). -/
def Box.moveAssign (t x : Box) (g : Option Nat) (h : Heap) : Out (Box × Box) :=
  (user may h).bind
    (fun _ h =>
      if cfg.pocma = true ∨ t.al = x.al then
        match t.deleteBuckets cfg h with
        | none => .bad
        | some h => Box.moveBucketsFrom cfg ⟨if cfg.pocma then x.al else t.al, .empty, []⟩ x h
      else
        (t.grow cfg may g h).bind
          (fun t h => ((t.clear h).bind (fun t h => t.fill may x.nodes.length h) (fun t h => .exc t h)).map (fun t => (t, x)))
          (fun t h => .exc (t, x) h))
    (fun _ h => .exc (t, x) h)

/-- `swap` with a different object (implementation.hpp:1443-1485, fca.hpp:681-689, 901-920). -/
def Box.swap (t x : Box) (h : Heap) : Out (Box × Box) :=
  if cfg.pocs = false ∧ t.al ≠ x.al then .bad
  else
    (user may h).bind
      (fun _ h => .ok ({ x with al := if cfg.pocs then x.al else t.al }, { t with al := if cfg.pocs then t.al else x.al }) h)
      (fun _ h => .exc (t, x) h)

/-- `erase(position)`, `erase(key)` with unique keys (implementation.hpp:2230-2261): the node number `i`, if there is one (else the key
is not found). -/
def Box.erase (t : Box) (i : Nat) (h : Heap) : Out Box :=
  (user may h).bind
    (fun _ h =>
      match t.nodes[i]? with
      | none => .ok t h
      | some p => okWith { t with nodes := t.nodes.eraseIdx i } (deleteNode t.al p h))
    (fun _ h => .exc t h)

/-- `erase_if`, `erase(first, last)`, `erase(key)` with equivalent keys (implementation.hpp:2928-2944, 2263-2300, 2626-2647): `mask` says
which nodes go; before each, user code (predicate, comparison) may throw. Result: the nodes that stay. -/
def eraseLoop (al : Nat) : List Nat → List Bool → Heap → Out (List Nat)
  | [], _, h => .ok [] h
  | p :: ps, mask, h =>
    if may .user h.tick then .exc (p :: ps) h.ticked
    else if mask.headD false then
      match deleteNode al p h.ticked with
      | none => .bad
      | some h => eraseLoop al ps mask.tail h
    else (eraseLoop al ps mask.tail h.ticked).map (fun l => p :: l)

/-- see `eraseLoop` -/
def Box.eraseMany (t : Box) (mask : List Bool) (h : Heap) : Out Box :=
  (eraseLoop may t.al t.nodes mask h).map (fun l => { t with nodes := l })

/-- `extract` (implementation.hpp:1788-1799, 2215-2224, 2612-2619, unordered_map.hpp:293-316, 1033-1051): the handle has the container's
allocator even if nothing was found. -/
def Box.extract (t : Box) (i : Nat) (h : Heap) : Out (Box × Option Hnd) :=
  (user may h).bind (fun _ h => .ok ({ t with nodes := t.nodes.eraseIdx i }, some ⟨t.nodes[i]?, some t.al⟩) h)
    (fun _ h => .exc (t, none) h)

/-- `insert(node_type&&)`, also with a hint (implementation.hpp:2073-2139, 2512-2563). If the key is present the node stays with the
handle (without a hint and with unique keys it moves on to the handle in the result: `Hnd.moveCtor`). -/
def Box.insertNode (t : Box) (x : Hnd) (dup : Bool) (g : Option Nat) (h : Heap) : Out (Box × Hnd) :=
  match x.p with
  | none => .ok (t, x) h
  | some p =>
    (user may h).bind
      (fun _ h =>
        if dup then .ok (t, x) h
        else
          (t.grow cfg may g h).bind
            (fun t h =>
              (user may h).bind (fun _ h => .ok ({ t with nodes := p :: t.nodes }, { x with p := none }) h)
                (fun _ h => .exc (t, x) h))
            (fun t h => .exc (t, x) h))
      (fun _ h => .exc (t, x) h)

/-- The loop of `merge_unique` (implementation.hpp:2155-2173): the nodes of the source not reached yet and those passed over; `mask` says
which are transferred. Result: (target's nodes, source's nodes). -/
def mergeLoop : List Nat → List Nat → List Nat → List Bool → Heap → Out (List Nat × List Nat)
  | [], passed, mine, _, h => .ok (mine, passed) h
  | p :: ps, passed, mine, mask, h =>
    if may .user h.tick then .exc (mine, passed ++ p :: ps) h.ticked
    else if mask.headD false then mergeLoop ps passed (p :: mine) mask.tail h.ticked
    else mergeLoop ps (passed ++ [p]) mine mask.tail h.ticked

/-- `merge` into a container with unique keys from a different container (implementation.hpp:2142-2174): asserts equal allocators. -/
def Box.mergeUnique (t x : Box) (g : Option Nat) (mask : List Bool) (h : Heap) : Out (Box × Box) :=
  if t.al ≠ x.al then .bad
  else if x.nodes = [] then .ok (t, x) h
  else
    (t.grow cfg may g h).bind
      (fun t h =>
        (mergeLoop may x.nodes [] t.nodes mask h).map (fun m => ({ t with nodes := m.1 }, { x with nodes := m.2 })))
      (fun t h => .exc (t, x) h)

/-- `~node_handle_map` (unordered_map.hpp:2547-2554): reads the optional allocator if there is a node. -/
def Hnd.destroy (x : Hnd) (h : Heap) : Option Heap :=
  match x.p with
  | none => some h
  | some p =>
    match x.a with
    | none => none
    | some al => deleteNode al p h

/-- `merge` into a container with equivalent keys from a different container (unordered_map.hpp:2326-2363): every node goes through a
temporary handle, which an exception destroys together with the node. `gs`: how the container grows each time. -/
def mergeMultiLoop (t : Box) (al : Nat) : List Nat → List (Option Nat) → Heap → Out (Box × List Nat)
  | [], _, h => .ok (t, []) h
  | p :: ps, gs, h =>
    (t.insertNode cfg may ⟨some p, some al⟩ false (gs.headD none) h).bind
      (fun y h =>
        match y.2.destroy h with
        | none => .bad
        | some h => mergeMultiLoop y.1 al ps gs.tail h)
      (fun y h => failWith (y.1, ps) (y.2.destroy h))

/-- see `mergeMultiLoop` -/
def Box.mergeMulti (t x : Box) (gs : List (Option Nat)) (h : Heap) : Out (Box × Box) :=
  (mergeMultiLoop cfg may t x.al x.nodes gs h).map (fun y => (y.1, { x with nodes := y.2 }))

/-! ### Node handles -/

/-- Move constructor (unordered_map.hpp:2556-2561, implementation.hpp:431-436): new handle, source. -/
def Hnd.moveCtor (x : Hnd) : Hnd × Hnd := (x, ⟨none, none⟩)

/-- Move assignment from a different handle (unordered_map.hpp:2563-2586): target, source. Asserts that the allocator propagates, or the
target has none, or both are equal. -/
def Hnd.assign (y x : Hnd) (h : Heap) : Out (Hnd × Hnd) :=
  if y.a = none ∨ cfg.pocma = true ∨ (x.a ≠ none ∧ y.a = x.a) then
    okWith (if y.a = none ∨ cfg.pocma = true then (⟨x.p, x.a⟩, ⟨none, none⟩) else (⟨x.p, y.a⟩, ⟨none, x.a⟩)) (y.destroy h)
  else .bad

/-- `swap` (unordered_map.hpp:2609-2625) with its assertion. -/
def Hnd.swap (y x : Hnd) (h : Heap) : Out (Hnd × Hnd) :=
  if y.a = none ∨ x.a = none ∨ cfg.pocs = true ∨ y.a = x.a then
    .ok (if cfg.pocs = true ∨ y.a = none ∨ x.a = none then (x, y) else (⟨x.p, y.a⟩, ⟨y.p, x.a⟩)) h
  else .bad

/-! ### Programs -/

/-- An object of the program. -/
inductive Obj where
  | box (t : Box)
  | hnd (x : Hnd)
  deriving DecidableEq, Repr

/-- The calls of a program over variables. `g`, `gs`, `xs`, `mask`, `dup`: see the head of this file. -/
inductive Call where
  | create (r al n : Nat)
  | fromRange (r al n : Nat) (g : Option Nat) (xs : List (Bool × Option Nat))
  | copy (r q al : Nat) (g : Option Nat)
  | move (r q : Nat)
  | moveAl (r q al : Nat) (g : Option Nat)
  | destroy (r : Nat)
  | copyAssign (r q : Nat) (g g' : Option Nat)
  | moveAssign (r q : Nat) (g : Option Nat)
  | swap (r q : Nat)
  | clear (r : Nat)
  | rehash (r : Nat) (g : Option Nat)
  | emplaceKey (r : Nat) (dup : Bool) (g : Option Nat)
  | emplaceNode (r : Nat) (dup : Bool) (g : Option Nat)
  | insertRange (r : Nat) (g : Option Nat) (xs : List (Bool × Option Nat))
  | erase (r i : Nat)
  | eraseMany (r : Nat) (mask : List Bool)
  | extract (r i k : Nat)
  | insertNode (r k : Nat) (dup : Bool) (g : Option Nat)
  | mergeUnique (r q : Nat) (g : Option Nat) (mask : List Bool)
  | mergeMulti (r q : Nat) (gs : List (Option Nat))
  | hNew (k : Nat)
  | hMove (k j : Nat)
  | hAssign (k j : Nat)
  | hSwap (k j : Nat)
  | order (r : Nat) (ns : List Nat)
  deriving DecidableEq, Repr

/-- The program's state: the variables (`none`: no living object) and the heap. -/
structure St where
  vars : Nat → Option Obj
  heap : Heap

/-- Assign a variable. -/
def setVar (f : Nat → Option Obj) (r : Nat) (x : Option Obj) : Nat → Option Obj := fun q => if q = r then x else f q

/-- End of a call on one variable: the flag says whether it threw. -/
def on1 (s : St) (r : Nat) : Out (Option Obj) → Option (St × Bool)
  | .bad => none
  | .ok x h => some (⟨setVar s.vars r x, h⟩, false)
  | .exc x h => some (⟨setVar s.vars r x, h⟩, true)

/-- End of a call on two variables. -/
def on2 (s : St) (r q : Nat) : Out (Option Obj × Option Obj) → Option (St × Bool)
  | .bad => none
  | .ok x h => some (⟨setVar (setVar s.vars r x.1) q x.2, h⟩, false)
  | .exc x h => some (⟨setVar (setVar s.vars r x.1) q x.2, h⟩, true)

/-- The container in a variable among `R`. -/
def St.box (s : St) (R r : Nat) : Option Box :=
  if r < R then (match s.vars r with | some (.box t) => some t | _ => none) else none

/-- The handle in a variable among `R`. -/
def St.hnd (s : St) (R r : Nat) : Option Hnd :=
  if r < R then (match s.vars r with | some (.hnd x) => some x | _ => none) else none

/-- One call on a living container. -/
def one (R : Nat) (s : St) (r : Nat) (f : Box → Heap → Out Box) : Option (St × Bool) :=
  match s.box R r with
  | none => some (s, false)
  | some t => on1 s r ((f t s.heap).map (fun t => some (.box t)))

/-- One call on two different living containers. -/
def two (R : Nat) (s : St) (r q : Nat) (f : Box → Box → Heap → Out (Box × Box)) : Option (St × Bool) :=
  match s.box R r, s.box R q with
  | some t, some x =>
    if r = q then some (s, false) else on2 s r q ((f t x s.heap).map (fun y => (some (.box y.1), some (.box y.2))))
  | _, _ => some (s, false)

/-- Construction of `r` from the container `q`. -/
def build (R : Nat) (s : St) (r q : Nat) (f : Box → Heap → Out (Option Box × Box)) : Option (St × Bool) :=
  match s.box R q with
  | none => some (s, false)
  | some x =>
    if r < R ∧ s.vars r = none then on2 s r q ((f x s.heap).map (fun y => (y.1.map .box, some (.box y.2)))) else some (s, false)

/-- A call on two different living handles. -/
def hTwo (R : Nat) (s : St) (k j : Nat) (f : Hnd → Hnd → Heap → Out (Hnd × Hnd)) : Option (St × Bool) :=
  match s.hnd R k, s.hnd R j with
  | some y, some x =>
    if k = j then some (s, false) else on2 s k j ((f y x s.heap).map (fun z => (some (.hnd z.1), some (.hnd z.2))))
  | _, _ => some (s, false)

/-- The requirement of move assignment of handles: the allocators are equal unless they propagate or a handle has none. -/
def okAssign (y x : Hnd) : Bool := y.a.isNone || cfg.pocma || (x.a.isSome && y.a == x.a)

/-- The requirement of `swap` of handles. -/
def okSwap (y x : Hnd) : Bool := y.a.isNone || x.a.isNone || cfg.pocs || y.a == x.a

/-- One call in a program over `R` variables; `none`: undefined behaviour. Calls no program may contain do nothing: a constructor for
a living variable, a call on a dead one or on one of the wrong type; `swap` of containers with unequal allocators that do not
propagate; `merge` and insertion of a node with unequal allocators; assignment and `swap` of handles against their requirements. -/
def step (R : Nat) (s : St) : Call → Option (St × Bool)
  | .create r al n =>
    if r < R ∧ s.vars r = none then on1 s r ((create cfg may al n s.heap).map (fun t => t.map .box)) else some (s, false)
  | .fromRange r al n g xs =>
    if r < R ∧ s.vars r = none then on1 s r ((fromRange cfg may al n g xs s.heap).map (fun t => t.map .box))
    else some (s, false)
  | .copy r q al g => build R s r q (fun x h => (x.copy cfg may al g h).map (fun t => (t, x)))
  | .move r q => build R s r q (fun x h => x.move may h)
  | .moveAl r q al g => build R s r q (fun x h => x.moveAl cfg may al g h)
  | .destroy r =>
    match s.box R r, s.hnd R r with
    | some t, _ => (t.destroy cfg s.heap).map (fun h => (⟨setVar s.vars r none, h⟩, false))
    | none, some x => (x.destroy s.heap).map (fun h => (⟨setVar s.vars r none, h⟩, false))
    | none, none => some (s, false)
  | .copyAssign r q g g' => two R s r q (fun t x h => (t.copyAssign cfg may x g g' h).map (fun t => (t, x)))
  | .moveAssign r q g => two R s r q (fun t x h => t.moveAssign cfg may x g h)
  | .swap r q => two R s r q (fun t x h => if cfg.pocs = true ∨ t.al = x.al then t.swap cfg may x h else .ok (t, x) h)
  | .clear r => one R s r (fun t h => t.clear h)
  | .rehash r g => one R s r (fun t h => t.grow cfg may g h)
  | .emplaceKey r dup g => one R s r (fun t h => t.emplaceKey cfg may dup g h)
  | .emplaceNode r dup g => one R s r (fun t h => t.emplaceNode cfg may dup g h)
  | .insertRange r g xs => one R s r (fun t h => t.insertRange cfg may g xs h)
  | .erase r i => one R s r (fun t h => t.erase may i h)
  | .eraseMany r mask => one R s r (fun t h => t.eraseMany may mask h)
  | .extract r i k =>
    match s.box R r with
    | none => some (s, false)
    | some t =>
      if k < R ∧ s.vars k = none then on2 s r k ((t.extract may i s.heap).map (fun y => (some (.box y.1), y.2.map .hnd)))
      else some (s, false)
  | .insertNode r k dup g =>
    match s.box R r, s.hnd R k with
    | some t, some x =>
      if x.p ≠ none ∧ x.a ≠ some t.al then some (s, false)
      else on2 s r k ((t.insertNode cfg may x dup g s.heap).map (fun y => (some (.box y.1), some (.hnd y.2))))
    | _, _ => some (s, false)
  | .mergeUnique r q g mask => two R s r q (fun t x h => if t.al = x.al then t.mergeUnique cfg may x g mask h else .ok (t, x) h)
  | .mergeMulti r q gs => two R s r q (fun t x h => if t.al = x.al then t.mergeMulti cfg may x gs h else .ok (t, x) h)
  | .hNew k => if k < R ∧ s.vars k = none then on1 s k (.ok (some (.hnd ⟨none, none⟩)) s.heap) else some (s, false)
  | .hMove k j =>
    match s.hnd R j with
    | none => some (s, false)
    | some x =>
      if k < R ∧ s.vars k = none then on2 s k j (.ok (some (.hnd x.moveCtor.1), some (.hnd x.moveCtor.2)) s.heap)
      else some (s, false)
  | .hAssign k j => hTwo R s k j (fun y x h => if okAssign cfg y x then y.assign cfg x h else .ok (y, x) h)
  | .hSwap k j => hTwo R s k j (fun y x h => if okSwap cfg y x then y.swap cfg x h else .ok (y, x) h)
  | .order r ns => one R s r (fun t h => .ok (if ns.isPerm t.nodes then { t with nodes := ns } else t) h)

/-- A program (exceptions are caught by the program, which goes on). -/
def run (R : Nat) : List Call → St → Option (St × List Bool)
  | [], s => some (s, [])
  | c :: cs, s =>
    match step cfg may R s c with
    | none => none
    | some (s', b) => (run R cs s').map (fun r => (r.1, b :: r.2))

/-- Program start: no object, no block. -/
def init : St := ⟨fun _ => none, {}⟩

/-- Destruction of an object. -/
def Obj.destroy : Obj → Heap → Option Heap
  | .box t, h => t.destroy cfg h
  | .hnd x, h => x.destroy h

/-- Program end: the living objects are destroyed. -/
def finish (vars : Nat → Option Obj) : Nat → Heap → Option Heap
  | 0, h => some h
  | r + 1, h =>
    match vars r with
    | none => finish vars r h
    | some x => (x.destroy cfg h).bind (finish vars r)

end FcaStorage

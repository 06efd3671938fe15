/-
Node handles of concurrent node containers, used by any number of threads.
Sources: /repo/include/boost/unordered/concurrent_node_map.hpp (and concurrent_node_set.hpp), detail/foa/concurrent_table.hpp,
detail/foa/node_handle.hpp, detail/foa/node_map_types.hpp, detail/foa/element_type.hpp.

The container is the concurrent table of `Verif.Conc.Table`, every access to shared memory a separate step; node handles are
those of `Verif.Node.Handle`. An element of the table is a pointer to a node.

Simplifications
* The payload of an element is the address of its node and the mapped value in that node. While a node is in the container its
  value is the one in the table; the value in the heap is brought up to date when the node is extracted.
* The address of the node an `emplace` may construct is chosen when `emplace` is called; the node exists from the construction
  on. Addresses are not reused.
* `insert(node_type&&)` that answers false returns the node in a new handle; here that handle is put back into the variable the
  node came from (`nh=map.insert(std::move(nh)).node`).
* A handle variable in use by a call is not accessed otherwise until the call returns (else there is a data race).
* Nothing throws. One container; allocators are numbers and no call modelled here changes the container's.
-/
import Verif.Conc.Table
import Verif.Node.Handle

namespace Conc.Nodes
open Conc.Tab Foa Node
open Spec (upd)
open Conc.Locking (Mode)

variable {K V : Type}

/-- An element: key, address of the node, mapped value (detail/foa/element_type.hpp:20-56). -/
abbrev Elem (K V : Type) := K × (Nat × V)

/-- `value_from(element)` (node_map_types.hpp:37-40) -/
def Elem.val (y : Elem K V) : K × V := (y.1, y.2.2)
def Elem.node (y : Elem K V) : Nat := y.2.1

/-- What a callback given a reference to the value does to the element: it does not see the node. -/
def onValue (f : K × V → V) (y : Elem K V) : Nat × V := (y.node, f y.val)
def onValueP (p : K × V → Option V) (y : Elem K V) : Option (Nat × V) := (p y.val).map fun v => (y.node, v)
def onValueA (act : K × V → Verdict V) (y : Elem K V) : Verdict (Nat × V) :=
  match act y.val with
  | .go v n => .go (y.node, v) n
  | .stop v n => .stop (y.node, v) n
  | .erase => .erase

/-- Calls. `h` is a handle variable. -/
inductive Call (K V : Type) where
  | visit (m : Mode) (k : K) (f : K × V → V)
  /-- `emplace`, `insert(x)`, `try_emplace` and their `_or_visit` / `_and_visit` forms -/
  | emplace (m : Mode) (x : K × V) (f2 f1 : K × V → V)
  /-- `insert(std::move(h))`, `insert_or_[c]visit(std::move(h),f2)`, `insert_and_[c]visit(std::move(h),f1,f2)`
  (concurrent_node_map.hpp:512-530, 603-620) -/
  | insertNode (m : Mode) (h : Nat) (f2 f1 : K × V → V)
  | erase (k : K) (p : K × V → Option V)
  /-- `h=extract(k)`, `h=extract_if(k,p)` (concurrent_node_map.hpp:1094-1127) -/
  | extract (h : Nat) (k : K) (p : K × V → Option V)
  | sweep (m : Mode) (act : K × V → Verdict V)
  | rehash (n : Nat)
  | reserve (n : Nat)
  | clear

/-- What the call in progress of a thread does with nodes: `emplace i` constructs the node at address `i`. -/
inductive Task where
  | none
  | emplace (i : Nat)
  | insert (h : Nat)
  | extract (h : Nat)
deriving DecidableEq

/-- The handle variable a task works on. -/
def Task.uses : Task → Option Nat
  | .insert h | .extract h => some h
  | _ => Option.none

/-- The container, the memory for nodes, the handles, and what the threads are doing. `bad`: undefined behaviour. -/
structure St (K V : Type) where
  tab : State K (Nat × V)
  heap : Heap K V
  hnd : Nat → Hnd
  task : Nat → Task
  bad : Bool

/-- The operation on the table, `none` if there is nothing to do: insertion of an empty handle returns at once
(concurrent_node_map.hpp:516-518). `access::element(nh)` (node_handle.hpp:87-91) is the node of the handle. -/
def Call.op (s : St K V) : Call K V → Option (Op K (Nat × V))
  | .visit m k f => some (.key (.visit m k (onValue f)))
  | .emplace m x f2 f1 => some (.key (.insert m (x.1, (s.heap.next, x.2)) (onValue f2) (onValue f1)))
  | .insertNode m h f2 f1 =>
    match (s.hnd h).p with
    | none => none
    | some i =>
      match s.heap.cell i with
      | none => none
      | some (x, _) => some (.key (.insert m (x.1, (i, x.2)) (onValue f2) (onValue f1)))
  | .erase k p => some (.key (.erase k (onValueP p)))
  | .extract _ k p => some (.key (.erase k (onValueP p)))
  | .sweep m act => some (.sweep m (onValueA act))
  | .rehash n => some (.ex (.rehash n))
  | .reserve n => some (.ex (.reserve n))
  | .clear => some (.ex .clear)

def Call.task (s : St K V) : Call K V → Task
  | .emplace _ _ _ _ => .emplace s.heap.next
  | .insertNode _ h _ _ => .insert h
  | .extract h _ _ => .extract h
  | _ => .none

/-- The address chosen for `emplace` is not chosen again. -/
def Call.next (s : St K V) : Call K V → Nat
  | .emplace _ _ _ _ => s.heap.next + 1
  | _ => s.heap.next

/-- What the caller must respect: the handle is not in use; `BOOST_ASSERT(get_allocator()==nh.get_allocator())`
(concurrent_node_map.hpp:521); the handle extracted into is new, or empty. -/
def Call.Pre (al : Nat) (s : St K V) : Call K V → Prop
  | .insertNode _ h _ _ => (∀ u, (s.task u).uses ≠ some h) ∧ Open.accepts al (s.hnd h) = true
  | .extract h _ _ => (∀ u, (s.task u).uses ≠ some h) ∧ (s.hnd h).p = none
  | _ => True

/-- What a step of a thread at `pc` does to nodes. -/
inductive Change (K V : Type) where
  | keep
  /-- an element is constructed -/
  | put (x : Elem K V)
  /-- the element is erased -/
  | take (y : Elem K V)
  /-- all elements are erased -/
  | all

/-- `construct_element` (concurrent_table.hpp:1707-1713) when nobody has inserted in between; `extract_if` and `erase_if(k,p)`
when the predicate says so (918-926, 990-993); `erase_if(f)` (935-941); `clear` (969-973). -/
def change (m : Mem K (Nat × V)) : Pc K (Nat × V) → Change K V
  | .insInc (.insert _ x _ _) c _ _ => if m.cnt (m.pos0 x.1) % 2 ^ 32 = c % 2 ^ 32 then .put x else .keep
  | .hit (.erase _ p) pb j =>
    match m.slot pb.pos j with
    | none => .keep
    | some y =>
      match p y with
      | none => .take y
      | some _ => .keep
  | .swAt _ act g (j :: _) _ =>
    match m.slot g j with
    | none => .keep
    | some y =>
      match act y with
      | .erase => .take y
      | _ => .keep
  | .start (.ex .clear) => .all
  | _ => .keep

/-- `construct(al,p,args...)` allocates and constructs the node (node_map_types.hpp:100-118). -/
def construct (m : Heap K V) (al : Nat) (x : Elem K V) : Heap K V :=
  { m with cell := upd m.cell x.node (some (x.val, al)) }

/-- The node is moved out of an element with its present value. -/
def store (m : Heap K V) (al : Nat) (y : Elem K V) : Heap K V :=
  { m with cell := upd m.cell y.node (some (y.val, al)) }

/-- The effect of a change made by a thread with the given task. `none`: undefined behaviour. -/
def apply (al : Nat) (t : Task) (elems : List (Elem K V)) (m : Heap K V) (hnd : Nat → Hnd) :
    Change K V → Option (Heap K V × (Nat → Hnd))
  | .keep => some (m, hnd)
  | .put x =>
    match t with
    -- `construct(A&,element_type* p,element_type&& x){p->p=x.p; x.p=nullptr;}` (node_map_types.hpp:65-70)
    | .insert h => some (m, upd hnd h { hnd h with p := none })
    | _ => some (construct m al x, hnd)
  | .take y =>
    match t with
    -- `ext(std::move(*p),this->al())` (concurrent_table.hpp:991, node_handle.hpp:302-305); the element destroyed then is null
    | .extract h => (Open.emplace (hnd h) y.node al).map fun x => (store m al y, upd hnd h x)
    -- `destroy_element` (node_map_types.hpp:137-143)
    | _ => (m.free al y.node).map fun m' => (m', hnd)
  | .all => (m.freeAll al (elems.map Elem.node)).map fun m' => (m', hnd)

/-- After the table has answered `r`: `access::reset(nh)` if the node was inserted (concurrent_node_map.hpp:523-528); a node not
inserted is moved into the handle returned (526). -/
def finish (hnd : Nat → Hnd) (t : Task) (r : Nat) : Option (Nat → Hnd) :=
  match t with
  | .insert h =>
    if r = 1 then (Open.reset (hnd h)).map (upd hnd h)
    else (Open.refused (hnd h)).map fun x => upd hnd h x.1
  | _ => some hnd

/-- Labels of steps: `call t c`: thread `t` calls `c`; `tab t`: a step of its call; `ret t r`: it returns with the answer `r`;
`drop h`: the handle in `h` is destroyed and a new one constructed; `move g h`: `g=std::move(h)`; `write h f`: the value of the
node in `h` is changed, key included. -/
inductive Lab (K V : Type) where
  | call (t : Nat) (c : Call K V)
  | tab (t : Nat)
  | ret (t r : Nat)
  | drop (h : Nat)
  | move (g h : Nat)
  | write (h : Nat) (f : K × V → K × V)

/-- The threads that are not executing a call. -/
def Free (s : St K V) (t : Nat) : Prop := s.task t = .none ∧ (s.tab.pc t = .idle ∨ ∃ r, s.tab.pc t = .done r)

/-- A step. `al` is the allocator of the container. -/
inductive Step (cfg : Foa.Cfg) (pocma : Bool) (al : Nat) (s : St K V) : Lab K V → St K V → Prop where
  | call (t c o) : Free s t → c.Pre al s → c.op s = some o →
      Step cfg pocma al s (.call t c)
        { s with tab := s.tab.set t s.tab.mem (.start o), task := upd s.task t (c.task s),
                 heap := { s.heap with next := c.next s } }
  | tab (t s' m hnd) : s.tab.pc t ≠ .idle → (∀ r, s.tab.pc t ≠ .done r) → StepBy cfg t s.tab s' →
      apply al (s.task t) s.tab.mem.tab.contents s.heap s.hnd (change s.tab.mem (s.tab.pc t)) = some (m, hnd) →
      Step cfg pocma al s (.tab t) { s with tab := s', heap := m, hnd := hnd }
  | tabBad (t s') : s.tab.pc t ≠ .idle → (∀ r, s.tab.pc t ≠ .done r) → StepBy cfg t s.tab s' →
      apply al (s.task t) s.tab.mem.tab.contents s.heap s.hnd (change s.tab.mem (s.tab.pc t)) = none →
      Step cfg pocma al s (.tab t) { s with bad := true }
  | ret (t r hnd) : s.tab.pc t = .done r → s.task t ≠ .none → finish s.hnd (s.task t) r = some hnd →
      Step cfg pocma al s (.ret t r) { s with hnd := hnd, task := upd s.task t .none }
  | retBad (t r) : s.tab.pc t = .done r → s.task t ≠ .none → finish s.hnd (s.task t) r = none →
      Step cfg pocma al s (.ret t r) { s with bad := true }
  | drop (h m) : (∀ u, (s.task u).uses ≠ some h) → Open.destroy s.heap (s.hnd h) = some m →
      Step cfg pocma al s (.drop h) { s with heap := m, hnd := upd s.hnd h .dflt }
  | dropBad (h) : (∀ u, (s.task u).uses ≠ some h) → Open.destroy s.heap (s.hnd h) = none →
      Step cfg pocma al s (.drop h) { s with bad := true }
  | move (g h r) : g ≠ h → (∀ u, (s.task u).uses ≠ some h ∧ (s.task u).uses ≠ some g) →
      Open.assign pocma s.heap (s.hnd g) (s.hnd h) = some r →
      Step cfg pocma al s (.move g h) { s with heap := r.1, hnd := upd (upd s.hnd g r.2.1) h r.2.2 }
  | moveBad (g h) : g ≠ h → (∀ u, (s.task u).uses ≠ some h ∧ (s.task u).uses ≠ some g) →
      Open.assign pocma s.heap (s.hnd g) (s.hnd h) = none →
      Step cfg pocma al s (.move g h) { s with bad := true }
  | write (h i m f) : (∀ u, (s.task u).uses ≠ some h) → (s.hnd h).p = some i → s.heap.write i f = some m →
      Step cfg pocma al s (.write h f) { s with heap := m }
  | writeBad (h i f) : (∀ u, (s.task u).uses ≠ some h) → (s.hnd h).p = some i → s.heap.write i f = none →
      Step cfg pocma al s (.write h f) { s with bad := true }

/-- A new container, no nodes, empty handles. -/
def init (cfg : Foa.Cfg) (f : Fns K) (al n : Nat) : St K V :=
  ⟨Conc.Tab.init cfg f al n, .init, fun _ => .dflt, fun _ => .none, false⟩

/-- States reachable without wrap-around of an insertion counter during a single insertion. -/
inductive Reach (cfg : Foa.Cfg) (pocma : Bool) (f : Fns K) (al n : Nat) : St K V → Prop where
  | init : Reach cfg pocma f al n (init cfg f al n)
  | step {s lab s'} : Reach cfg pocma f al n s → NoWrap s.tab → Step cfg pocma al s lab s' → Reach cfg pocma f al n s'

end Conc.Nodes

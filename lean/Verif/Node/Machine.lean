/-
Programs over containers of nodes and node handles. The containers hold pointers: the element of slot/bucket position is
(key, node address), where the key is a copy of the one in the node (an invariant of the refinement proof: keys are changed
through handles only). The table operations are those of `Verif/Foa/Table.lean` and `Verif/Fca/Table.lean`, instantiated in
`Verif/Node/FoaCont.lean` and `Verif/Node/FcaCont.lean`.
-/
import Verif.SpecNode
import Verif.Node.Handle

namespace Node
open Spec (upd)
open SpecNode (Op)
variable {K V C : Type}

/-- Operations of a container of node pointers. Outer `none` = undefined behaviour. Lists are the nodes the operation deletes. -/
structure ContImpl (K C : Type) where
  new_ : (K → Nat) → (K → K → Bool) → Nat → C
  al : C → Nat
  /-- insertion of a new node; `false`: an equivalent element is there -/
  emplace : C → K × Nat → Option (C × Bool)
  /-- insertion of the node of a handle -/
  insertNode : C → K × Nat → Option (C × Bool)
  /-- the same with hint `next(begin(),i)` -/
  insertHint : C → Nat → K × Nat → Option (C × Bool)
  extract : C → K → Option (C × Option (K × Nat))
  erase : C → K → Option (C × List (K × Nat))
  clear : C → Option (C × List (K × Nat))
  /-- destructor -/
  destroy : C → Option (List (K × Nat))
  /-- `c.merge(d)`, different containers -/
  merge : C → C → Option (C × C)
  /-- different containers; `pocs` -/
  swap : Bool → C → C → Option (C × C)
  /-- move assignment from a different container that takes over its memory; `pocma` -/
  moveAssign : Bool → C → C → Option (C × C × List (K × Nat))

/-- Machine state: memory, containers, handles. -/
structure St (K V C : Type) where
  m : Heap K V
  c : Nat → C
  h : Nat → Hnd

/-- compile-time configuration: which library, allocator traits -/
abbrev Cfg := SpecNode.Cfg

/-! handle operations of the library chosen: `keep` = closed-addressing -/

def hDestroy (cfg : Cfg) (m : Heap K V) (x : Hnd) : Option (Heap K V) :=
  if cfg.keep then Closed.destroy m x else Open.destroy m x

def hMoveCtor (cfg : Cfg) (x : Hnd) : Option (Hnd × Hnd) := if cfg.keep then some (Closed.moveCtor x) else Open.moveCtor x

def hAssign (cfg : Cfg) (m : Heap K V) (y x : Hnd) : Option (Heap K V × Hnd × Hnd) :=
  if cfg.keep then Closed.assign cfg.pocma m y x else Open.assign cfg.pocma m y x

def hAssignSelf (cfg : Cfg) (m : Heap K V) (y : Hnd) : Option (Heap K V × Hnd) :=
  if cfg.keep then Closed.assignSelf cfg.pocma m y else Open.assignSelf m y

def hSwap (cfg : Cfg) (y x : Hnd) : Option (Hnd × Hnd) :=
  if cfg.keep then Closed.swap cfg.pocs y x else Open.swap cfg.pocs y x

def hOfExtract (cfg : Cfg) (al : Nat) (i : Option Nat) : Option Hnd :=
  if cfg.keep then some (Closed.ofExtract al i) else Open.ofExtract al i

def hAccepts (cfg : Cfg) (al : Nat) (x : Hnd) : Bool := if cfg.keep then Closed.accepts al x else Open.accepts al x

def hTaken (cfg : Cfg) (x : Hnd) : Option Hnd := if cfg.keep then some (Closed.taken x) else Open.taken x

def hRefused (cfg : Cfg) (m : Heap K V) (x : Hnd) : Option (Heap K V × Hnd × Hnd) :=
  if cfg.keep then Closed.refused cfg.pocma m x else (Open.refused x).map (fun r => (m, r))

section
variable (I : ContImpl K C) (cfg : Cfg)

/-- `c.insert(std::move(h))`: unordered_node_map.hpp:352-369; unordered_map.hpp:318-323, 1053-1056 with implementation.hpp:2072-2108,
2512-2533. Result: the answer and, if keys are unique, the handle in it. -/
def insertNode (s : St K V C) (c h : Nat) : Option (St K V C × Bool × Hnd) :=
  let x := s.h h
  match x.p with
  | none => some (s, false, .dflt)
  | some i =>
    if hAccepts cfg (I.al (s.c c)) x then
      -- the key is read through the pointer
      match s.m.cell i with
      | none => none
      | some ((k, _), _) =>
        match I.insertNode (s.c c) (k, i) with
        | none => none
        | some (t, true) => (hTaken cfg x).map (fun x' => ({ s with c := upd s.c c t, h := upd s.h h x' }, true, .dflt))
        | some (t, false) =>
          (hRefused cfg s.m x).map (fun r => ({ s with m := r.1, c := upd s.c c t, h := upd s.h h r.2.2 }, false, r.2.1))
    else none

/-- the hinted version: unordered_node_map.hpp:371-387; implementation.hpp:2110-2140, 2536-2562: a refused node stays in the handle -/
def insertNodeHint (s : St K V C) (c i h : Nat) : Option (St K V C × Bool) :=
  let x := s.h h
  match x.p with
  | none => some (s, false)
  | some p =>
    if hAccepts cfg (I.al (s.c c)) x then
      match s.m.cell p with
      | none => none
      | some ((k, _), _) =>
        match I.insertHint (s.c c) i (k, p) with
        | none => none
        | some (t, true) => (hTaken cfg x).map (fun x' => ({ s with c := upd s.c c t, h := upd s.h h x' }, true))
        | some (t, false) => some ({ s with c := upd s.c c t }, false)
    else none

/-- the nodes of a list of elements are freed -/
def freeElems (m : Heap K V) (al : Nat) (l : List (K × Nat)) : Option (Heap K V) := m.freeAll al (l.map Prod.snd)

/-- the handle variable `g`: the object there is destroyed and `x` constructed in its place -/
def putHandle (s : St K V C) (g : Nat) (x : Hnd) : Option (St K V C) :=
  (hDestroy cfg s.m (s.h g)).map (fun m => { s with m := m, h := upd s.h g x })

/-- One call. -/
def step (s : St K V C) : Op K V → Option (St K V C × Bool)
  | .construct c hash eq al =>
    match I.destroy (s.c c) with
    | none => none
    | some l => (freeElems s.m (I.al (s.c c)) l).map (fun m => ({ s with m := m, c := upd s.c c (I.new_ hash eq al) }, true))
  | .emplace c x =>
    -- a node is constructed first and destroyed again if not needed (table.hpp:412-424 for general arguments;
    -- implementation.hpp:1900-1947). Insertions that look up the key first allocate no node in the second case.
    match s.m.new_ (I.al (s.c c)) x with
    | (m, i) =>
      match I.emplace (s.c c) (x.1, i) with
      | none => none
      | some (t, true) => some ({ s with m := m, c := upd s.c c t }, true)
      | some (t, false) => (m.free (I.al (s.c c)) i).map (fun m' => ({ s with m := m', c := upd s.c c t }, false))
  | .erase c k =>
    match I.erase (s.c c) k with
    | none => none
    | some (t, l) => (freeElems s.m (I.al (s.c c)) l).map (fun m => ({ s with m := m, c := upd s.c c t }, true))
  | .clear c =>
    match I.clear (s.c c) with
    | none => none
    | some (t, l) => (freeElems s.m (I.al (s.c c)) l).map (fun m => ({ s with m := m, c := upd s.c c t }, true))
  | .extract c h k =>
    match I.extract (s.c c) k with
    | none => none
    | some (t, e) =>
      match hOfExtract cfg (I.al t) (e.map Prod.snd) with
      | none => none
      | some x => (putHandle cfg { s with c := upd s.c c t } h x).map (fun s' => (s', e.isSome))
  | .insert c h g =>
    match insertNode I cfg s c h with
    | none => none
    | some (s', b, x) => if cfg.uniq then (putHandle cfg s' g x).map (fun s'' => (s'', b)) else some (s', b)
  | .insertHint c i h => insertNodeHint I cfg s c i h
  | .moveHandle g h =>
    match hMoveCtor cfg (s.h h) with
    | none => none
    | some (y, x) => (putHandle cfg { s with h := upd s.h h x } g y).map (fun s' => (s', true))
  | .assignHandle g h =>
    if g = h then (hAssignSelf cfg s.m (s.h g)).map (fun r => ({ s with m := r.1, h := upd s.h g r.2 }, true))
    else (hAssign cfg s.m (s.h g) (s.h h)).map (fun r => ({ s with m := r.1, h := upd (upd s.h g r.2.1) h r.2.2 }, true))
  | .swapHandles g h =>
    -- `if(this!=&nh)` (node_handle.hpp:203); the closed-addressing version exchanges members with themselves
    -- (unordered_map.hpp:2613-2624)
    if g = h then some (s, true)
    else (hSwap cfg (s.h g) (s.h h)).map (fun r => ({ s with h := upd (upd s.h g r.1) h r.2 }, true))
  | .resetHandle g => (putHandle cfg s g .dflt).map (fun s' => (s', true))
  | .setKey h k =>
    match (s.h h).p with
    | none => some (s, true)
    | some i => (s.m.write i (fun e => (k, e.2))).map (fun m => ({ s with m := m }, true))
  | .setMapped h v =>
    match (s.h h).p with
    | none => some (s, true)
    | some i => (s.m.write i (fun e => (e.1, v))).map (fun m => ({ s with m := m }, true))
  | .merge c d => if c = d then none else (I.merge (s.c c) (s.c d)).map (fun r => ({ s with c := upd (upd s.c c r.1) d r.2 }, true))
  | .swap c d =>
    if c = d then some (s, true)
    else (I.swap cfg.pocs (s.c c) (s.c d)).map (fun r => ({ s with c := upd (upd s.c c r.1) d r.2 }, true))
  | .moveAssign c d =>
    if c = d then some (s, true)
    else
      match I.moveAssign cfg.pocma (s.c c) (s.c d) with
      | none => none
      | some (t, x, l) =>
        (freeElems s.m (I.al (s.c c)) l).map (fun m => ({ s with m := m, c := upd (upd s.c c t) d x }, true))

/-- A program. -/
def run : List (Op K V) → St K V C → Option (St K V C × List Bool)
  | [], s => some (s, [])
  | op :: ops, s =>
    match step I cfg s op with
    | none => none
    | some (s', b) => (run ops s').map (fun r => (r.1, b :: r.2))

/-- Program start. -/
def start (hash : K → Nat) (eq : K → K → Bool) : St K V C := ⟨.init, fun _ => I.new_ hash eq 0, fun _ => .dflt⟩

/-- Program end: the handles and containers below `n` are destroyed. -/
def finish : Nat → St K V C → Option (Heap K V)
  | 0, s => some s.m
  | n + 1, s =>
    match hDestroy cfg s.m (s.h n) with
    | none => none
    | some m =>
      match I.destroy (s.c n) with
      | none => none
      | some l =>
        match freeElems m (I.al (s.c n)) l with
        | none => none
        | some m' => finish n { s with m := m' }

end
end Node

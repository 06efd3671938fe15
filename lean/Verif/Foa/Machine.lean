/-
Programs over several flat/node containers: the public operations of unordered_flat_map/set and unordered_node_map/set in
terms of the table operations.
Source: /repo/include/boost/unordered/unordered_flat_map.hpp (likewise unordered_flat_set.hpp, unordered_node_map.hpp,
unordered_node_set.hpp), /repo/include/boost/unordered/detail/foa/table.hpp.
-/
import Verif.Spec
import Verif.Foa.IterErase

namespace Foa
open Spec (Op Res upd)
variable {K V : Type}

namespace Table

/-- `insert`/`emplace`/`try_emplace` (table.hpp:412-455; unordered_flat_map.hpp insert overloads), and reading through
the returned iterator. -/
def opInsert (cfg : Cfg) (t : Table K V) (x : K × V) : Option (Table K V × Res K V) :=
  match t.emplaceImpl cfg x with
  | none => none
  | some (t', p, b) =>
    match t'.deref p with
    | none => none
    | some e => some (t', .ins e b)

/-- `insert(first,last)`: `for(;pos!=last;++pos) table_.emplace(*pos)` (unordered_flat_map.hpp:323-343). -/
def insertRange (cfg : Cfg) : List (K × V) → Table K V → Option (Table K V)
  | [], t => some t
  | x :: xs, t =>
    match t.emplaceImpl cfg x with
    | none => none
    | some (t', _, _) => insertRange cfg xs t'

/-- `insert_or_assign` (unordered_flat_map.hpp:346-405): `try_emplace`, then assign if not inserted. -/
def opInsertOrAssign (cfg : Cfg) (t : Table K V) (k : K) (v : V) : Option (Table K V × Res K V) :=
  match t.emplaceImpl cfg (k, v) with
  | none => none
  | some (t', p, true) =>
    match t'.deref p with
    | none => none
    | some e => some (t', .ins e true)
  | some (t', p, false) =>
    match t'.assignAt p v with
    | none => none
    | some t'' =>
      match t''.deref p with
      | none => none
      | some e => some (t'', .ins e false)

/-- `operator[]` (unordered_flat_map.hpp:583-602): `try_emplace(k).first->second`. -/
def opIndex (cfg : Cfg) (t : Table K V) (k : K) (d : V) : Option (Table K V × Res K V) :=
  match t.emplaceImpl cfg (k, d) with
  | none => none
  | some (t', p, _) =>
    match t'.deref p with
    | none => none
    | some e => some (t', .val (some e.2))

/-- `find` followed by a read if found (unordered_flat_map.hpp:532-580, 604-660). -/
def lookup (t : Table K V) (k : K) : Option (Option (K × V)) :=
  match t.find k with
  | none => none
  | some none => some none
  | some (some p) =>
    match t.deref p with
    | none => none
    | some e => some (some e)

/-- `it=find(k); if(it!=end()) erase(it)`, the returned iterator discarded (table.hpp:474-482). -/
def opEraseIt (t : Table K V) (k : K) : Option (Table K V) :=
  match t.find k with
  | none => none
  | some none => some t
  | some (some p) => t.eraseBytes (itAt p).pc (15 * p.1 + p.2)

/-- `extract(k)` of node containers (unordered_node_map.hpp:558-583, table.hpp:504-521): the element's node pointer is
moved to the handle, the slot erased. -/
def opExtract (t : Table K V) (k : K) : Option (Table K V × Res K V) :=
  match t.find k with
  | none => none
  | some none => some (t, .elem none)
  | some (some p) =>
    match t.deref p with
    | none => none
    | some e =>
      match t.eraseAt p with
      | none => none
      | some t' => some (t', .elem (some e))

/-- `for(it=begin();it!=end();)` with erasure (see `Table.eraseWalk`). The bound on the number of rounds is the size. -/
def opEraseWalk (regular : Bool) (t : Table K V) (pr : K × V → Bool) : Option (Table K V × Res K V) :=
  match t.arr.begin_ regular with
  | none => none
  | some it => (t.eraseWalk regular pr t.size it).map (fun r => (r.1, .list r.2))

/-- Elements at a list of positions; UB if one is not live. -/
def derefAll (t : Table K V) : List Pos → Option (List (K × V))
  | [] => some []
  | p :: ps =>
    match t.deref p with
    | none => none
    | some e => (derefAll t ps).map (e :: ·)

/-- `for(it=begin();it!=end();++it)`; more than `size()` rounds would be reported as a fault. -/
def opIterate (regular : Bool) (t : Table K V) : Option (Res K V) :=
  match (t.arr.begin_ regular).bind (t.arr.walk regular t.size) with
  | none => none
  | some ps => (t.derefAll ps).map .list

end Table

/-- Configuration of the compiled library: allocator traits and group layout. -/
structure MCfg extends Cfg where
  regular : Bool := true

def MCfg.traits (c : MCfg) : Spec.Traits := ⟨c.pocca, c.pocma, c.pocs⟩

/-- apply an operation to one container variable -/
def on1 (s : Nat → Table K V) (r : Nat) (x : Option (Table K V × Res K V)) : Option ((Nat → Table K V) × Res K V) :=
  x.map (fun y => (upd s r y.1, y.2))

/-- read-only operation -/
def on0 (s : Nat → Table K V) (x : Option (Res K V)) : Option ((Nat → Table K V) × Res K V) := x.map (fun y => (s, y))

/-- destroy what is in `r` (core.hpp:1550-1556), then construct -/
def ctor (s : Nat → Table K V) (r : Nat) (x : Option (Table K V)) : Option ((Nat → Table K V) × Res K V) :=
  match (s r).destroy with
  | none => none
  | some _ => x.map (fun t => (upd s r t, .unit))

/-- two-container operation -/
def on2 (s : Nat → Table K V) (r q : Nat) (x : Option (Table K V × Table K V)) :
    Option ((Nat → Table K V) × Res K V) :=
  x.map (fun y => (upd (upd s r y.1) q y.2, .unit))

/-- One call. `none` = undefined behaviour. Self-assignment is a no-op (core.hpp:1583, 1631); a self-swap exchanges an object
with itself. -/
def step (c : MCfg) (veq : K × V → K × V → Bool) (s : Nat → Table K V) :
    Op K V → Option ((Nat → Table K V) × Res K V)
  | .construct r h e al n => ctor s r (some (Table.mk_ c.toCfg ⟨h, e⟩ al n))
  | .insert r x => on1 s r ((s r).opInsert c.toCfg x)
  | .insertRange r xs => on1 s r ((Table.insertRange c.toCfg xs (s r)).map (fun t => (t, .unit)))
  | .insertOrAssign r k v => on1 s r ((s r).opInsertOrAssign c.toCfg k v)
  | .index r k d => on1 s r ((s r).opIndex c.toCfg k d)
  | .at r k => on0 s (((s r).lookup k).map (fun e => .val (e.map Prod.snd)))
  | .find r k => on0 s (((s r).lookup k).map .elem)
  | .count r k => on0 s (((s r).find k).map (fun p => .num (if p.isSome then 1 else 0)))
  | .contains r k => on0 s (((s r).find k).map (fun p => .bool p.isSome))
  | .erase r k => on1 s r (((s r).eraseKey k).map (fun y => (y.1, .num y.2)))
  | .eraseIt r k => on1 s r (((s r).opEraseIt k).map (fun t => (t, .unit)))
  | .extract r k => on1 s r ((s r).opExtract k)
  | .eraseIf r pr => on1 s r (((s r).eraseIf pr).map (fun y => (y.1, .num y.2)))
  | .eraseWalk r pr => on1 s r ((s r).opEraseWalk c.regular pr)
  | .clear r => on1 s r (some ((s r).clear, .unit))
  | .rehash r n => on1 s r (((s r).rehash c.toCfg n).map (fun t => (t, .unit)))
  | .reserve r n => on1 s r (((s r).reserve c.toCfg n).map (fun t => (t, .unit)))
  | .copyConstruct r q al => ctor s r ((s q).copyCtor c.toCfg al)
  | .moveConstruct r q =>
    match (s r).destroy with
    | none => none
    | some _ => on2 s r q (some ((s q).moveCtor c.toCfg))
  | .moveConstructAlloc r q al =>
    match (s r).destroy with
    | none => none
    | some _ => on2 s r q ((s q).moveCtorAlloc c.toCfg al)
  | .copyAssign r q =>
    if r = q then some (s, .unit) else on1 s r (((s r).copyAssign c.toCfg (s q)).map (fun t => (t, .unit)))
  | .moveAssign r q => if r = q then some (s, .unit) else on2 s r q ((s r).moveAssign c.toCfg (s q))
  | .swap r q => on2 s r q ((s r).swap c.toCfg (s q))
  | .merge r q =>
    if r = q then on1 s r ((Table.mergeSelfLoop c.toCfg (s r).arr.occ (s r)).map (fun t => (t, .unit)))
    else on2 s r q ((s r).merge c.toCfg (s q))
  | .size r => some (s, .num (s r).size)
  | .isEmpty r => some (s, .bool (decide ((s r).size = 0)))
  | .iterate r => on0 s ((s r).opIterate c.regular)
  | .equal r q => on0 s ((Table.equal veq (s r) (s q)).map .bool)

/-- A program. -/
def run (c : MCfg) (veq : K × V → K × V → Bool) : List (Op K V) → (Nat → Table K V) →
    Option ((Nat → Table K V) × List (Res K V))
  | [], s => some (s, [])
  | op :: ops, s =>
    match step c veq s op with
    | none => none
    | some (s', o) => (run c veq ops s').map (fun r => (r.1, o :: r.2))

/-- Program start: every variable holds a default-constructed container (capacity 0) with allocator 0. -/
def start (c : MCfg) (h : K → Nat) (e : K → K → Bool) : Nat → Table K V := fun _ => Table.mk_ c.toCfg ⟨h, e⟩ 0 0

end Foa

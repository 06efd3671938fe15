/-
Programs over several closed-addressing containers: the public operations of unordered_map/set (`u = true`) and
unordered_multimap/multiset (`u = false`) in terms of the table operations.
Source: /repo/include/boost/unordered/unordered_map.hpp (likewise unordered_set.hpp).
-/
import Verif.SpecC
import Verif.Fca.Table

namespace Fca
open Spec (Res Traits upd)
open SpecC (LOp Op)
variable {K V : Type}

namespace Table

/-- reading an iterator that may be `end()` -/
def peek (t : Table K V) : It → Option (Option (K × V))
  | none => some none
  | some q => (t.b.deref q).map some

/-- `find` and reading through the result (unordered_map.hpp:476-490, 1762-1790, 2370-2400). -/
def opFind (t : Table K V) (k : K) : Option (Option (K × V)) := (t.find k).bind t.peek

/-- `at(k)` (unordered_map.hpp:1850-1880): `none` = `std::out_of_range`. -/
def opAt (t : Table K V) (k : K) : Option (Option (K × V)) :=
  if t.size = 0 then some none else (t.findNode k).bind t.peek

/-- `insert`/`emplace` and reading through the returned iterator (unordered_map.hpp:195-250, 330-400, 985-1030). -/
def opInsert (u : Bool) (t : Table K V) (x : K × V) : Option (Table K V × Res K V) :=
  if u then
    match t.emplaceUnique x with
    | none => none
    | some (t', q, b) => (t'.b.deref q).map (fun e => (t', .ins e b))
  else
    match t.emplaceEquiv x with
    | none => none
    | some (t', q) => (t'.b.deref q).map (fun e => (t', .ins e true))

/-- `insert(hint,x)`/`emplace_hint` with the hint at position `i` (unordered_map.hpp:252-280, 1000-1050). -/
def opInsertHint (u : Bool) (t : Table K V) (i : Nat) (x : K × V) : Option (Table K V × Res K V) :=
  match t.begin_.bind (t.advance i) with
  | none => none
  | some hint =>
    match (if u then t.emplaceHintUnique hint x else t.emplaceHintEquiv hint x) with
    | none => none
    | some (t', q) => (t'.b.deref q).map (fun e => (t', .elem (some e)))

/-- `insert(first,last)` (unordered_map.hpp:282-300, 1060-1075). -/
def opInsertRange (u fwd : Bool) (t : Table K V) (xs : List (K × V)) : Option (Table K V) :=
  if u then insertRangeUnique xs t else if fwd then t.insertRangeEquiv xs else insertRangeEquiv1 xs t

/-- `insert_or_assign` (unordered_map.hpp:405-465). -/
def opInsertOrAssign (t : Table K V) (k : K) (v : V) : Option (Table K V × Res K V) :=
  match t.insertOrAssign k v with
  | none => none
  | some (t', q, b) => (t'.b.deref q).map (fun e => (t', .ins e b))

/-- `operator[]` (unordered_map.hpp:1826-1848). -/
def opIndex (t : Table K V) (k : K) (d : V) : Option (Table K V × Res K V) :=
  match t.emplaceUnique (k, d) with
  | none => none
  | some (t', q, _) => (t'.b.deref q).map (fun e => (t', .val (some e.2)))

/-- `count` (unordered_map.hpp:510-520, 1794-1800, 2402-2406). -/
def opCount (u : Bool) (t : Table K V) (k : K) : Option Nat :=
  if u then (t.findNode k).map (fun it => if it.isSome then 1 else 0) else t.groupCount k

def opEqualRange (u : Bool) (t : Table K V) (k : K) : Option (List (K × V)) :=
  if u then t.equalRangeUnique k else t.equalRangeEquiv k

def opErase (u : Bool) (t : Table K V) (k : K) : Option (Table K V × Nat) :=
  if u then t.eraseKeyUnique k else t.eraseKeyEquiv k

/-- `it=next(begin(),i); x=*it; erase(it)` (unordered_map.hpp:1670-1682). -/
def opEraseAt (t : Table K V) (i : Nat) : Option (Table K V × Res K V) :=
  match t.begin_.bind (t.advance i) with
  | none => none
  | some none => none
  | some (some q) =>
    match t.b.deref q, t.eraseNode q with
    | some e, some (t', _) => some (t', .elem (some e))
    | _, _ => none

/-- `erase(next(begin(),i),next(begin(),i+n))` (unordered_map.hpp:1692-1697). -/
def opEraseRange (t : Table K V) (i n : Nat) : Option (Table K V) :=
  match t.begin_.bind (t.advance i) with
  | none => none
  | some first => t.eraseRange first n

/-- `extract(k)` (unordered_map.hpp:300-312; implementation.hpp:1788-1799). -/
def opExtract (t : Table K V) (k : K) : Option (Table K V × Option (K × V)) :=
  match t.find k with
  | none => none
  | some none => some (t, none)
  | some (some q) => (t.extractAt q).map (fun r => (r.1, some r.2))

/-- the calls on one container -/
def lstep (u : Bool) (t : Table K V) : LOp K V → Option (Table K V × Res K V)
  | .insert x => t.opInsert u x
  | .insertHint i x => t.opInsertHint u i x
  | .insertRange fwd xs => (t.opInsertRange u fwd xs).map (·, .unit)
  | .insertOrAssign k v => t.opInsertOrAssign k v
  | .index k d => t.opIndex k d
  | .at k => (t.opAt k).map (fun e => (t, .val (e.map Prod.snd)))
  | .find k => (t.opFind k).map (fun e => (t, .elem e))
  | .count k => (t.opCount u k).map (fun n => (t, .num n))
  | .contains k => (t.find k).map (fun it => (t, .bool it.isSome))
  | .equalRange k => (t.opEqualRange u k).map (fun l => (t, .list l))
  | .erase k => (t.opErase u k).map (fun r => (r.1, .num r.2))
  | .eraseAt i => t.opEraseAt i
  | .eraseRange i n => (t.opEraseRange i n).map (·, .unit)
  | .extract k => (t.opExtract k).map (fun r => (r.1, .elem r.2))
  | .eraseIf pr => (t.eraseIf pr).map (fun r => (r.1, .num r.2))
  | .clear => t.clear.map (·, .unit)
  | .rehash n => (t.rehash n).map (·, .unit)
  | .reserve n => (t.reserve n).map (·, .unit)
  | .maxLoadFactor z => some (t.setMlf z, .unit)
  | .size => some (t, .num t.size)
  | .isEmpty => some (t, .bool (decide (t.size = 0)))
  | .iterate => t.iterate.map (fun l => (t, .list l))

end Table

/-- Compile-time configuration: allocator traits, and what moving an element out leaves behind. -/
structure MCfg (K V : Type) where
  u : Bool
  tr : Traits
  mv : K × V → K × V
  veq : K × V → K × V → Bool

/-- one call of a program -/
def step (c : MCfg K V) (s : Nat → Table K V) : Op K V → Option ((Nat → Table K V) × Res K V)
  | .on r o => ((s r).lstep c.u o).map (fun p => (upd s r p.1, p.2))
  | .construct r h e al n =>
    -- the old object is destroyed first
    (s r).destroy.map (fun _ => (upd s r (Table.mk_ ⟨h, e⟩ n al), .unit))
  | .copyConstruct r q al =>
    match (s r).destroy, (s q).copyCtor c.u al with
    | some _, some t => some (upd s r t, .unit)
    | _, _ => none
  | .moveConstruct r q => (s r).destroy.map (fun _ => (upd (upd s r (s q).moveCtor.1) q (s q).moveCtor.2, .unit))
  | .moveConstructAlloc r q al =>
    match (s r).destroy, Table.moveCtorAlloc c.mv (s q) al with
    | some _, some (t, x) => some (upd (upd s r t) q x, .unit)
    | _, _ => none
  | .copyAssign r q =>
    -- `if(this!=std::addressof(x))` (implementation.hpp:1573-1580)
    if r = q then some (s, .unit)
    else (Table.assign c.tr.pocca c.u (s r) (s q)).map (fun t => (upd s r t, .unit))
  | .moveAssign r q =>
    if r = q then some (s, .unit)
    else (Table.moveAssign c.tr.pocma c.u c.mv (s r) (s q)).map (fun p => (upd (upd s r p.1) q p.2, .unit))
  | .swap r q =>
    -- `if(this!=&x)` (implementation.hpp:1474-1487)
    if r = q then some (s, .unit)
    else (Table.swap c.tr.pocs (s r) (s q)).map (fun p => (upd (upd s r p.1) q p.2, .unit))
  | .merge r q =>
    if c.u then
      if r = q then (s r).mergeSelf.map (fun t => (upd s r t, .unit))
      else ((s r).mergeUnique (s q)).map (fun p => (upd (upd s r p.1) q p.2, .unit))
    else
      if r = q then none
      else ((s r).mergeEquiv (s q)).map (fun p => (upd (upd s r p.1) q p.2, .unit))
  | .transfer r q k =>
    match (s q).opExtract k with
    | none => none
    | some (_, none) => some (s, .bool false)
    | some (x, some e) =>
      -- a handle not taken is destroyed with its own copy of the allocator
      if (s r).al ≠ (s q).al then none
      else
        (if c.u then ((s r).insertNodeUnique e).map (fun p => (p.1, p.2.2))
          else ((s r).insertNodeEquiv e).map (fun p => (p.1, true))).map
        (fun p => (upd (upd s r p.1) q x, .bool p.2))
  | .equal r q =>
    (if c.u then Table.equalsUnique c.veq (s r) (s q) else Table.equalsEquiv c.veq (s r) (s q)).map
      (fun b => (s, .bool b))

/-- a whole program -/
def run (c : MCfg K V) : List (Op K V) → (Nat → Table K V) → Option ((Nat → Table K V) × List (Res K V))
  | [], s => some (s, [])
  | op :: ops, s =>
    match step c s op with
    | none => none
    | some (s', res) => (run c ops s').map (fun p => (p.1, res :: p.2))

/-- program start: default-constructed containers -/
def start (h : K → Nat) (e : K → K → Bool) : Nat → Table K V := fun _ => Table.mk_ ⟨h, e⟩ 0 0

end Fca

/-
Programs whose calls may be left by exceptions at any throw point.
Sources as in Verif/Foa/Exceptions.lean and Verif/Foa/Machine.lean.
-/
import Verif.SpecExc
import Verif.Foa.ExcOps2

namespace Foa
open Spec (Op Res upd)
variable {K V : Type}

namespace Table

/-- reading through the iterator returned by an insertion -/
def readIns (r : Table K V × Pos × Bool) : Option (Table K V × Res K V) :=
  match r.1.deref r.2.1 with
  | none => none
  | some e => some (r.1, .ins e r.2.2)

/-- `insert_or_assign` after `try_emplace` (unordered_flat_map.hpp:346-405); assigning the mapped value is taken not to throw -/
def readAssign (v : V) (r : Table K V × Pos × Bool) : Option (Table K V × Res K V) :=
  match r with
  | (t', p, true) => (t'.deref p).map (fun e => (t', .ins e true))
  | (t', p, false) => (t'.assignAt p v).bind (fun t'' => (t''.deref p).map (fun e => (t'', .ins e false)))

/-- `operator[]` after `try_emplace` (unordered_flat_map.hpp:583-602) -/
def readIndex (r : Table K V × Pos × Bool) : Option (Table K V × Res K V) :=
  (r.1.deref r.2.1).map (fun e => (r.1, .val (some e.2)))

/-- `erase(find(k))` (table.hpp:474-482) -/
def eraseItX (may : Call → Bool) (t : Table K V) (k : K) (e : Env) : Out (Table K V) (Table K V) :=
  match t.findX may k e with
  | .bad => .bad
  | .threw e _ => .threw e t
  | .done e none => .done e t
  | .done e (some p) =>
    match t.eraseBytes (itAt p).pc (15 * p.1 + p.2) with
    | none => .bad
    | some t' => .done (e.addElems (-1)) t'

/-- `extract(k)` (table.hpp:514-520): the element object leaves the container -/
def extractX (may : Call → Bool) (t : Table K V) (k : K) (e : Env) : Out (Table K V × Res K V) (Table K V) :=
  match t.findX may k e with
  | .bad => .bad
  | .threw e _ => .threw e t
  | .done e none => .done e (t, .elem none)
  | .done e (some p) =>
    match t.deref p with
    | none => .bad
    | some y =>
      match t.eraseAtX p e with
      | none => .bad
      | some (t', e) => .done e (t', .elem (some y))

/-- Self-merge (table.hpp:523-531 with both names the same object): `emplace_impl` finds the element itself; if it throws,
the guard erases the element. -/
def mergeSelfX (may : Call → Bool) (mv : Bool) (cfg : Cfg) : List Pos → Table K V → Env → Out (Table K V) (Table K V)
  | [], t, e => .done e t
  | p :: ps, t, e =>
    match t.arr.slot p.1 p.2 with
    | none => .bad
    | some y =>
      match t.emplaceImplX may mv cfg y e with
      | .bad => .bad
      | .threw e t' =>
        match t'.eraseAtX p e with
        | none => .bad
        | some (t'', e) => .threw e t''
      | .done e (t', _, true) =>
        match t'.eraseAtX p e with
        | none => .bad
        | some (t'', e) => mergeSelfX may mv cfg ps t'' e
      | .done e (t', _, false) => mergeSelfX may mv cfg ps t' e

/-- Loop of `operator==` (core.hpp:1870-1881); comparison of whole values may throw like key comparison. -/
def equalX (may : Call → Bool) (veq : K × V → K × V → Bool) (x y : Table K V) : List Pos → Env → Out Bool Unit
  | [], e => .done e true
  | p :: ps, e =>
    match x.arr.slot p.1 p.2 with
    | none => .bad
    | some z =>
      match y.findX may z.1 e with
      | .bad => .bad
      | .threw e _ => .threw e ()
      | .done e none => .done e false
      | .done e (some q) =>
        match y.arr.slot q.1 q.2 with
        | none => .bad
        | some z' =>
          match e.call may .eq with
          | none => .threw e ()
          | some e => if veq z z' then equalX may veq x y ps e else .done e false

end Table

/-- run `o` on variable `r`, then `f` on its result -/
def lift1 {α : Type} (s : Nat → Table K V) (r : Nat) (f : α → Option (Table K V × Res K V)) (o : Out α (Table K V)) :
    Out ((Nat → Table K V) × Res K V) (Nat → Table K V) :=
  match o with
  | .bad => .bad
  | .threw e t => .threw e (upd s r t)
  | .done e x =>
    match f x with
    | none => .bad
    | some y => .done e (upd s r y.1, y.2)

/-- read-only -/
def lift0 {α : Type} (s : Nat → Table K V) (f : α → Option (Res K V)) (o : Out α Unit) :
    Out ((Nat → Table K V) × Res K V) (Nat → Table K V) :=
  match o with
  | .bad => .bad
  | .threw e _ => .threw e s
  | .done e x =>
    match f x with
    | none => .bad
    | some y => .done e (s, y)

/-- two containers -/
def lift2 (s : Nat → Table K V) (r q : Nat) (o : Out (Table K V × Table K V) (Table K V × Table K V)) :
    Out ((Nat → Table K V) × Res K V) (Nat → Table K V) :=
  match o with
  | .bad => .bad
  | .threw e y => .threw e (upd (upd s r y.1) q y.2)
  | .done e y => .done e (upd (upd s r y.1) q y.2, .unit)

/-- Replace the object in `r` by a newly constructed one: construct first, then destroy the old one (core.hpp:1550-1556) and
put the new one in its place. -/
def replaceX (s : Nat → Table K V) (r : Nat) (t : Table K V) (e : Env) : Out ((Nat → Table K V) × Res K V) (Nat → Table K V) :=
  match (s r).destroyTX e with
  | none => .bad
  | some e => .done e (upd s r t, .unit)

/-- One call. -/
def xstep (may : Call → Bool) (mv : Bool) (c : MCfg) (veq : K × V → K × V → Bool) (s : Nat → Table K V) :
    Op K V → Env → Out ((Nat → Table K V) × Res K V) (Nat → Table K V)
  | .construct r h q al n, e =>
    match e.call may .fnCopy with
    | none => .threw e s
    | some e =>
      match Arrays.newX may c.toCfg al n e with
      | none => .threw e s
      | some (e, a) => replaceX s r { fns := ⟨h, q⟩, al := al, arr := a, ml := Table.initMl a, size := 0 } e
  | .insert r x, e => lift1 s r Table.readIns ((s r).emplaceImplX may mv c.toCfg x e)
  | .insertRange r xs, e => lift1 s r (fun t => some (t, .unit)) (Table.insertRangeX may mv c.toCfg xs (s r) e)
  | .insertOrAssign r k v, e => lift1 s r (Table.readAssign v) ((s r).emplaceImplX may mv c.toCfg (k, v) e)
  | .index r k d, e => lift1 s r Table.readIndex ((s r).emplaceImplX may mv c.toCfg (k, d) e)
  | .at r k, e => lift0 s (fun p : Option Pos => match p with
      | none => some (.val none)
      | some p => ((s r).deref p).map (fun y => .val (some y.2))) ((s r).findX may k e)
  | .find r k, e => lift0 s (fun p : Option Pos => match p with
      | none => some (.elem none)
      | some p => ((s r).deref p).map (fun y => .elem (some y))) ((s r).findX may k e)
  | .count r k, e => lift0 s (fun p => some (.num (if p.isSome then 1 else 0))) ((s r).findX may k e)
  | .contains r k, e => lift0 s (fun p => some (.bool p.isSome)) ((s r).findX may k e)
  | .erase r k, e => lift1 s r (fun y => some (y.1, .num y.2)) ((s r).eraseKeyX may k e)
  | .eraseIt r k, e => lift1 s r (fun t => some (t, .unit)) ((s r).eraseItX may k e)
  | .extract r k, e => lift1 s r some ((s r).extractX may k e)
  | .eraseIf r pr, e =>
    lift1 s r (fun t => some (t, .num ((s r).size - t.size))) (Table.eraseIfX may pr (s r).arr.occ (s r) e)
  | .eraseWalk r pr, e =>
    match (s r).opEraseWalk c.regular pr with
    | none => .bad
    | some y => .done (e.addElems ((y.1.size : Int) - (s r).size)) (upd s r y.1, y.2)
  | .clear r, e =>
    match (s r).clearX e with
    | none => .bad
    | some (t, e) => .done e (upd s r t, .unit)
  | .rehash r n, e => lift1 s r (fun t => some (t, .unit)) ((s r).rehashX may mv c.toCfg n e)
  | .reserve r n, e => lift1 s r (fun t => some (t, .unit)) ((s r).reserveX may mv c.toCfg n e)
  | .copyConstruct r q al, e =>
    match (s q).copyCtorX may c.toCfg al e with
    | .bad => .bad
    | .threw e _ => .threw e s
    | .done e t => replaceX s r t e
  | .moveConstruct r q, e =>
    match (s q).moveCtorX may c.toCfg e with
    | .bad => .bad
    | .threw e x => .threw e (upd s q x)
    | .done e (t, x) => replaceX (upd s q x) r t e
  | .moveConstructAlloc r q al, e =>
    match (s q).moveCtorAllocX may mv c.toCfg al e with
    | .bad => .bad
    | .threw e x => .threw e (upd s q x)
    | .done e (t, x) => replaceX (upd s q x) r t e
  | .copyAssign r q, e =>
    if r = q then .done e (s, .unit) else lift1 s r (fun t => some (t, .unit)) ((s r).copyAssignX may c.toCfg (s q) e)
  | .moveAssign r q, e => if r = q then .done e (s, .unit) else lift2 s r q ((s r).moveAssignX may c.toCfg (s q) e)
  | .swap r q, e =>
    match (s r).swap c.toCfg (s q) with
    | none => .bad
    | some y => .done e (upd (upd s r y.1) q y.2, .unit)
  | .merge r q, e =>
    if r = q then lift1 s r (fun t => some (t, .unit)) (Table.mergeSelfX may mv c.toCfg (s r).arr.occ (s r) e)
    else lift2 s r q (Table.mergeX may mv c.toCfg (s q).arr.occ (s r) (s q) e)
  | .size r, e => .done e (s, .num (s r).size)
  | .isEmpty r, e => .done e (s, .bool (decide ((s r).size = 0)))
  | .iterate r, e =>
    match (s r).opIterate c.regular with
    | none => .bad
    | some o => .done e (s, o)
  | .equal r q, e =>
    if (s r).size = (s q).size then lift0 s (fun b => some (.bool b)) (Table.equalX may veq (s r) (s q) (s r).arr.occ e)
    else .done e (s, .bool false)

/-- A program: every call comes with the number of may-throw calls that succeed in it; exceptions are caught and the program
goes on. `none` = undefined behaviour. The result lists calls with their outcomes; the ledgers are threaded through. -/
def xrun (may : Call → Bool) (mv : Bool) (c : MCfg) (veq : K × V → K × V → Bool) :
    List (Op K V × Nat) → (Nat → Table K V) → Env →
    Option ((Nat → Table K V) × Env × List (Op K V × Spec.Outcome K V))
  | [], s, e => some (s, e, [])
  | (op, n) :: ops, s, e =>
    match xstep may mv c veq s op { e with left := n } with
    | .bad => none
    | .done e (s', o) => (xrun may mv c veq ops s' e).map (fun r => (r.1, r.2.1, (op, .ok o) :: r.2.2))
    | .threw e s' => (xrun may mv c veq ops s' e).map (fun r => (r.1, r.2.1, (op, .exc) :: r.2.2))

/-- The ledgers after default-constructing `n` containers: with fancy pointers each allocates its arrays
(core.hpp:1040-1052). -/
def startEnv (c : MCfg) (n : Nat) : Env := { left := 0, blocks := if c.fancy then n else 0 }

/-- Program end: the destructors of the first `n` variables (core.hpp:1550-1556). -/
def destroyAll (s : Nat → Table K V) : Nat → Env → Option Env
  | 0, e => some e
  | n + 1, e =>
    match (s n).destroyTX e with
    | none => none
    | some e => destroyAll s n e

end Foa

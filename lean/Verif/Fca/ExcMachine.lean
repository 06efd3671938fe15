/-
Programs over closed-addressing containers whose calls may be left by exceptions at any throw point.
Sources as in Verif/Fca/Exceptions.lean and Verif/Fca/Machine.lean.
-/
import Verif.SpecExcC
import Verif.Fca.ExcOps3

namespace Fca
open Spec (Res Traits upd)
open SpecC (LOp Op)
variable {K V : Type}

/-- a computation that cannot throw after one that can -/
def Out.then_ {α β σ : Type} (o : Out α σ) (f : α → Option β) : Out β σ := o.bind fun e a => ofOpt (f a) e

namespace Table

/-- `equal_range` of the multi containers (unordered_map.hpp:2408-2424) -/
def equalRangeEquivX (may : Call → Bool) (t : Table K V) (k : K) (e : Env) : Out (List (K × V)) (Table K V) :=
  (t.findX may k t e).bind fun e it => (t.nextGroupX may k t t.size it e).then_ fun r => some r.1

/-- `equal_range` of the unique containers (unordered_map.hpp:1802-1822) -/
def equalRangeUniqueX (may : Call → Bool) (t : Table K V) (k : K) (e : Env) : Out (List (K × V)) (Table K V) :=
  (t.findX may k t e).then_ fun r => match r with
    | none => some []
    | some it =>
      match t.b.deref it, t.b.incIt it with
      | some e, some _ => some [e]
      | _, _ => none

/-- an empty container with the given bucket array (implementation.hpp:1398-1404) -/
def fresh (f : Fns K) (al : Nat) (b : Gba (K × V)) : Table K V :=
  { fns := f, al := al, size := 0, mlf := some one, maxLoad := maxLoadFor (some one) b.size, b := b }

/-- The calls on one container (see `lstep`). `nf`: insertion makes its node before hashing. A node extracted is destroyed by
the caller. -/
def lstepX (may : Call → Bool) (u nf : Bool) (t : Table K V) : LOp K V → Env → Out (Table K V × Res K V) (Table K V)
  | .insert x, e =>
    if u then (t.emplaceUniqueX may nf x e).then_ fun r => (r.1.b.deref r.2.1).map (fun y => (r.1, .ins y r.2.2))
    else (t.emplaceEquivX may x e).then_ fun r => (r.1.b.deref r.2).map (fun y => (r.1, .ins y true))
  | .insertHint i x, e =>
    match t.begin_.bind (t.advance i) with
    | none => .bad
    | some hint =>
      (if u then t.emplaceHintUniqueX may nf hint x e else t.emplaceHintEquivX may hint x e).then_ fun r =>
        (r.1.b.deref r.2).map (fun y => (r.1, .elem (some y)))
  | .insertRange fwd xs, e =>
    (if u then insertRangeUniqueX may xs t e else if fwd then t.insertRangeEquivX may xs e
      else insertRangeEquiv1X may xs t e).then_ fun t' => some (t', .unit)
  | .insertOrAssign k v, e =>
    (t.insertOrAssignX may k v e).then_ fun r => (r.1.b.deref r.2.1).map (fun y => (r.1, .ins y r.2.2))
  | .index k d, e =>
    (t.emplaceUniqueX may false (k, d) e).then_ fun r => (r.1.b.deref r.2.1).map (fun y => (r.1, .val (some y.2)))
  | .at k, e =>
    if t.size = 0 then .done e (t, .val none)
    else (t.findNodeX may k t e).then_ fun r => (t.peek r).map (fun y => (t, .val (y.map Prod.snd)))
  | .find k, e => (t.findX may k t e).then_ fun r => (t.peek r).map (fun y => (t, .elem y))
  | .count k, e =>
    if u then (t.findNodeX may k t e).then_ fun r => some (t, .num (if r.isSome then 1 else 0))
    else (t.groupCountX may k e).then_ fun n => some (t, .num n)
  | .contains k, e => (t.findX may k t e).then_ fun r => some (t, .bool r.isSome)
  | .equalRange k, e =>
    (if u then t.equalRangeUniqueX may k e else t.equalRangeEquivX may k e).then_ fun l => some (t, .list l)
  | .erase k, e =>
    (if u then t.eraseKeyUniqueX may k e else t.eraseKeyEquivX may k e).then_ fun r => some (r.1, .num r.2)
  | .extract k, e =>
    (t.extractX may k e).bind fun e r => .done (if r.2.isSome then e.addNodes (-1) else e) (r.1, .elem r.2)
  | .eraseIf pr, e => (t.eraseIfX may pr e).then_ fun r => some (r.1, .num r.2)
  | .rehash n, e => (t.rehashX may n e).then_ fun t' => some (t', .unit)
  | .reserve n, e => (t.reserveX may n e).then_ fun t' => some (t', .unit)
  -- these do not call anything that may throw
  | .eraseAt i, e => plainX2 t (t.lstep u (.eraseAt i)) e
  | .eraseRange i n, e => plainX2 t (t.lstep u (.eraseRange i n)) e
  | .clear, e => plainX2 t (t.lstep u .clear) e
  | .maxLoadFactor z, e => plainX2 t (t.lstep u (.maxLoadFactor z)) e
  | .size, e => plainX2 t (t.lstep u .size) e
  | .isEmpty, e => plainX2 t (t.lstep u .isEmpty) e
  | .iterate, e => plainX2 t (t.lstep u .iterate) e
where
  /-- nodes and blocks are accounted for by the difference -/
  plainX2 (t : Table K V) (r : Option (Table K V × Res K V)) (e : Env) : Out (Table K V × Res K V) (Table K V) :=
    match r with
    | none => .bad
    | some y => .done ((e.addNodes ((y.1.size : Int) - t.size)).addBlocks (y.1.blocks - t.blocks)) y

end Table

/-- one call on variable `r` -/
def on1X {α : Type} (s : Nat → Table K V) (r : Nat) (f : α → Table K V × Res K V) (o : Out α (Table K V)) :
    Out ((Nat → Table K V) × Res K V) (Nat → Table K V) :=
  match o with
  | .bad => .bad
  | .threw e t => .threw e (upd s r t)
  | .done e x => .done e (upd s r (f x).1, (f x).2)

/-- one call on variables `r` and `q` -/
def on2X (s : Nat → Table K V) (r q : Nat) (o : Out (Table K V × Table K V) (Table K V × Table K V)) :
    Out ((Nat → Table K V) × Res K V) (Nat → Table K V) :=
  match o with
  | .bad => .bad
  | .threw e y => .threw e (upd (upd s r y.1) q y.2)
  | .done e y => .done e (upd (upd s r y.1) q y.2, .unit)

/-- Replace the object in `r` by a newly constructed one: the old one is destroyed after the new one has been made. -/
def replaceX (s : Nat → Table K V) (r : Nat) (s' : Nat → Table K V) (e : Env) :
    Out ((Nat → Table K V) × Res K V) (Nat → Table K V) :=
  match (s r).destroyX e with
  | none => .bad
  | some e => .done e (s', .unit)

/-- the node handle of a `transfer`: destroyed by the caller if the insertion did not take the node or threw -/
def transferX (may : Call → Bool) (u : Bool) (s : Nat → Table K V) (r q : Nat) (k : K) (e : Env) :
    Out ((Nat → Table K V) × Res K V) (Nat → Table K V) :=
  match (s q).extractX may k e with
  | .bad => .bad
  | .threw e x => .threw e (upd s q x)
  | .done e (_, none) => .done e (s, .bool false)
  | .done e (x, some y) =>
    if (s r).al ≠ (s q).al then .bad
    else if u then
      match (s r).insertNodeUniqueX may y e with
      | .bad => .bad
      | .threw e t => .threw (e.addNodes (-1)) (upd (upd s r t) q x)
      | .done e (t, _, b) => .done (if b then e else e.addNodes (-1)) (upd (upd s r t) q x, .bool b)
    else
      match (s r).insertNodeEquivX may y e with
      | .bad => .bad
      | .threw e t => .threw (e.addNodes (-1)) (upd (upd s r t) q x)
      | .done e (t, _) => .done e (upd (upd s r t) q x, .bool true)

/-- One call of a program (see `step`). -/
def xstep (may : Call → Bool) (c : MCfg K V) (nf : Bool) (s : Nat → Table K V) :
    Op K V → Env → Out ((Nat → Table K V) × Res K V) (Nat → Table K V)
  | .on r o, e => on1X s r id ((s r).lstepX may c.u nf o e)
  | .construct r h q al n, e =>
    (ask may .fnCopy s e).bind fun e _ => (Gba.newX may n al s e).bind fun e (b : Gba (K × V)) =>
      replaceX s r (upd s r (Table.fresh ⟨h, q⟩ al b)) e
  | .copyConstruct r q al, e =>
    match (s q).copyCtorX may c.u al e with
    | .bad => .bad
    | .threw e _ => .threw e s
    | .done e t => replaceX s r (upd s r t) e
  | .moveConstruct r q, e =>
    match (s q).moveCtorX may e with
    | .bad => .bad
    | .threw e _ => .threw e s
    | .done e y => replaceX s r (upd (upd s r y.1) q y.2) e
  | .moveConstructAlloc r q al, e =>
    match Table.moveCtorAllocX may c.mv (s q) al e with
    | .bad => .bad
    | .threw e x => .threw e (upd s q x)
    | .done e y => replaceX s r (upd (upd s r y.1) q y.2) e
  | .copyAssign r q, e =>
    if r = q then .done e (s, .unit)
    else on1X s r (fun t => (t, .unit)) (Table.assignX may c.tr.pocca c.u (s r) (s q) e)
  | .moveAssign r q, e =>
    if r = q then .done e (s, .unit)
    else on2X s r q (Table.moveAssignX may c.tr.pocma c.u c.mv (s r) (s q) e)
  | .swap r q, e => if r = q then .done e (s, .unit) else on2X s r q (Table.swapX may c.tr.pocs (s r) (s q) e)
  | .merge r q, e =>
    if c.u then
      if r = q then on1X s r (fun t => (t, .unit)) ((s r).mergeSelfX may e)
      else on2X s r q ((s r).mergeUniqueX may (s q) e)
    else
      if r = q then .bad else on2X s r q ((s r).mergeEquivX may (s q) e)
  | .transfer r q k, e => transferX may c.u s r q k e
  | .equal r q, e =>
    (if c.u then Table.equalsUniqueX may c.veq (s r) (s q) s e else Table.equalsEquivX may c.veq (s r) (s q) s e).then_
      fun b => some (s, .bool b)

/-- A program: every call comes with the number of may-throw calls that succeed in it and with `nf`; exceptions are caught and
the program goes on. `none` = undefined behaviour. The result lists the calls with their answers (`none`: thrown). -/
def xrun (may : Call → Bool) (c : MCfg K V) : List (Op K V × Nat × Bool) → (Nat → Table K V) → Env →
    Option ((Nat → Table K V) × Env × List (Op K V × Option (Res K V)))
  | [], s, e => some (s, e, [])
  | (op, n, nf) :: ops, s, e =>
    match xstep may c nf s op { e with left := n } with
    | .bad => none
    | .done e y => (xrun may c ops y.1 e).map (fun r => (r.1, r.2.1, (op, some y.2) :: r.2.2))
    | .threw e s' => (xrun may c ops s' e).map (fun r => (r.1, r.2.1, (op, none) :: r.2.2))

/-- Program end: the destructors of the first `n` variables (implementation.hpp:1533-1558). -/
def destroyAll (s : Nat → Table K V) : Nat → Env → Option Env
  | 0, e => some e
  | n + 1, e =>
    match (s n).destroyX e with
    | none => none
    | some e => destroyAll s n e

end Fca

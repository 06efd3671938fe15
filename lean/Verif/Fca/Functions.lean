/-
The double buffer of function objects of the closed-addressing containers.
Source: /repo/include/boost/unordered/detail/implementation.hpp (class `functions` 857-973; its uses in the constructors
1392-1429, swap 1446-1484, assign 1569-1634, move_assign 1636-1704).

A slot is `some f` while it holds a constructed pair. Constructing over a live slot, destroying or reading a dead one,
indexing outside the two slots and failing a BOOST_ASSERT are undefined behaviour (`none` / `bad`). Everything the containers do
with their elements is abstracted to a number of uses of the current pair, each of which may throw (allocation failures are
throwing uses as well as far as the functions are concerned). A pair is constructed as one object: `compressed` destroys its
first member if copying the second throws (language rule).
-/
import Verif.SpecFn

namespace Fca.Fun
open Spec (upd)
open SpecFn (Op)
variable {F : Type}

/-- `functions<H,P>`: the byte `current_` and the two slots `funcs_` (implementation.hpp:874-876). -/
structure Fns2 (F : Type) where
  cur : Nat
  slot : Nat → Option F

/-- may-throw calls that still succeed; pairs constructed minus destroyed; pairs used so far by the current call -/
structure Env (F : Type) where
  left : Nat
  live : Int := 0
  tr : List F := []

inductive Out (F α σ : Type) where
  | done (e : Env F) (a : α)
  | threw (e : Env F) (s : σ)
  | bad

def Out.bind {α β σ : Type} (o : Out F α σ) (f : Env F → α → Out F β σ) : Out F β σ :=
  match o with
  | .done e a => f e a
  | .threw e s => .threw e s
  | .bad => .bad

/-- a catch block or destructor on the way out -/
def Out.onThrow {α σ τ : Type} (o : Out F α σ) (h : Env F → σ → Option (Env F × τ)) : Out F α τ :=
  match o with
  | .done e a => .done e a
  | .threw e s =>
    match h e s with
    | none => .bad
    | some (e, s) => .threw e s
  | .bad => .bad

def ofOpt {α σ : Type} (o : Option (Env F × α)) : Out F α σ :=
  match o with
  | none => .bad
  | some (e, a) => .done e a

def ask {σ : Type} (s : σ) (e : Env F) : Out F Unit σ :=
  match e.left with
  | 0 => .threw e s
  | n + 1 => .done { e with left := n } ()

namespace Fns2

/-- placement new of a pair (implementation.hpp:943-962), copying or moving `f` in; the copy may throw unless `nt`. -/
def constructAt (nt : Bool) (s : Fns2 F) (which : Nat) (f : F) (e : Env F) : Out F (Fns2 F) (Fns2 F) :=
  if which &&& 2 ≠ 0 ∨ 2 ≤ which then .bad
  else if (s.slot which).isSome then .bad
  else if nt then .done { e with live := e.live + 1 } { s with slot := upd s.slot which (some f) }
  else (ask s e).bind fun e _ => .done { e with live := e.live + 1 } { s with slot := upd s.slot which (some f) }

/-- `destroy_functions` (implementation.hpp:964-969). -/
def destroyAt (s : Fns2 F) (which : Nat) (e : Env F) : Option (Env F × Fns2 F) :=
  if which &&& 2 ≠ 0 ∨ 2 ≤ which then none
  else if (s.slot which).isNone then none
  else some ({ e with live := e.live - 1 }, { s with slot := upd s.slot which none })

/-- `current_functions()` (implementation.hpp:906-918). -/
def current (s : Fns2 F) : Option F := s.slot (s.cur &&& 1)

/-- raw storage before the constructor has run -/
def raw : Fns2 F := ⟨0, fun _ => none⟩

/-- constructors (implementation.hpp:879-894) -/
def ctor (nt : Bool) (f : F) (e : Env F) : Out F (Fns2 F) (Fns2 F) := constructAt nt raw 0 f e

/-- destructor (implementation.hpp:896-900) -/
def dtor (s : Fns2 F) (e : Env F) : Option (Env F × Fns2 F) :=
  if s.cur &&& 2 ≠ 0 then none else s.destroyAt s.cur e

/-- `construct_spare_functions` (implementation.hpp:920-925). -/
def constructSpare (s : Fns2 F) (f : F) (e : Env F) : Out F (Fns2 F) (Fns2 F) :=
  if s.cur &&& 2 ≠ 0 then .bad
  else (s.constructAt false (s.cur ^^^ 1) f e).bind fun e s => .done e { s with cur := s.cur ||| 2 }

/-- `cleanup_spare_functions` (implementation.hpp:927-933). -/
def cleanupSpare (s : Fns2 F) (e : Env F) : Option (Env F × Fns2 F) :=
  if s.cur &&& 2 ≠ 0 then
    let s := { s with cur := s.cur &&& 1 }
    s.destroyAt (s.cur ^^^ 1) e
  else some (e, s)

/-- `switch_functions` (implementation.hpp:935-940). -/
def switch (s : Fns2 F) (e : Env F) : Option (Env F × Fns2 F) :=
  if s.cur &&& 2 = 0 then none
  else (s.destroyAt (s.cur &&& 1) e).map (fun r => (r.1, { r.2 with cur := r.2.cur ^^^ 3 }))

/-- assignment to the current pair, not throwing (implementation.hpp:1650, 1676, 1473) -/
def setCurrent (s : Fns2 F) (f : F) : Option (Fns2 F) :=
  match s.current with
  | none => none
  | some _ => some { s with slot := upd s.slot (s.cur &&& 1) (some f) }

/-- `n` uses of the current pair (hash_function(), key_eq(): implementation.hpp:902-904), any of which may throw -/
def uses (s : Fns2 F) : Nat → Env F → Out F Unit (Fns2 F)
  | 0, e => .done e ()
  | n + 1, e =>
    match s.current with
    | none => .bad
    | some f => (ask s { e with tr := e.tr ++ [f] }).bind fun e _ => uses s n e

end Fns2
open Fns2

/-- which function objects have operations that cannot throw (implementation.hpp:860-869), and what moving from a pair
leaves -/
structure Cfg (F : Type) where
  nothrowMoveAssign : Bool
  nothrowMoveCtor : Bool
  nothrowSwap : Bool
  mv : F → F

/-- Constructors of a container (implementation.hpp:1392-1429 and the container constructors, e.g. unordered_map.hpp:1439ff):
the functions, then buckets and elements; if the latter throw the functions are destroyed. -/
def build (nt : Bool) (f : F) (n : Nat) (e : Env F) : Out F (Fns2 F) Unit :=
  ((ctor nt f e).onThrow (fun e _ => some (e, ()))).bind fun e s =>
    ((s.uses (n) e).onThrow (fun e s => (s.dtor e).map (fun r => (r.1, ())))).bind fun e _ => .done e s

/-- `assign(x, is_unique, false_type)` and the equal-allocator branch of the other overload (implementation.hpp:1581-1607). -/
def assignSame (s x : Fns2 F) (m n : Nat) (e : Env F) : Out F (Fns2 F) (Fns2 F) :=
  match x.current with
  | none => .bad
  | some f =>
    (s.constructSpare f e).bind fun e s =>
      ((s.uses m e).onThrow (fun e s => s.cleanupSpare e)).bind fun e _ =>
        (ofOpt (s.switch e)).bind fun e s => (s.uses n e).bind fun e _ => .done e s

/-- `assign(x, is_unique, true_type)` with unequal allocators (implementation.hpp:1609-1633); the first `ask` is the
allocation of the new buckets. -/
def assignProp (s x : Fns2 F) (n : Nat) (e : Env F) : Out F (Fns2 F) (Fns2 F) :=
  (ask s e).bind fun e _ =>
    match x.current with
    | none => .bad
    | some f =>
      (s.constructSpare f e).bind fun e s =>
        (ofOpt (s.switch e)).bind fun e s => (s.uses n e).bind fun e _ => .done e s

/-- `move_assign` with a propagating or equal allocator (implementation.hpp:1644-1683). The result is the pair of buffers. -/
def moveAssignEq (c : Cfg F) (s x : Fns2 F) (e : Env F) : Out F (Fns2 F × Fns2 F) (Fns2 F) :=
  match x.current with
  | none => .bad
  | some f =>
    if c.nothrowMoveAssign then
      match s.setCurrent f, x.setCurrent (c.mv f) with
      | some s, some x => .done e (s, x)
      | _, _ => .bad
    else
      (s.constructSpare f e).bind fun e s => (ofOpt (s.switch e)).bind fun e s => .done e (s, x)

/-- `swap(x, false_type)` (implementation.hpp:1446-1464). -/
def swapThrowing (s x : Fns2 F) (e : Env F) : Out F (Fns2 F × Fns2 F) (Fns2 F × Fns2 F) :=
  match x.current with
  | none => .bad
  | some f =>
    ((s.constructSpare f e).onThrow (fun e s => some (e, (s, x)))).bind fun e s =>
      match s.current with
      | none => .bad
      | some g =>
        ((x.constructSpare g e).onThrow (fun e x => (s.cleanupSpare e).map (fun r => (r.1, (r.2, x))))).bind fun e x =>
          (ofOpt (s.switch e)).bind fun e s => (ofOpt (x.switch e)).bind fun e x => .done e (s, x)

/-- `swap(x, true_type)` (implementation.hpp:1467-1474). -/
def swapNothrow (s x : Fns2 F) (e : Env F) : Out F (Fns2 F × Fns2 F) (Fns2 F × Fns2 F) :=
  match s.current, x.current with
  | some g, some f =>
    match s.setCurrent f, x.setCurrent g with
    | some s, some x => .done e (s, x)
    | _, _ => .bad
  | _, _ => .bad

/-- container variables: `none` = no object there -/
abbrev Vars (F : Type) := Nat → Option (Fns2 F)

/-- result of a call that yields new values for one or two variables -/
def put1 (s : Vars F) (r : Nat) (o : Out F (Fns2 F) (Fns2 F)) : Out F (Vars F) (Vars F) :=
  match o with
  | .bad => .bad
  | .threw e x => .threw e (upd s r (some x))
  | .done e x => .done e (upd s r (some x))

def put2 (s : Vars F) (r q : Nat) (o : Out F (Fns2 F × Fns2 F) (Fns2 F × Fns2 F)) : Out F (Vars F) (Vars F) :=
  match o with
  | .bad => .bad
  | .threw e x => .threw e (upd (upd s r (some x.1)) q (some x.2))
  | .done e x => .done e (upd (upd s r (some x.1)) q (some x.2))

/-- One call of a program. -/
def step (c : Cfg F) (s : Vars F) : Op F → Env F → Out F (Vars F) (Vars F)
  | .construct r f n, e =>
    match build false f n e with
    | .bad => .bad
    | .threw e _ => .threw e s
    | .done e x => .done e (upd s r (some x))
  | .copyConstruct r q n, e =>
    match s q with
    | none => .bad
    | some x =>
      match x.current with
      | none => .bad
      | some f =>
        match build false f n e with
        | .bad => .bad
        | .threw e _ => .threw e s
        | .done e y => .done e (upd s r (some y))
  | .moveConstruct r q n, e =>
    match s q with
    | none => .bad
    | some x =>
      match x.current with
      | none => .bad
      | some f =>
        -- a pair that is moved (not copied) is moved from first
        match (if c.nothrowMoveCtor then x.setCurrent (c.mv f) else some x) with
        | none => .bad
        | some x =>
          match build c.nothrowMoveCtor f n e with
          | .bad => .bad
          | .threw e _ => .threw e (upd s q (some x))
          | .done e y => .done e (upd (upd s r (some y)) q (some x))
  | .copyAssign r q prop m n, e =>
    match s r, s q with
    | some x, some y =>
      if r = q then .done e s
      else put1 s r (if prop then assignProp x y n e else assignSame x y m n e)
    | _, _ => .bad
  | .moveAssign r q realloc m n, e =>
    match s r, s q with
    | some x, some y =>
      if r = q then .done e s
      else if realloc then
        -- `move_assign_realloc` (implementation.hpp:1685-1704): the same steps as `assign`
        put1 s r (assignSame x y m n e)
      else put2 s r q ((moveAssignEq c x y e).onThrow (fun e x => some (e, (x, y))))
    | _, _ => .bad
  | .swap r q, e =>
    match s r, s q with
    | some x, some y =>
      if c.nothrowSwap then (if r = q then .done e s else put2 s r q (swapNothrow x y e))
      else if r = q then .done e s
      else put2 s r q (swapThrowing x y e)
    | _, _ => .bad
  | .use r n, e =>
    match s r with
    | none => .bad
    | some x =>
      match x.uses n e with
      | .bad => .bad
      | .threw e _ => .threw e s
      | .done e _ => .done e s
  | .destroy r, e =>
    match s r with
    | none => .bad
    | some x =>
      match x.dtor e with
      | none => .bad
      | some (e, _) => .done e (upd s r none)

/-- the objects a call needs exist, and there is none where one is to be constructed -/
def applicable (s : Vars F) : Op F → Bool
  | .construct r _ _ => (s r).isNone
  | .copyConstruct r q _ => (s r).isNone && (s q).isSome
  | .moveConstruct r q _ => (s r).isNone && (s q).isSome
  | .copyAssign r q _ _ _ => (s r).isSome && (s q).isSome
  | .moveAssign r q _ _ _ => (s r).isSome && (s q).isSome
  | .swap r q => (s r).isSome && (s q).isSome
  | .use r _ => (s r).isSome
  | .destroy r => (s r).isSome

/-- A program; each call comes with the number of its may-throw calls that succeed. Exceptions are caught and the program goes
on; calls on objects that do not exist are not made. -/
def run (c : Cfg F) : List (Op F × Nat) → Vars F → Env F → Option (Vars F × Env F × List (Op F × SpecFn.Outcome F))
  | [], s, e => some (s, e, [])
  | (op, n) :: ops, s, e =>
    if applicable s op then
      match step c s op { e with left := n, tr := [] } with
      | .bad => none
      | .done e s => (run c ops s e).map (fun r => (r.1, r.2.1, (op, .returned e.tr) :: r.2.2))
      | .threw e s => (run c ops s e).map (fun r => (r.1, r.2.1, (op, .threw e.tr) :: r.2.2))
    else (run c ops s e).map (fun r => (r.1, r.2.1, (op, .skipped) :: r.2.2))

end Fca.Fun

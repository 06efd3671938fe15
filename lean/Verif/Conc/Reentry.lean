/-
Model of the reentrancy check of the concurrent containers.
Sources: /repo/include/boost/unordered/detail/foa/reentrancy_check.hpp, /repo/include/boost/unordered/detail/foa/concurrent_table.hpp.

One thread: the list of `entry_trace` objects is thread-local. The objects live on the stack of the thread; the model gives them
addresses and keeps the list through these, as the code does. What the operations do with their containers is left out, except
the calls they make to user code (visitation functions, hash, equality, constructors of elements), which may call
operations again, throw and catch.
-/
import Verif.SpecReentry

namespace Conc.Reentry
open SpecReentry

/-- `entry_trace` (reentrancy_check.hpp:27-70): the container entered (null once cleared) and the previous entry. -/
structure Trace where
  px : Option Nat
  next : Option Nat

/-- State of a thread: `header()` (reentrancy_check.hpp:52-56), the `entry_trace` objects alive, the next free stack address. -/
structure TS where
  header : Option Nat
  mem : Nat → Option Trace
  sp : Nat

/-- A thread that has not entered any container. -/
def TS.init : TS := ⟨none, fun _ => none, 0⟩

/-- `entry_trace::find` (reentrancy_check.hpp:58-64). `none` = a pointer to a destroyed object is followed, or the loop does not
end (there are at most `sp` objects). -/
def findLoop (mem : Nat → Option Trace) (px : Nat) : Nat → Option Nat → Option Bool
  | _, none => some false
  | 0, some _ => none
  | fuel + 1, some a =>
    match mem a with
    | none => none
    | some t => if t.px = some px then some true else findLoop mem px fuel t.next

def TS.set (s : TS) (a : Nat) (t : Option Trace) : TS := { s with mem := fun b => if b = a then t else s.mem b }

/-- Outcome of a constructor. -/
inductive Ctor where
  | ok (s : TS)
  | fails
  | ub

/-- Constructor of `entry_trace` (reentrancy_check.hpp:30-36, 67) at the next stack address; `next` is initialized before the
body. When the check fails nothing is changed and, if the assertion handler throws, the object is not alive. -/
def TS.enter (s : TS) (px : Option Nat) : Ctor :=
  match px with
  | none => .ok { s.set s.sp (some ⟨none, s.header⟩) with sp := s.sp + 1 }
  | some c =>
    match findLoop s.mem c (s.sp + 1) s.header with
    | none => .ub
    | some true => .fails
    | some false => .ok { s.set s.sp (some ⟨some c, s.header⟩) with sp := s.sp + 1, header := some s.sp }

/-- `clear` (reentrancy_check.hpp:43-49). -/
def TS.clear (s : TS) (a : Nat) : Option TS :=
  match s.mem a with
  | none => none
  | some ⟨none, _⟩ => some s
  | some ⟨some _, next⟩ => some { s.set a (some ⟨none, next⟩) with header := next }

/-- Destructor (reentrancy_check.hpp:41) of the object at the top of the stack. -/
def TS.leave (s : TS) : Option TS :=
  match s.clear (s.sp - 1) with
  | none => none
  | some s' => some { s'.set (s.sp - 1) none with sp := s.sp - 1 }

/-- Assertion handler: ends the program, or throws (BOOST_ENABLE_ASSERT_HANDLER). -/
inductive Handler where
  | aborts
  | throws
deriving DecidableEq

/-- `tr`, or `tr1` and `tr2`, of `reentrancy_checked` and `reentrancy_bichecked` (reentrancy_check.hpp:75-77, 92-94): the state, or
the container for which the check fails. If the second fails and the handler throws, the first is destroyed. -/
def traces (s : TS) (g : Guard) : Option (TS × Option Nat) :=
  match g with
  | .shared c _ | .excl c =>
    match s.enter (some c) with
    | .ub => none
    | .fails => some (s, some c)
    | .ok s' => some (s', none)
  | .both x y =>
    match s.enter (some x) with
    | .ub => none
    | .fails => some (s, some x)
    | .ok s1 =>
      match s1.enter (if y ≠ x then some y else none) with
      | .ub => none
      | .fails => (s1.leave).map (fun s2 => (s2, some y))
      | .ok s2 => some (s2, none)

/-- number of `entry_trace` objects of a guard -/
def width : Guard → Nat
  | .shared _ _ | .excl _ => 1
  | .both _ _ => 2

/-- `unlock()` (reentrancy_check.hpp:79-83, 96-101), the part about the traces; the guard is the topmost on the stack. -/
def clears (s : TS) (g : Guard) : Option TS :=
  match g with
  | .shared _ _ | .excl _ => s.clear (s.sp - 1)
  | .both _ _ =>
    match s.clear (s.sp - 1) with
    | none => none
    | some s' => s'.clear (s.sp - 2)

/-- Destruction of the traces, in reverse order (reentrancy_check.hpp:85-86, 103-104). -/
def leaves (s : TS) (g : Guard) : Option TS :=
  match g with
  | .shared _ _ | .excl _ => s.leave
  | .both _ _ =>
    match s.leave with
    | none => none
    | some s' => s'.leave

/-- What a thread does: the calls of operations of concurrent containers and the control flow around them. -/
inductive Prog where
  | skip
  | throw
  | seq (p q : Prog)
  /-- `try{p}catch(...){q}` -/
  | try (p q : Prog)
  /-- an operation that takes the access `g` and then runs `p` (concurrent_table.hpp, e.g. 1206-1214) -/
  | op (g : Guard) (p : Prog)
  /-- an operation that takes the access `g`, runs `p`, gives the lock back with `lck.unlock()` and runs `q`, with the guard
  still in scope (concurrent_table.hpp:1496-1515) -/
  | opEarly (g : Guard) (p q : Prog)

/-- How a piece of program ends. -/
inductive End where
  | normal
  | threw
  | aborted
deriving DecidableEq

/-- Execution; `none` = undefined behaviour. When the check aborts, execution stops on the spot. -/
def exec (h : Handler) : Prog → TS → Option (TS × End × List Ev)
  | .skip, s => some (s, .normal, [])
  | .throw, s => some (s, .threw, [])
  | .seq p q, s =>
    match exec h p s with
    | none => none
    | some (s1, .normal, l1) => (exec h q s1).map (fun r => (r.1, r.2.1, l1 ++ r.2.2))
    | some r => some r
  | .try p q, s =>
    match exec h p s with
    | none => none
    | some (s1, .threw, l1) => (exec h q s1).map (fun r => (r.1, r.2.1, l1 ++ r.2.2))
    | some r => some r
  | .op g p, s =>
    match traces s g with
    | none => none
    | some (s1, some c) => some (s1, if h = .throws then .threw else .aborted, [.call g (some c)])
    | some (s1, none) =>
      match exec h p s1 with
      | none => none
      | some (s2, .aborted, l) => some (s2, .aborted, .call g none :: .locked g :: l)
      | some (s2, e, l) => (leaves s2 g).map (fun s3 => (s3, e, .call g none :: .locked g :: (l ++ [.unlocked g])))
  | .opEarly g p q, s =>
    match traces s g with
    | none => none
    | some (s1, some c) => some (s1, if h = .throws then .threw else .aborted, [.call g (some c)])
    | some (s1, none) =>
      match exec h p s1 with
      | none => none
      | some (s2, .aborted, l) => some (s2, .aborted, .call g none :: .locked g :: l)
      | some (s2, .threw, l) =>
        (leaves s2 g).map (fun s3 => (s3, .threw, .call g none :: .locked g :: (l ++ [.unlocked g])))
      | some (s2, .normal, l) =>
        match clears s2 g with
        | none => none
        | some s3 =>
          match exec h q s3 with
          | none => none
          | some (s4, .aborted, l') => some (s4, .aborted, .call g none :: .locked g :: (l ++ .unlocked g :: l'))
          | some (s4, e, l') =>
            (leaves s4 g).map (fun s5 => (s5, e, .call g none :: .locked g :: (l ++ .unlocked g :: l')))

end Conc.Reentry

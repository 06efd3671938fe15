/-
Throwing executions of the closed-addressing containers.
Sources: /repo/include/boost/unordered/detail/implementation.hpp, /repo/include/boost/unordered/detail/fca.hpp.

Every call of user code or of the allocator that may throw asks `ask`; the environment holds the number of such calls that
still succeed, so that quantifying over it ranges over all throw points. Which kinds of calls can throw at all is given by
`may`. The environment also keeps two ledgers: array blocks allocated minus freed (a bucket array has two, fca.hpp:564-567),
and nodes (with their element) created minus destroyed.

`bad` is undefined behaviour, as in `Verif/Fca/Table.lean`. Not modelled as throwing: assignment of a mapped value, the
default construction and copying of allocators, swapping of nothrow-swappable function objects.
-/
import Verif.Fca.Machine

namespace Fca
variable {K V : Type}

/-- The kinds of calls that may throw: the hash function, the key equality (and `==` on elements), allocation of bucket or
group arrays, allocation of a node or construction of its element, the user's predicate, copying function objects. -/
inductive Call where
  | hash | eq | alloc | node | pred | fnCopy
deriving DecidableEq, Repr

/-- Number of may-throw calls that still succeed; array blocks allocated minus freed; nodes created minus destroyed. -/
structure Env where
  left : Nat
  blocks : Int := 0
  nodes : Int := 0
deriving DecidableEq, Repr

/-- Result of a function: it returns, an exception leaves it (with the state it leaves behind), or UB. -/
inductive Out (α σ : Type) where
  | done (e : Env) (a : α)
  | threw (e : Env) (s : σ)
  | bad

/-- sequential composition -/
def Out.bind {α β σ : Type} (o : Out α σ) (f : Env → α → Out β σ) : Out β σ :=
  match o with
  | .done e a => f e a
  | .threw e s => .threw e s
  | .bad => .bad

/-- what happens on the way out of an exception: catch blocks that rethrow, destructors of local objects -/
def Out.onThrow {α σ τ : Type} (o : Out α σ) (h : Env → σ → Option (Env × τ)) : Out α τ :=
  match o with
  | .done e a => .done e a
  | .threw e s =>
    match h e s with
    | none => .bad
    | some (e, s) => .threw e s
  | .bad => .bad

/-- a step that cannot throw -/
def ofOpt {α σ : Type} (o : Option α) (e : Env) : Out α σ :=
  match o with
  | none => .bad
  | some a => .done e a

/-- one call of kind `k`; `s` is the state an exception would leave behind -/
def ask {σ : Type} (may : Call → Bool) (k : Call) (s : σ) (e : Env) : Out Unit σ :=
  if may k then
    match e.left with
    | 0 => .threw e s
    | n + 1 => .done { e with left := n } ()
  else .done e ()

def Env.addNodes (e : Env) (n : Int) : Env := { e with nodes := e.nodes + n }
def Env.addBlocks (e : Env) (n : Int) : Env := { e with blocks := e.blocks + n }

/-- destructor of a `node_tmp` that still owns its node (implementation.hpp:685-692) -/
def dropNode {σ : Type} (e : Env) (s : σ) : Option (Env × σ) := some (e.addNodes (-1), s)

/-- `construct_node*` (implementation.hpp:707-818): `create_node` allocates, then the element is constructed; if that throws
`node_constructor` gives the memory back. -/
def newNode {σ : Type} (may : Call → Bool) (s : σ) (e : Env) : Out Unit σ :=
  (ask may .node s e).bind fun e _ => (ask may .node s e).bind fun e _ => .done (e.addNodes 1) ()

/-- loop over a bucket with a throwing key comparison (implementation.hpp:1727-1731, 1761-1765, 1776-1780) -/
def findRunX {σ : Type} (may : Call → Bool) (s : σ) (p : K × V → Bool) : List (K × V) → Env → Out (Option Nat) σ
  | [], e => .done e none
  | x :: xs, e =>
    (ask may .eq s e).bind fun e _ =>
      if p x then .done e (some 0) else (findRunX may s p xs e).bind fun e r => .done e (r.map (· + 1))

namespace Gba
variable {α : Type}

/-- `grouped_bucket_array(n,al)` (fca.hpp:546-594): if the second allocation throws the first one is returned. -/
def newX {σ : Type} (may : Call → Bool) (n al : Nat) (s : σ) (e : Env) : Out (Gba α) σ :=
  if n = 0 then .done e (null al)
  else
    (ask may .alloc s e).bind fun e _ =>
      ((ask may .alloc s (e.addBlocks 1)).onThrow (fun e s => some (e.addBlocks (-1), s))).bind fun e _ =>
        .done (e.addBlocks 1) (new n al)

/-- `deallocate` (fca.hpp:644-675). -/
def deallocX (a : Gba α) (al : Nat) (e : Env) : Option Env :=
  match a.dealloc al with
  | none => none
  | some _ => some (if a.size = 0 then e else e.addBlocks (-2))

end Gba

namespace Table
open Gba

/-- array blocks held by a container -/
def blocks (t : Table K V) : Int := if t.b.size = 0 then 0 else 2

/-- `find_node_impl` (implementation.hpp:1720-1734). -/
def findImplX {σ : Type} (may : Call → Bool) (t : Table K V) (k : K) (itb : BIt) (s : σ) (e : Env) : Out (Option Nat) σ :=
  if itb.p = t.b.size then .done e none
  else
    match t.b.get itb with
    | none => .bad
    | some l => findRunX may s (fun x => t.fns.eq k x.1) l e

/-- `find` (implementation.hpp:1747-1768). -/
def findX {σ : Type} (may : Call → Bool) (t : Table K V) (k : K) (s : σ) (e : Env) : Out It σ :=
  if 0 < t.size then
    (ask may .hash s e).bind fun e _ =>
      match t.b.get (t.bucketFor (t.fns.hash k)) with
      | none => .bad
      | some l =>
        (findRunX may s (fun x => t.fns.eq k x.1) l e).bind fun e r =>
          .done e (r.map (fun i => (t.bucketFor (t.fns.hash k), i)))
  else .done e none

/-- `find_node(k)` (implementation.hpp:1736-1740). -/
def findNodeX {σ : Type} (may : Call → Bool) (t : Table K V) (k : K) (s : σ) (e : Env) : Out It σ :=
  (ask may .hash s e).bind fun e _ =>
    (t.findImplX may k (t.bucketFor (t.fns.hash k)) s e).bind fun e r =>
      .done e (r.map (fun i => (t.bucketFor (t.fns.hash k), i)))

/-! ### rehash -/

/-- inner loop of `rehash_impl` (implementation.hpp:2773-2778): the nodes of bucket `b`, front to back. Hashing precedes the
relinking, and `b.next` is advanced after each node. State: (old array, new array). -/
def transferBucketX (may : Call → Bool) (f : Fns K) (b : Nat) : List (K × V) → Gba (K × V) × Gba (K × V) → Env →
    Out (Gba (K × V) × Gba (K × V)) (Gba (K × V) × Gba (K × V))
  | [], s, e => .done e s
  | x :: xs, s, e =>
    (ask may .hash s e).bind fun e _ =>
      match s.2.insertNode (s.2.at_ (s.2.position (f.hash x.1))) x with
      | none => .bad
      | some n' => transferBucketX may f b xs ({ s.1 with chain := up s.1.chain b xs }, n') e

/-- outer loop of `rehash_impl` (implementation.hpp:2771-2779). -/
def transferX (may : Call → Bool) (f : Fns K) : List Nat → Gba (K × V) × Gba (K × V) → Env →
    Out (Gba (K × V) × Gba (K × V)) (Gba (K × V) × Gba (K × V))
  | [], s, e => .done e s
  | b :: bs, s, e => (transferBucketX may f b (s.1.chain b) s e).bind fun e s => transferX may f bs s e

/-- loop of the catch block of `rehash_impl` (implementation.hpp:2783-2792): delete the nodes that already hang from the new
array, bucket by bucket along the list of non-empty buckets. Returns the new `size_`. `fuel` bounds the number of buckets. -/
def catchLoop (al : Nat) (nb : Gba (K × V)) : Nat → Nat → BIt → Env → Option (Nat × Env)
  | 0, _, _, _ => none
  | f + 1, size, it, e =>
    if it.p = nb.size then some (size, e)
    else
      match nb.get it, nb.inc it with
      | some l, some it' =>
        if nb.mal ≠ al ∨ size < l.length then none
        else catchLoop al nb f (size - l.length) it' (e.addNodes (-l.length))
      | _, _ => none

/-- the catch block of `rehash_impl` (implementation.hpp:2781-2795), then the destructor of `new_buckets`. -/
def rehashCatch (t : Table K V) (e : Env) (s : Gba (K × V) × Gba (K × V)) : Option (Env × Table K V) :=
  match s.2.begin_ with
  | none => none
  | some it =>
    match catchLoop t.al s.2 (s.2.size + 1) t.size it e with
    | none => none
    | some (sz, e) =>
      match s.1.unlinkEmpty, s.2.deallocX t.al e with
      | some ob, some e => some (e, { t with b := ob, size := sz })
      | _, _ => none

/-- `rehash_impl` (implementation.hpp:2757-2800). -/
def rehashImplX (may : Call → Bool) (t : Table K V) (n : Nat) (e : Env) : Out (Table K V) (Table K V) :=
  (newX may n t.al t e).bind fun e nb =>
    ((transferX may t.fns (List.range t.b.size) (t.b, nb) e).onThrow (t.rehashCatch)).bind fun e s =>
      match t.b.deallocX t.al e with
      | none => .bad
      | some e => .done e { t with b := s.2, maxLoad := maxLoadFor t.mlf s.2.size }

/-- `rehash` (implementation.hpp:2728-2736). -/
def rehashX (may : Call → Bool) (t : Table K V) (n : Nat) (e : Env) : Out (Table K V) (Table K V) :=
  let nb := Gba.bucketCountFor (max (minBuckets t.size t.mlf) n)
  if nb ≠ t.bucketCount then t.rehashImplX may nb e else .done e t

/-- `reserve` (implementation.hpp:2738-2743). -/
def reserveX (may : Call → Bool) (t : Table K V) (n : Nat) (e : Env) : Out (Table K V) (Table K V) :=
  t.rehashX may (minBuckets n t.mlf) e

/-- `reserve_for_insert` (implementation.hpp:2745-2755). -/
def reserveForInsertX (may : Call → Bool) (t : Table K V) (n : Nat) (e : Env) : Out (Table K V) (Table K V) :=
  if t.maxLoad < n then t.rehashImplX may (insertBuckets n t.mlf t.bucketCount) e else .done e t

/-- `if(size_+1>max_load_) reserve(size_+1)` -/
def growForOneX (may : Call → Bool) (t : Table K V) (e : Env) : Out (Table K V) (Table K V) :=
  if t.maxLoad < t.size + 1 then t.reserveX may (t.size + 1) e else .done e t

/-! ### unique keys -/

/-- `emplace_unique` and relatives (implementation.hpp:1866-2070) from the hash computation on. `held`: the node exists
already (`no_key` versions, `insert_range_unique`) and is owned by a `node_tmp`; otherwise it is constructed after the
search. -/
def emplaceBodyX (may : Call → Bool) (held : Bool) (t : Table K V) (x : K × V) (e : Env) :
    Out (Table K V × (BIt × Nat) × Bool) (Table K V) :=
  (((ask may .hash t e).bind fun e _ => t.findImplX may x.1 (t.bucketFor (t.fns.hash x.1)) t e).onThrow
      (fun e s => if held then dropNode e s else some (e, s))).bind fun e r =>
    match r with
    | some i => .done (if held then e.addNodes (-1) else e) (t, (t.bucketFor (t.fns.hash x.1), i), false)
    | none =>
      (if held then .done e () else newNode may t e).bind fun e _ =>
        ((t.growForOneX may e).onThrow dropNode).bind fun e t1 =>
          match t1.b.insertNode (t1.bucketFor (t.fns.hash x.1)) x with
          | none => .bad
          | some b' => .done e ({ t1 with b := b', size := t1.size + 1 }, (t1.bucketFor (t.fns.hash x.1), 0), true)

/-- `emplace_unique` (implementation.hpp:1866-1960), `try_emplace_unique` (1962-2030): `nf` selects the versions that construct
the node first. -/
def emplaceUniqueX (may : Call → Bool) (nf : Bool) (t : Table K V) (x : K × V) (e : Env) :
    Out (Table K V × (BIt × Nat) × Bool) (Table K V) :=
  (if nf then newNode may t e else .done e ()).bind fun e _ => t.emplaceBodyX may nf x e

/-- `emplace_hint_unique` (implementation.hpp:1855-1863, 1894-1924), `try_emplace_hint_unique`. -/
def emplaceHintUniqueX (may : Call → Bool) (nf : Bool) (t : Table K V) (hint : It) (x : K × V) (e : Env) :
    Out (Table K V × (BIt × Nat)) (Table K V) :=
  (if nf then newNode may t e else .done e ()).bind fun e _ =>
    match hint with
    | none => (t.emplaceBodyX may nf x e).bind fun e r => .done e (r.1, r.2.1)
    | some p =>
      match t.b.deref p with
      | none => .bad
      | some y =>
        ((ask may .eq t e).onThrow (fun e s => if nf then dropNode e s else some (e, s))).bind fun e _ =>
          if t.fns.eq x.1 y.1 then .done (if nf then e.addNodes (-1) else e) (t, p)
          else (t.emplaceBodyX may nf x e).bind fun e r => .done e (r.1, r.2.1)

/-- `insert_or_assign_unique` (implementation.hpp:2042-2070). -/
def insertOrAssignX (may : Call → Bool) (t : Table K V) (k : K) (v : V) (e : Env) :
    Out (Table K V × (BIt × Nat) × Bool) (Table K V) :=
  (t.emplaceUniqueX may false (k, v) e).bind fun e r =>
    if r.2.2 then .done e r else ofOpt ((r.1.assignAt r.2.1 v).map (fun t'' => (t'', r.2.1, false))) e

/-- `move_insert_node_type_unique` (implementation.hpp:2072-2108): a handle keeps its node if something throws. -/
def insertNodeUniqueX (may : Call → Bool) (t : Table K V) (x : K × V) (e : Env) :
    Out (Table K V × (BIt × Nat) × Bool) (Table K V) :=
  ((ask may .hash t e).bind fun e _ => t.findImplX may x.1 (t.bucketFor (t.fns.hash x.1)) t e).bind fun e r =>
    match r with
    | some i => .done e (t, (t.bucketFor (t.fns.hash x.1), i), false)
    | none =>
      (t.reserveForInsertX may (t.size + 1) e).bind fun e t1 =>
        match t1.b.insertNode (t1.bucketFor (t.fns.hash x.1)) x with
        | none => .bad
        | some b' => .done e ({ t1 with b := b', size := t1.size + 1 }, (t1.bucketFor (t.fns.hash x.1), 0), true)

/-- `insert_range_unique` (implementation.hpp:2183-2212). -/
def insertRangeUniqueX (may : Call → Bool) : List (K × V) → Table K V → Env → Out (Table K V) (Table K V)
  | [], t, e => .done e t
  | x :: xs, t, e => (t.emplaceUniqueX may true x e).bind fun e r => insertRangeUniqueX may xs r.1 e

/-- loop of `merge_unique` (implementation.hpp:2155-2173): hashing and searching precede the extraction. -/
def mergeLoopX (may : Call → Bool) : Nat → Table K V → Table K V → It → Env →
    Out (Table K V × Table K V) (Table K V × Table K V)
  | _, t, o, none, e => .done e (t, o)
  | 0, _, _, some _, _ => .bad
  | f + 1, t, o, some pos, e =>
    match o.b.deref pos with
    | none => .bad
    | some x =>
      ((ask may .hash (t, o) e).bind fun e _ => t.findImplX may x.1 (t.bucketFor (t.fns.hash x.1)) (t, o) e).bind fun e r =>
        match r with
        | some _ =>
          match o.b.incIt pos with
          | none => .bad
          | some pos' => mergeLoopX may f t o pos' e
        | none =>
          match o.b.extractIt pos with
          | none => .bad
          | some (ob, y, pos') =>
            match t.b.insertNode (t.bucketFor (t.fns.hash x.1)) y with
            | none => .bad
            | some b' => mergeLoopX may f { t with b := b', size := t.size + 1 } { o with b := ob, size := o.size - 1 } pos' e

/-- `merge_unique` (implementation.hpp:2142-2174). -/
def mergeUniqueX (may : Call → Bool) (t o : Table K V) (e : Env) : Out (Table K V × Table K V) (Table K V × Table K V) :=
  if t.al ≠ o.al then .bad
  else if o.size = 0 then .done e (t, o)
  else
    ((t.reserveForInsertX may (t.size + o.size) e).onThrow (fun e t' => some (e, (t', o)))).bind fun e t1 =>
      match o.begin_ with
      | none => .bad
      | some it => mergeLoopX may o.size t1 o it e

/-- the walk of `merge_unique` with itself: every key is found -/
def mergeSelfWalkX (may : Call → Bool) (t : Table K V) : List (K × V) → Env → Out (Table K V) (Table K V)
  | [], e => .done e t
  | x :: xs, e =>
    (t.findNodeX may x.1 t e).bind fun e r => if r.isSome then mergeSelfWalkX may t xs e else .bad

/-- `merge_unique` with itself. -/
def mergeSelfX (may : Call → Bool) (t : Table K V) (e : Env) : Out (Table K V) (Table K V) :=
  if t.size = 0 then .done e t
  else
    (t.reserveForInsertX may (t.size + t.size) e).bind fun e t1 =>
      match t1.iterate with
      | none => .bad
      | some l => mergeSelfWalkX may t1 l e

/-- `erase_key_unique_impl` (implementation.hpp:2230-2244): hashing comes first; `find_prev` (1770-1784) copies the predicate. -/
def eraseKeyUniqueX (may : Call → Bool) (t : Table K V) (k : K) (e : Env) : Out (Table K V × Nat) (Table K V) :=
  (ask may .hash t e).bind fun e _ =>
    if 0 < t.size then
      match t.b.get (t.bucketFor (t.fns.hash k)) with
      | none => .bad
      | some l =>
        ((ask may .fnCopy t e).bind fun e _ => findRunX may t (fun x => t.fns.eq k x.1) l e).bind fun e r =>
          match r with
          | none => .done e (t, 0)
          | some i =>
            match t.b.extractNode (t.bucketFor (t.fns.hash k)) i, t.deleteNode with
            | some b', some _ => .done (e.addNodes (-1)) ({ t with b := b', size := t.size - 1 }, 1)
            | _, _ => .bad
    else .done e (t, 0)

/-- loop of `erase_if` (implementation.hpp:2927-2944) with a throwing predicate. -/
def eraseIfLoopX (may : Call → Bool) (pr : K × V → Bool) : Nat → Table K V → It → Env → Out (Table K V) (Table K V)
  | _, t, none, e => .done e t
  | 0, _, some _, _ => .bad
  | f + 1, t, some it, e =>
    match t.b.deref it with
    | none => .bad
    | some x =>
      (ask may .pred t e).bind fun e _ =>
        if pr x then
          match t.eraseNode it with
          | none => .bad
          | some (t', nx) => eraseIfLoopX may pr f t' nx (e.addNodes (-1))
        else
          match t.b.incIt it with
          | none => .bad
          | some nx => eraseIfLoopX may pr f t nx e

/-- `erase_if` (implementation.hpp:2927-2944). -/
def eraseIfX (may : Call → Bool) (t : Table K V) (pr : K × V → Bool) (e : Env) : Out (Table K V × Nat) (Table K V) :=
  match t.begin_ with
  | none => .bad
  | some it => (eraseIfLoopX may pr t.size t it e).bind fun e t' => .done e (t', t.size - t'.size)

/-- operations that cannot throw: nodes and blocks are accounted for by the difference -/
def plainX {σ : Type} (t : Table K V) (r : Option (Table K V)) (e : Env) : Out (Table K V) σ :=
  match r with
  | none => .bad
  | some t' => .done ((e.addNodes ((t'.size : Int) - t.size)).addBlocks (t'.blocks - t.blocks)) t'

/-- `extract(k)` (implementation.hpp:1788-1800); the handle is then destroyed by the caller. -/
def extractX (may : Call → Bool) (t : Table K V) (k : K) (e : Env) : Out (Table K V × Option (K × V)) (Table K V) :=
  (t.findX may k t e).bind fun e r =>
    match r with
    | none => .done e (t, none)
    | some q =>
      match t.extractAt q with
      | none => .bad
      | some y => .done e (y.1, some y.2)

/-! ### equivalent keys -/

/-- the hint node after a possible rehash (see `emplaceEquiv`) and the insertion behind it -/
def emplaceEquivTail (t : Table K V) (x : K × V) (hint : Option Nat) (t1 : Table K V) : Option (Table K V × (BIt × Nat)) :=
  let itb1 := t1.bucketFor (t.fns.hash x.1)
  match t1.b.get itb1 with
  | none => none
  | some l1 =>
    let hint1 : Option Nat := match hint with
      | none => none
      | some i =>
        if t.maxLoad < t.size + 1 ∧ t1.bucketCount ≠ t.bucketCount
        then (l1.reverse.findIdx? (fun e => t.fns.eq x.1 e.1)).map (fun j => l1.length - 1 - j)
        else some i
    match t1.b.insertNodeHint itb1 x hint1 with
    | none => none
    | some b' => some ({ t1 with b := b', size := t1.size + 1 }, (itb1, match hint1 with
        | none => 0
        | some i => i + 1))

/-- `emplace_equiv` (implementation.hpp:2449-2465) with the node already made. -/
def emplaceEquivBodyX (may : Call → Bool) (t : Table K V) (x : K × V) (e : Env) : Out (Table K V × (BIt × Nat)) (Table K V) :=
  (((ask may .hash t e).bind fun e _ => t.findImplX may x.1 (t.bucketFor (t.fns.hash x.1)) t e).onThrow dropNode).bind
    fun e hint =>
      ((t.growForOneX may e).onThrow dropNode).bind fun e t1 => ofOpt (t.emplaceEquivTail x hint t1) e

/-- `emplace_equiv(construct_node(...))`. -/
def emplaceEquivX (may : Call → Bool) (t : Table K V) (x : K × V) (e : Env) : Out (Table K V × (BIt × Nat)) (Table K V) :=
  (newNode may t e).bind fun e _ => t.emplaceEquivBodyX may x e

/-- the insertion of `emplace_hint_equiv` next to a usable hint `p` (see `emplaceHintEquiv`) -/
def emplaceHintEquivTail (t : Table K V) (p : BIt × Nat) (x : K × V) (t1 : Table K V) : Option (Table K V × (BIt × Nat)) :=
  if t.maxLoad < t.size + 1 ∧ t1.bucketCount ≠ t.bucketCount then
    let itb1 := t1.bucketFor (t.fns.hash x.1)
    match t.b.get p.1, t1.b.get itb1 with
    | some l, some l1 =>
      match l.findIdx? (fun e => t.fns.eq x.1 e.1), l1.reverse.findIdx? (fun e => t.fns.eq x.1 e.1) with
      | some i0, some j0 =>
        let i1 := l1.length - 1 - j0 - (p.2 - i0)
        match t1.b.insertNodeHint itb1 x (some i1) with
        | none => none
        | some b' => some ({ t1 with b := b', size := t1.size + 1 }, (itb1, i1 + 1))
      | _, _ => none
    | _, _ => none
  else
    match t1.b.insertNodeHint p.1 x (some p.2) with
    | none => none
    | some b' => some ({ t1 with b := b', size := t1.size + 1 }, (p.1, p.2 + 1))

/-- `emplace_hint_equiv` (implementation.hpp:2467-2496): with a usable hint the key is hashed only if a rehash is due. -/
def emplaceHintEquivX (may : Call → Bool) (t : Table K V) (hint : It) (x : K × V) (e : Env) :
    Out (Table K V × (BIt × Nat)) (Table K V) :=
  (newNode may t e).bind fun e _ =>
    match hint with
    | none => t.emplaceEquivBodyX may x e
    | some p =>
      match t.b.deref p with
      | none => .bad
      | some y =>
        ((ask may .eq t e).onThrow dropNode).bind fun e _ =>
          if t.fns.eq x.1 y.1 then
            ((if t.maxLoad < t.size + 1 then ask may .hash t e else .done e ()).onThrow dropNode).bind fun e _ =>
              ((t.growForOneX may e).onThrow dropNode).bind fun e t1 => ofOpt (t.emplaceHintEquivTail p x t1) e
          else t.emplaceEquivBodyX may x e

/-- `move_insert_node_type_equiv` (implementation.hpp:2512-2533). -/
def insertNodeEquivX (may : Call → Bool) (t : Table K V) (x : K × V) (e : Env) : Out (Table K V × (BIt × Nat)) (Table K V) :=
  (t.reserveForInsertX may (t.size + 1) e).bind fun e t1 =>
    ((ask may .hash t1 e).bind fun e _ => t1.findImplX may x.1 (t1.bucketFor (t1.fns.hash x.1)) t1 e).bind fun e hint =>
      match t1.b.insertNodeHint (t1.bucketFor (t1.fns.hash x.1)) x hint with
      | none => .bad
      | some b' => .done e ({ t1 with b := b', size := t1.size + 1 }, (t1.bucketFor (t1.fns.hash x.1), match hint with
          | none => 0
          | some i => i + 1))

/-- The loops that fill a container from a list of elements. -/
inductive Fill where
  /-- `copy_buckets` (implementation.hpp:2305-2324, 2657-2676): hash, make the node, search (multi) -/
  | copy
  /-- `insert_range_equiv` with `emplace_no_rehash_equiv` (2498-2509, 2572-2597): make the node, hash, search -/
  | range
  /-- `move_construct_buckets` (1502-1528): make the node, hash -/
  | moveCtor
  /-- `move_assign_buckets` (2326-2347, 2678-2700): move the value out, hash, search (multi), make the node -/
  | moveAssign
deriving DecidableEq

/-- the throwing part of one round of a filling loop; the result is the node to insert behind -/
def prepX (may : Call → Bool) (k : Fill) (uniq : Bool) (t : Table K V) (x : K × V) (e : Env) : Out (Option Nat) (Table K V) :=
  let search (e : Env) : Out (Option Nat) (Table K V) :=
    if uniq then .done e none else t.findImplX may x.1 (t.bucketFor (t.fns.hash x.1)) t e
  match k with
  | .copy => (ask may .hash t e).bind fun e _ => (newNode may t e).bind fun e _ => (search e).onThrow dropNode
  | .range => (newNode may t e).bind fun e _ => ((ask may .hash t e).bind fun e _ => search e).onThrow dropNode
  | .moveCtor => (newNode may t e).bind fun e _ => ((ask may .hash t e).bind fun e _ => search e).onThrow dropNode
  | .moveAssign =>
    (ask may .node t e).bind fun e _ => (ask may .hash t e).bind fun e _ => (search e).bind fun e h =>
      (newNode may t e).bind fun e _ => .done e h

/-- a filling loop; an exception leaves the elements inserted so far -/
def fillX (may : Call → Bool) (k : Fill) (uniq : Bool) : List (K × V) → Table K V → Env → Out (Table K V) (Table K V)
  | [], t, e => .done e t
  | x :: xs, t, e =>
    (prepX may k uniq t x e).bind fun e h =>
      match (if uniq then t.b.insertNode (t.bucketFor (t.fns.hash x.1)) x
        else t.b.insertNodeHint (t.bucketFor (t.fns.hash x.1)) x h) with
      | none => .bad
      | some b' => fillX may k uniq xs { t with b := b', size := t.size + 1 } e

/-- `insert_range_equiv` for input iterators (implementation.hpp:2601-2609). -/
def insertRangeEquiv1X (may : Call → Bool) : List (K × V) → Table K V → Env → Out (Table K V) (Table K V)
  | [], t, e => .done e t
  | x :: xs, t, e => (t.emplaceEquivX may x e).bind fun e r => insertRangeEquiv1X may xs r.1 e

/-- `insert_range_equiv` for forward iterators (implementation.hpp:2570-2598). -/
def insertRangeEquivX (may : Call → Bool) (t : Table K V) (xs : List (K × V)) (e : Env) : Out (Table K V) (Table K V) :=
  match xs with
  | [] => .done e t
  | [x] => (t.emplaceEquivX may x e).bind fun e r => .done e r.1
  | _ => (t.reserveForInsertX may (t.size + xs.length) e).bind fun e t1 => fillX may .range false xs t1 e

/-- loop of `group_count` (implementation.hpp:1297-1304) -/
def countRunX {σ : Type} (may : Call → Bool) (s : σ) (p : K × V → Bool) : Bool → List (K × V) → Env → Out Nat σ
  | _, [], e => .done e 0
  | found, x :: l, e =>
    (ask may .eq s e).bind fun e _ =>
      if p x then (countRunX may s p true l e).bind fun e n => .done e (n + 1)
      else if found then .done e 0 else countRunX may s p false l e

/-- `group_count` (implementation.hpp:1288-1308). -/
def groupCountX (may : Call → Bool) (t : Table K V) (k : K) (e : Env) : Out Nat (Table K V) :=
  if t.size = 0 then .done e 0
  else
    (ask may .hash t e).bind fun e _ =>
      match t.b.get (t.bucketFor (t.fns.hash k)) with
      | none => .bad
      | some l => countRunX may t (fun x => t.fns.eq k x.1) false l e

/-- `next_group` (implementation.hpp:1279-1286), collecting the elements passed over -/
def nextGroupX {σ : Type} (may : Call → Bool) (t : Table K V) (k : K) (s : σ) : Nat → It → Env → Out (List (K × V) × It) σ
  | _, none, e => .done e ([], none)
  | f, some it, e =>
    match t.b.deref it with
    | none => .bad
    | some x =>
      (ask may .eq s e).bind fun e _ =>
        if t.fns.eq k x.1 then
          match f with
          | 0 => .bad
          | f + 1 =>
            match t.b.incIt it with
            | none => .bad
            | some it' => (nextGroupX may t k s f it' e).bind fun e r => .done e (x :: r.1, r.2)
        else .done e ([], some it)

/-- loop of `erase_key_equiv_impl` (implementation.hpp:2633-2640); an exception leaves the list and the number of nodes deleted
so far. -/
def eraseRunX (may : Call → Bool) (p : K × V → Bool) (i : Nat) : Nat → List (K × V) → Nat → Env →
    Out (List (K × V) × Nat) (List (K × V) × Nat)
  | 0, l, n, e => .done e (l, n)
  | f + 1, l, n, e =>
    match l[i]? with
    | none => .done e (l, n)
    | some x =>
      (ask may .eq (l, n) e).bind fun e _ =>
        if p x then eraseRunX may p i f (l.eraseIdx i) (n + 1) (e.addNodes (-1)) else .done e (l, n)

/-- `erase_key_equiv_impl` (implementation.hpp:2626-2647). -/
def eraseKeyEquivX (may : Call → Bool) (t : Table K V) (k : K) (e : Env) : Out (Table K V × Nat) (Table K V) :=
  (ask may .hash t e).bind fun e _ =>
    if 0 < t.size then
      match t.b.get (t.bucketFor (t.fns.hash k)) with
      | none => .bad
      | some l =>
        ((ask may .fnCopy t e).bind fun e _ => findRunX may t (fun x => t.fns.eq k x.1) l e).bind fun e r =>
          match r with
          | none => .done e (t, 0)
          | some i =>
            match t.deleteNode with
            | none => .bad
            | some _ =>
              ((eraseRunX may (fun x => t.fns.eq x.1 k) i l.length l 0 e).onThrow (fun e r =>
                if t.size < r.2 then none
                else some (e, { t with
                  b := { t.b with chain := up t.b.chain (t.bucketFor (t.fns.hash k)).p r.1 }, size := t.size - r.2 }))).bind
                fun e r =>
                  let b' := { t.b with chain := up t.b.chain (t.bucketFor (t.fns.hash k)).p r.1 }
                  if t.size < r.2 then .bad
                  else
                    match (if r.1.isEmpty then b'.unlinkBucket (t.bucketFor (t.fns.hash k)) else some b') with
                    | none => .bad
                    | some b'' => .done e ({ t with b := b'', size := t.size - r.2 }, r.2)
    else .done e (t, 0)

/-- `unordered_multimap::merge` (unordered_map.hpp:2326-2363): `insert(source.extract(source.begin()))`; if the insertion
throws, the temporary handle destroys the node. -/
def mergeEquivLoopX (may : Call → Bool) : Nat → Table K V → Table K V → Env →
    Out (Table K V × Table K V) (Table K V × Table K V)
  | 0, t, o, e => if o.size = 0 then .done e (t, o) else .bad
  | f + 1, t, o, e =>
    if o.size = 0 then .done e (t, o)
    else
      match o.begin_ with
      | none => .bad
      | some none => .bad
      | some (some it) =>
        match o.extractAt it with
        | none => .bad
        | some (o', x) =>
          ((t.insertNodeEquivX may x e).onThrow (fun e t' => some (e.addNodes (-1), (t', o')))).bind fun e r =>
            mergeEquivLoopX may f r.1 o' e

def mergeEquivX (may : Call → Bool) (t o : Table K V) (e : Env) : Out (Table K V × Table K V) (Table K V × Table K V) :=
  if t.al ≠ o.al then .bad else mergeEquivLoopX may o.size t o e

/-! ### copy, move, swap -/

/-- destructor (implementation.hpp:1533-1558). -/
def destroyX (t : Table K V) (e : Env) : Option Env :=
  match t.deleteBuckets with
  | none => none
  | some _ => some ((e.addNodes (-t.size)).addBlocks (-t.blocks))

/-- `copy_buckets` (implementation.hpp:2305-2324, 2657-2676). -/
def copyBucketsX (may : Call → Bool) (uniq : Bool) (t src : Table K V) (e : Env) : Out (Table K V) (Table K V) :=
  (t.reserveForInsertX may src.size e).bind fun e t1 =>
    match src.iterate with
    | none => .bad
    | some l => fillX may .copy uniq l t1 e

/-- copy constructor with allocator (implementation.hpp:1406-1411; unordered_map.hpp:1439-1465): if `copy_buckets` throws the
`table_` member is destroyed. -/
def copyCtorX (may : Call → Bool) (uniq : Bool) (x : Table K V) (a : Nat) (e : Env) : Out (Table K V) Unit :=
  (ask may .fnCopy () e).bind fun e _ =>
    (newX may x.size a () e).bind fun e (nb : Gba (K × V)) =>
      let t : Table K V := { fns := x.fns, al := a, size := 0, mlf := x.mlf, maxLoad := maxLoadFor x.mlf nb.size, b := nb }
      if x.size ≠ 0 then (t.copyBucketsX may uniq x e).onThrow (fun e t' => (t'.destroyX e).map (fun e => (e, ())))
      else .done e t

/-- move constructor (implementation.hpp:1413-1419): function objects that are not nothrow move constructible are copied. -/
def moveCtorX (may : Call → Bool) (x : Table K V) (e : Env) : Out (Table K V × Table K V) Unit :=
  (ask may .fnCopy () e).bind fun e _ => .done e x.moveCtor

/-- move constructor with allocator (implementation.hpp:1421-1427, 1502-1528). After an exception in the loop the source holds
elements some of which are moved-from; the model takes all of them to be (their values are unspecified either way). -/
def moveCtorAllocX (may : Call → Bool) (mv : K × V → K × V) (x : Table K V) (a : Nat) (e : Env) :
    Out (Table K V × Table K V) (Table K V) :=
  (ask may .fnCopy x e).bind fun e _ =>
    (newX may x.bucketCount a x e).bind fun e (nb : Gba (K × V)) =>
      let t : Table K V := { fns := x.fns, al := a, size := 0, mlf := x.mlf, maxLoad := maxLoadFor x.mlf nb.size, b := nb }
      if a = x.al then
        match t.b.deallocX t.al e with
        | none => .bad
        | some e => ofOpt (t.moveBucketsFrom x) e
      else if x.size = 0 then .done e (t, x)
      else
        ((t.reserveX may x.size e).onThrow (fun e t' => (t'.destroyX e).map (fun e => (e, x)))).bind fun e t1 =>
          match x.iterate with
          | none => .bad
          | some l =>
            ((fillX may .moveCtor true l t1 e).onThrow
              (fun e t' => (t'.destroyX e).map (fun e => (e, movedFrom mv x)))).bind fun e t2 => .done e (t2, movedFrom mv x)

/-- `assign`, allocator not propagated (implementation.hpp:1581-1601): `mlf_` and `max_load_` are overwritten before
`reserve_for_insert`, which may throw. -/
def assignSameX (may : Call → Bool) (uniq : Bool) (t x : Table K V) (e : Env) : Out (Table K V) (Table K V) :=
  (ask may .fnCopy t e).bind fun e _ =>
    (({ t with mlf := x.mlf, maxLoad := maxLoadFor x.mlf t.bucketCount } : Table K V).reserveForInsertX may x.size e).bind
      fun e t1 => (plainX t1 t1.clear e).bind fun e t2 => ({ t2 with fns := x.fns } : Table K V).copyBucketsX may uniq x e

/-- `assign` with a propagated, unequal allocator (implementation.hpp:1604-1629). -/
def assignPropX (may : Call → Bool) (uniq : Bool) (t x : Table K V) (e : Env) : Out (Table K V) (Table K V) :=
  (newX may x.size x.al t e).bind fun e nb =>
    ((ask may .fnCopy t e).onThrow (fun e s => (nb.deallocX x.al e).map (fun e => (e, s)))).bind fun e _ =>
      (plainX t ({ t with fns := x.fns } : Table K V).deleteBuckets e).bind fun e t1 =>
        (({ t1 with al := x.al, b := nb, mlf := x.mlf } : Table K V).reserveX may x.size e).bind fun e t2 =>
          if x.size ≠ 0 then t2.copyBucketsX may uniq x e else .done e t2

/-- `assign` (implementation.hpp:1569-1629). -/
def assignX (may : Call → Bool) (pocca uniq : Bool) (t x : Table K V) (e : Env) : Out (Table K V) (Table K V) :=
  if pocca = true ∧ t.al ≠ x.al then t.assignPropX may uniq x e else t.assignSameX may uniq x e

/-- `move_assign` with a propagated or equal allocator (implementation.hpp:1644-1681). -/
def moveAssignEqX (may : Call → Bool) (t x : Table K V) (e : Env) : Out (Table K V × Table K V) (Table K V × Table K V) :=
  (ask may .fnCopy (t, x) e).bind fun e _ =>
    (plainX t ({ t with fns := x.fns } : Table K V).deleteBuckets e).bind fun e t1 =>
      ofOpt (({ t1 with al := x.al, mlf := x.mlf, b := Gba.null x.al } : Table K V).moveBucketsFrom x) e

/-- `move_assign_realloc` (implementation.hpp:1684-1704). About the source after an exception see `moveCtorAllocX`. -/
def moveAssignReallocX (may : Call → Bool) (uniq : Bool) (mv : K × V → K × V) (t x : Table K V) (e : Env) :
    Out (Table K V × Table K V) (Table K V × Table K V) :=
  (ask may .fnCopy (t, x) e).bind fun e _ =>
    let t0 := { t with mlf := x.mlf, maxLoad := maxLoadFor x.mlf t.bucketCount }
    ((if 0 < x.size then t0.reserveForInsertX may x.size e else .done e t0).onThrow (fun e t' => some (e, (t', x)))).bind
      fun e t1 => (plainX t1 t1.clear e).bind fun e t2 =>
        match x.iterate with
        | none => .bad
        | some l =>
          ((fillX may .moveAssign uniq l { t2 with fns := x.fns } e).onThrow
            (fun e t' => some (e, (t', movedFrom mv x)))).bind fun e t3 => .done e (t3, movedFrom mv x)

/-- `move_assign` (implementation.hpp:1632-1704). -/
def moveAssignX (may : Call → Bool) (pocma uniq : Bool) (mv : K × V → K × V) (t x : Table K V) (e : Env) :
    Out (Table K V × Table K V) (Table K V × Table K V) :=
  if pocma = true ∨ t.al = x.al then t.moveAssignEqX may x e else t.moveAssignReallocX may uniq mv x e

/-- `swap` (implementation.hpp:1443-1485): both spare function pairs are constructed before anything changes. -/
def swapX (may : Call → Bool) (pocs : Bool) (t o : Table K V) (e : Env) : Out (Table K V × Table K V) (Table K V × Table K V) :=
  (ask may .fnCopy (t, o) e).bind fun e _ => (ask may .fnCopy (t, o) e).bind fun e _ => ofOpt (Table.swap pocs t o) e

/-! ### comparison -/

/-- loop of `equals_unique` (implementation.hpp:1829-1848) -/
def equalsLoopX {σ : Type} (may : Call → Bool) (veq : K × V → K × V → Bool) (o : Table K V) (s : σ) : List (K × V) → Env →
    Out Bool σ
  | [], e => .done e true
  | x :: xs, e =>
    (o.findNodeX may x.1 s e).bind fun e r =>
      match r with
      | none => .done e false
      | some it =>
        match o.b.deref it with
        | none => .bad
        | some y => (ask may .eq s e).bind fun e _ => if veq x y then equalsLoopX may veq o s xs e else .done e false

def equalsUniqueX {σ : Type} (may : Call → Bool) (veq : K × V → K × V → Bool) (t o : Table K V) (s : σ) (e : Env) : Out Bool σ :=
  if t.size ≠ o.size then .done e false
  else
    match t.iterate with
    | none => .bad
    | some l => equalsLoopX may veq o s l e

/-- loop of `equals_equiv` (implementation.hpp:2354-2378); the comparisons of elements inside one group (2380-2425) are lumped
into one throw point. -/
def equalsEquivLoopX {σ : Type} (may : Call → Bool) (veq : K × V → K × V → Bool) (t o : Table K V) (s : σ) : Nat → It → Env →
    Out Bool σ
  | _, none, e => .done e true
  | 0, some _, _ => .bad
  | f + 1, some n1, e =>
    match t.b.deref n1 with
    | none => .bad
    | some x =>
      (o.findX may x.1 s e).bind fun e r =>
        match r with
        | none => .done e false
        | some n2 =>
          (t.nextGroupX may x.1 s t.size (some n1) e).bind fun e g1 =>
            (o.nextGroupX may x.1 s o.size (some n2) e).bind fun e g2 =>
              (ask may .eq s e).bind fun e _ =>
                match groupEquals veq g1.1 g2.1 with
                | none => .bad
                | some false => .done e false
                | some true => equalsEquivLoopX may veq t o s f g1.2 e

def equalsEquivX {σ : Type} (may : Call → Bool) (veq : K × V → K × V → Bool) (t o : Table K V) (s : σ) (e : Env) : Out Bool σ :=
  if t.size ≠ o.size then .done e false
  else
    match t.begin_ with
    | none => .bad
    | some it => equalsEquivLoopX may veq t o s t.size it e

end Table
end Fca

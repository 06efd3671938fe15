/-
Model of the concurrent table (`concurrent_flat_map`, `concurrent_node_map`, and the sets): any number of threads, every
shared-memory access a separate step, all interleavings.
Source: /repo/include/boost/unordered/detail/foa/concurrent_table.hpp (and core.hpp for the parts of `table_core` it uses).

What is modelled: visitation and lookup, insertion with the optimistic insertion counter, erasure by key, whole-table passes,
growth, and whole-container operations under the exclusive lock.

Simplifications
* Sequential consistency: accesses take effect in one total order. In the code the metadata words are relaxed atomics, but the
  counters and the locks are acquire/release or stronger. `Verif.Conc.Weak` does without this assumption.
* A group lock is taken in one step when it is free for the mode; that the spinlock implements this is C27, that waiting for it
  ends is C28. A thread is inside the shared section of the container from its first access to the table to `leave`; the
  exclusive section is one step, possible when no thread is inside. That `multimutex` implements this is
  `C28_exclusive_section`.
* The element array is accessed only under a group lock; such an access is merged with the next or the preceding metadata or
  counter access of the same thread.
* Reading the metadata of a group (`match`) is a read per byte, in any order. A byte other than the sentinel may also be
  reported as a match when it is none: this covers torn reads of a slot that is changing (in the bit-sliced layout a byte is
  written by several atomic operations). A torn read that reports no match reads as if made between two writes.
* Nothing throws (`Verif.Conc.Exc` does without this assumption) and callbacks do not use the container. Callbacks change the mapped value only, and only under exclusive
  access (the interface passes a const reference otherwise).
* The insertion counters are counted without wrapping in the model; the comparison is made modulo 2^32 as in the code.
* For node containers the payload includes the node.
-/
import Verif.Foa.Ops2
import Verif.Conc.Locking

namespace Conc.Tab
open Foa
open Conc.Locking (Mode)

variable {K V : Type}

/-- What a whole-table pass does with an element: go on (with the new mapped value, adding to the result), stop (likewise), or
erase. -/
inductive Verdict (V : Type) where
  | go (v : V) (add : Nat)
  | stop (v : V) (add : Nat)
  | erase

/-- Operations with a key. -/
inductive KOp (K V : Type) where
  /-- `visit` / `cvisit` / `contains` / `count` (concurrent_table.hpp:1206-1214, 1285-1294): calls `f` on the element -/
  | visit (m : Mode) (k : K) (f : K × V → V)
  /-- `insert`, `emplace`, `insert_or_[c]visit`, `insert_and_[c]visit` (concurrent_table.hpp:1597-1611): `f2` is called on the
  existing element, `f1` on the new one -/
  | insert (m : Mode) (x : K × V) (f2 f1 : K × V → V)
  /-- `erase(k)`, `erase_if(k,p)`, `extract`, `extract_if` (concurrent_table.hpp:905-928, 975-996): the predicate answers
  `none` to erase, `some v` to keep the element, leaving `v` as its mapped value -/
  | erase (k : K) (p : K × V → Option V)

def KOp.key : KOp K V → K
  | .visit _ k _ => k
  | .insert _ x _ _ => x.1
  | .erase k _ => k

/-- The group access used by the search. -/
def KOp.mode : KOp K V → Mode
  | .visit m _ _ => m
  | .insert m _ _ _ => m
  | .erase _ _ => .excl

def KOp.isInsert : KOp K V → Bool
  | .insert _ _ _ _ => true
  | _ => false

/-- Operations under the exclusive lock of the container: `rehash` (concurrent_table.hpp:1067-1071), `reserve` (1073-1077),
`clear` (969-973), and the insertions and erasures that `merge` (999-1016) and loading (1911-1973) make one by one. -/
inductive ExOp (K V : Type) where
  | rehash (n : Nat)
  | reserve (n : Nat)
  | clear
  | emplace (x : K × V)
  | eraseKey (k : K)

/-- Their effect: the sequential functions of `table_core`. `unprotected_emplace` (concurrent_table.hpp:1613-1629) is
`table::emplace_impl`. -/
def ExOp.run (cfg : Cfg) (t : Table K V) : ExOp K V → Option (Table K V × Nat)
  | .rehash n => (t.rehash cfg n).map (·, 0)
  | .reserve n => (t.reserve cfg n).map (·, 0)
  | .clear => some (t.clear, 0)
  | .emplace x => (t.emplaceImpl cfg x).map fun r => (r.1, if r.2.2 then 1 else 0)
  | .eraseKey k => t.eraseKey k

/-- `rehash_if_full` (concurrent_table.hpp:1726-1732) with `unchecked_rehash_for_growth` (core.hpp:1974-1978). -/
def rehashIfFull (cfg : Cfg) (t : Table K V) : Option (Table K V) :=
  if t.size = t.ml then t.uncheckedRehash (Arrays.new_ cfg t.al (growthRequest t.size)) else some t

/-- All operations. `sweep` stands for `visit_all`, `visit_while`, `erase_if(f)` (concurrent_table.hpp:1236-1246, 1262-1269,
930-944). `return false` and `return true` of `for_all_elements_while` (1770, 1776) are answers of a pass whose callback says
`.stop _ 1` and `.go _ 0` (see `visitWhile`). -/
inductive Op (K V : Type) where
  | key (o : KOp K V)
  | sweep (m : Mode) (act : K × V → Verdict V)
  | ex (e : ExOp K V)

/-- `visit_while(f)` (concurrent_table.hpp:1262-1269, 1759-1777): the callback says whether to go on and leaves a mapped value.
The answer 0 is `true`, 1 is `false`. -/
def visitWhile (m : Mode) (p : K × V → Bool) (w : K × V → V) : Op K V :=
  .sweep m fun y => if p y then .go (w y) 0 else .stop (w y) 1

/-- The rest of a whole-table pass after an erasure: action, remaining slots of the group, result so far. -/
abbrev Cont (K V : Type) := Option ((K × V → Verdict V) × List Nat × Nat)

/-- Where a thread is. `c` is the recorded insertion counter, `pb` the prober. -/
inductive Pc (K V : Type) where
  | idle
  | done (r : Nat)
  /-- called, shared section not entered -/
  | start (o : Op K V)
  /-- before `rehash_if_full` (concurrent_table.hpp:1609) -/
  | full (o : KOp K V)
  /-- before reading the insertion counter (concurrent_table.hpp:1693) -/
  | counter (o : KOp K V)
  /-- reading the metadata of a group (1312) -/
  | scan (o : KOp K V) (c : Nat) (pb : Prober) (todo acc : List Nat)
  /-- before locking the group (1316) -/
  | lock (o : KOp K V) (c : Nat) (pb : Prober) (ms : List Nat)
  /-- comparing keys under the lock (1317-1329) -/
  | check (o : KOp K V) (c : Nat) (pb : Prober) (ms : List Nat)
  /-- before reading the overflow byte (1331) -/
  | over (o : KOp K V) (c : Nat) (pb : Prober)
  /-- element found, before the callback (1322) -/
  | hit (o : KOp K V) (pb : Prober) (j : Nat)
  /-- before `++size` (1645) -/
  | reserve (o : KOp K V) (c : Nat)
  /-- before comparing with `ml` (1653) -/
  | test (o : KOp K V) (c n : Nat)
  /-- reservation failed, before `--size` (1650) -/
  | failSize (o : KOp K V)
  /-- before locking a group for insertion (1702) -/
  | insLock (o : KOp K V) (c : Nat) (pb : Prober)
  /-- before `match_available` (1703) -/
  | insFind (o : KOp K V) (c : Nat) (pb : Prober)
  /-- group full and marked, before unlocking it (1719-1720) -/
  | insNext (o : KOp K V) (c : Nat) (pb : Prober)
  /-- slot reserved, before `insert_counter(pos0)++` (1707) -/
  | insInc (o : KOp K V) (c : Nat) (pb : Prober) (j : Nat)
  /-- starting over: before `reset`, before unlocking, before `--size` (1672, 1702, 1650) -/
  | rollReset (o : KOp K V) (pb : Prober) (j : Nat)
  | rollUnlock (o : KOp K V) (pb : Prober)
  | rollSize (o : KOp K V)
  /-- erasing: element destroyed and `ml` adjusted, before `reset`, before `--size` (core.hpp:2260-2274) -/
  | eraseReset (g j d : Nat) (cont : Cont K V)
  | eraseSize (g d : Nat) (cont : Cont K V)
  /-- whole-table pass: before locking group `g` (1767) -/
  | swLock (m : Mode) (act : K × V → Verdict V) (g r : Nat)
  /-- whole-table pass: under the lock of group `g`, slots left (1768-1773) -/
  | swAt (m : Mode) (act : K × V → Verdict V) (g : Nat) (js : List Nat) (r : Nat)
  /-- before unlocking group `g` and returning -/
  | unlock (g : Nat) (m : Mode) (r : Nat)
  /-- before leaving the shared section -/
  | leave (r : Nat)
  /-- undefined behaviour -/
  | bad

/-- The table and the insertion counters (concurrent_table.hpp:221-235). -/
structure Mem (K V : Type) where
  tab : Table K V
  cnt : Nat → Nat

namespace Mem

/-- `hash_for(k)` (core.hpp:1941-1945) -/
def hashOf (m : Mem K V) (k : K) : Nat := m.tab.fns.hash k
/-- `position_for(hash)` (core.hpp:1947-1957) -/
def pos0 (m : Mem K V) (k : K) : Nat := m.tab.arr.posFor (m.hashOf k)
def grp (m : Mem K V) (g : Nat) : Group := m.tab.arr.grp g
def slot (m : Mem K V) (g j : Nat) : Option (K × V) := m.tab.arr.slot g j

def setGrp (m : Mem K V) (g : Nat) (G : Group) : Mem K V := { m with tab := { m.tab with arr := m.tab.arr.setGrp g G } }
def setSlot (m : Mem K V) (g j : Nat) (v : Option (K × V)) : Mem K V :=
  { m with tab := { m.tab with arr := m.tab.arr.setSlot g j v } }
def setSize (m : Mem K V) (n : Nat) : Mem K V := { m with tab := { m.tab with size := n } }
def setMl (m : Mem K V) (n : Nat) : Mem K V := { m with tab := { m.tab with ml := n } }
def incCnt (m : Mem K V) (g : Nat) : Mem K V := { m with cnt := fun i => if i = g then m.cnt g + 1 else m.cnt i }

/-- A callback on the element `y` of a slot: under exclusive access it may change the mapped value. -/
def call (m : Mem K V) (md : Mode) (g j : Nat) (y : K × V) (v : V) : Mem K V :=
  match md with
  | .shared => m
  | .excl => m.setSlot g j (some (y.1, v))

/-- The amount by which erasing adjusts `ml` (core.hpp:2266-2270, `maybe_caused_overflow`). -/
def drop (m : Mem K V) (g j : Nat) : Nat := if (m.grp g).maybeCausedOverflow j then 1 else 0

end Mem

/-- The prober at the beginning of a search for the key of `o`. -/
def probe0 (m : Mem K V) (o : KOp K V) : Prober := Prober.init (m.pos0 o.key)

/-- `match_really_occupied(pg,last)` (core.hpp:1958-1962): the occupied slots without the sentinel. -/
def reallyOcc (m : Mem K V) (g : Nat) : List Nat :=
  (List.range N).filter fun j => (m.grp g).md j != 0 && !(decide (g = m.tab.arr.mask) && decide (j = N - 1))

/-- A search that found nothing. -/
def missPc (o : KOp K V) (c : Nat) : Pc K V := if o.isInsert then .reserve o c else .leave 0

/-- The first state of the search inside the shared section. -/
def enterPc (m : Mem K V) (o : KOp K V) : Pc K V :=
  if o.isInsert then .counter o else .scan o 0 (probe0 m o) (List.range N) []

/-- Steps of one thread that do not change memory. `canS g` / `canX g`: no other thread's lock on group `g` forbids shared /
exclusive access. -/
inductive Quiet (m : Mem K V) (canS canX : Nat → Prop) : Pc K V → Pc K V → Prop where
  /- calls -/
  | call (o) : Quiet m canS canX .idle (.start o)
  | callAgain (r o) : Quiet m canS canX (.done r) (.start o)
  | enter (o) : Quiet m canS canX (.start (.key o)) (enterPc m o)
  /- `boost::uint32_t counter=insert_counter(pos0)` (concurrent_table.hpp:1693) -/
  | counter (o) : Quiet m canS canX (.counter o) (.scan o (m.cnt (m.pos0 o.key)) (probe0 m o) (List.range N) [])
  /- `pg->match(hash)` (1312) -/
  | scanMatch (o c pb todo acc j) : j ∈ todo → (m.grp pb.pos).md j ≠ 1 →
      Quiet m canS canX (.scan o c pb todo acc) (.scan o c pb (todo.erase j) (j :: acc))
  | scanMiss (o c pb todo acc j) : j ∈ todo → (m.grp pb.pos).md j ≠ rhash (m.hashOf o.key) →
      Quiet m canS canX (.scan o c pb todo acc) (.scan o c pb (todo.erase j) acc)
  /- `if(mask)` (1313) -/
  | scanNone (o c pb) : Quiet m canS canX (.scan o c pb [] []) (.over o c pb)
  | scanSome (o c pb acc) : acc ≠ [] →
      Quiet m canS canX (.scan o c pb [] acc) (.lock o c pb ((List.range N).filter fun j => decide (j ∈ acc)))
  /- `auto lck=access(access_mode,pos)` (1316) -/
  | lockS (o c pb ms) : o.mode = .shared → canS pb.pos → Quiet m canS canX (.lock o c pb ms) (.check o c pb ms)
  | lockX (o c pb ms) : o.mode = .excl → canX pb.pos → Quiet m canS canX (.lock o c pb ms) (.check o c pb ms)
  /- `is_occupied(n)` and the comparison (1317-1329) -/
  | checkEmpty (o c pb j ms) : (m.grp pb.pos).md j = 0 → Quiet m canS canX (.check o c pb (j :: ms)) (.check o c pb ms)
  | checkBad (o c pb j ms) : (m.grp pb.pos).md j ≠ 0 → m.slot pb.pos j = none →
      Quiet m canS canX (.check o c pb (j :: ms)) .bad
  | checkHit (o c pb j ms y) : (m.grp pb.pos).md j ≠ 0 → m.slot pb.pos j = some y → m.tab.fns.eq o.key y.1 = true →
      Quiet m canS canX (.check o c pb (j :: ms)) (.hit o pb j)
  | checkMiss (o c pb j ms y) : (m.grp pb.pos).md j ≠ 0 → m.slot pb.pos j = some y → m.tab.fns.eq o.key y.1 = false →
      Quiet m canS canX (.check o c pb (j :: ms)) (.check o c pb ms)
  | checkEnd (o c pb) : Quiet m canS canX (.check o c pb []) (.over o c pb)
  /- `is_not_overflowed(hash)` and `pb.next` (1331-1340) -/
  | overEnd (o c pb) : (m.grp pb.pos).isNotOverflowed (m.hashOf o.key) = true → Quiet m canS canX (.over o c pb) (missPc o c)
  | overNext (o c pb) : (m.grp pb.pos).isNotOverflowed (m.hashOf o.key) = false →
      Quiet m canS canX (.over o c pb) (if (pb.next m.tab.arr.mask).2 then
        .scan o c (pb.next m.tab.arr.mask).1 (List.range N) [] else missPc o c)
  | hitBad (o pb j) : m.slot pb.pos j = none → Quiet m canS canX (.hit o pb j) .bad
  /- `rsize.succeeded()` (1653, 1698) -/
  | testOk (o c n) : n ≤ m.tab.ml → Quiet m canS canX (.test o c n) (.insLock o c (probe0 m o))
  | testFail (o c n) : ¬ n ≤ m.tab.ml → Quiet m canS canX (.test o c n) (.failSize o)
  /- `auto lck=access(group_exclusive{},pos)` (1702) -/
  | insLock (o c pb) : canX pb.pos → Quiet m canS canX (.insLock o c pb) (.insFind o c pb)
  | insFindBad (o c pb) : m.tab.arr.hasElems = false → Quiet m canS canX (.insFind o c pb) .bad
  | insFindTaken (o c pb j js) : (m.grp pb.pos).availSlots = j :: js → m.slot pb.pos j ≠ none →
      Quiet m canS canX (.insFind o c pb) .bad
  | insNext (o c pb) : Quiet m canS canX (.insNext o c pb) (.insLock o c (pb.next m.tab.arr.mask).1)
  | rollUnlock (o pb) : Quiet m canS canX (.rollUnlock o pb) (.rollSize o)
  /- whole-table passes: `for_all_elements_while` (1759-1777) -/
  | sweepNone (md act) : m.tab.arr.hasElems = false → Quiet m canS canX (.start (.sweep md act)) (.leave 0)
  | sweep (md act) : m.tab.arr.hasElems = true → Quiet m canS canX (.start (.sweep md act)) (.swLock md act 0 0)
  | swLockS (act g r) : canS g → Quiet m canS canX (.swLock .shared act g r) (.swAt .shared act g (reallyOcc m g) r)
  | swLockX (act g r) : canX g → Quiet m canS canX (.swLock .excl act g r) (.swAt .excl act g (reallyOcc m g) r)
  | swBad (md act g j js r) : m.slot g j = none → Quiet m canS canX (.swAt md act g (j :: js) r) .bad
  | swEnd (md act g r) : Quiet m canS canX (.swAt md act g [] r)
      (if g + 1 ≤ m.tab.arr.mask then .swLock md act (g + 1) r else .leave r)
  | unlock (g md r) : Quiet m canS canX (.unlock g md r) (.leave r)
  | leave (r) : Quiet m canS canX (.leave r) (.done r)

/-- Steps of one thread that change memory. -/
inductive Eff (m : Mem K V) : Pc K V → Mem K V → Pc K V → Prop where
  /- callbacks on a found element (1322, 1290-1293) -/
  | visit (md k f pb j y) : m.slot pb.pos j = some y →
      Eff m (.hit (.visit md k f) pb j) (m.call md pb.pos j y (f y)) (.unlock pb.pos md 1)
  | found (md x f2 f1 pb j y) : m.slot pb.pos j = some y →
      Eff m (.hit (.insert md x f2 f1) pb j) (m.call md pb.pos j y (f2 y)) (.unlock pb.pos md 0)
  /- `erase_if(k,p)` when the predicate says no (918-926) -/
  | eraseNot (k p pb j y v) : m.slot pb.pos j = some y → p y = some v →
      Eff m (.hit (.erase k p) pb j) (m.call .excl pb.pos j y v) (.unlock pb.pos .excl 0)
  /- `super::erase`: `destroy_element`, `recover_slot` (core.hpp:1693-1697, 2260-2274) -/
  | erase (k p pb j y) : m.slot pb.pos j = some y → p y = none → m.drop pb.pos j ≤ m.tab.ml →
      Eff m (.hit (.erase k p) pb j) ((m.setSlot pb.pos j none).setMl (m.tab.ml - m.drop pb.pos j))
        (.eraseReset pb.pos j (m.drop pb.pos j) none)
  | eraseWrap (k p pb j y) : m.slot pb.pos j = some y → p y = none → ¬ m.drop pb.pos j ≤ m.tab.ml →
      Eff m (.hit (.erase k p) pb j) m .bad
  | eraseReset (g j d cont) : Eff m (.eraseReset g j d cont) (m.setGrp g ((m.grp g).reset j)) (.eraseSize g d cont)
  | eraseSize (g d) : 1 ≤ m.tab.size →
      Eff m (.eraseSize g d none) (m.setSize (m.tab.size - 1)) (.unlock g .excl 1)
  | eraseSizeMore (g d act js r) : 1 ≤ m.tab.size →
      Eff m (.eraseSize g d (some (act, js, r))) (m.setSize (m.tab.size - 1)) (.swAt .excl act g js (r + 1))
  | eraseSizeWrap (g d cont) : m.tab.size = 0 → Eff m (.eraseSize g d cont) m .bad
  /- `size_=++x.size_ctrl.size` (1645) -/
  | reserve (o c) : Eff m (.reserve o c) (m.setSize (m.tab.size + 1)) (.test o c (m.tab.size + 1))
  /- `--x.size_ctrl.size` (1650), then `return -1` leaves the shared section (1722, 1607-1608) -/
  | failSize (o) : 1 ≤ m.tab.size → Eff m (.failSize o) (m.setSize (m.tab.size - 1)) (.full o)
  | failSizeWrap (o) : m.tab.size = 0 → Eff m (.failSize o) m .bad
  /- `match_available`, `reserve_slot` (1703-1706, 1664-1668) -/
  | insSet (o c pb j js) : m.tab.arr.hasElems = true → (m.grp pb.pos).availSlots = j :: js → m.slot pb.pos j = none →
      Eff m (.insFind o c pb) (m.setGrp pb.pos ((m.grp pb.pos).set j (m.hashOf o.key))) (.insInc o c pb j)
  /- `pg->mark_overflow(hash)` (1719) -/
  | insFull (o c pb) : m.tab.arr.hasElems = true → (m.grp pb.pos).availSlots = [] →
      Eff m (.insFind o c pb) (m.setGrp pb.pos ((m.grp pb.pos).markOverflow (m.hashOf o.key))) (.insNext o c pb)
  /- `insert_counter(pos0)++!=counter`, `construct_element`, `f1` (1707-1715) -/
  | insert (md x f2 f1 c pb j) : m.cnt (m.pos0 x.1) % 2 ^ 32 = c % 2 ^ 32 → m.slot pb.pos j = none →
      Eff m (.insInc (.insert md x f2 f1) c pb j)
        ((m.incCnt (m.pos0 x.1)).setSlot pb.pos j (some (x.1, f1 x))) (.unlock pb.pos .excl 1)
  | insertBad (o c pb j) : m.cnt (m.pos0 o.key) % 2 ^ 32 = c % 2 ^ 32 → m.slot pb.pos j ≠ none →
      Eff m (.insInc o c pb j) m .bad
  | startOver (o c pb j) : m.cnt (m.pos0 o.key) % 2 ^ 32 ≠ c % 2 ^ 32 →
      Eff m (.insInc o c pb j) (m.incCnt (m.pos0 o.key)) (.rollReset o pb j)
  | rollReset (o pb j) : Eff m (.rollReset o pb j) (m.setGrp pb.pos ((m.grp pb.pos).reset j)) (.rollUnlock o pb)
  | rollSize (o) : 1 ≤ m.tab.size → Eff m (.rollSize o) (m.setSize (m.tab.size - 1)) (.counter o)
  | rollSizeWrap (o) : m.tab.size = 0 → Eff m (.rollSize o) m .bad
  /- whole-table passes (1768-1773, 935-941) -/
  | swGo (md act g j js r y v add) : m.slot g j = some y → act y = .go v add →
      Eff m (.swAt md act g (j :: js) r) (m.call md g j y v) (.swAt md act g js (r + add))
  | swStop (md act g j js r y v add) : m.slot g j = some y → act y = .stop v add →
      Eff m (.swAt md act g (j :: js) r) (m.call md g j y v) (.unlock g md (r + add))
  | swErase (act g j js r y) : m.slot g j = some y → act y = .erase → m.drop g j ≤ m.tab.ml →
      Eff m (.swAt .excl act g (j :: js) r) ((m.setSlot g j none).setMl (m.tab.ml - m.drop g j))
        (.eraseReset g j (m.drop g j) (some (act, js, r)))
  | swEraseWrap (act g j js r y) : m.slot g j = some y → act y = .erase → ¬ m.drop g j ≤ m.tab.ml →
      Eff m (.swAt .excl act g (j :: js) r) m .bad

/-- Whole-container operations: one step when no thread is inside the shared section. Where the arrays are replaced, so are
the insertion counters (all zero); allowed in every case. -/
inductive Alone (cfg : Cfg) (m : Mem K V) : Pc K V → Mem K V → Pc K V → Prop where
  | ex (e t' r cnt') : e.run cfg m.tab = some (t', r) → (cnt' = m.cnt ∨ cnt' = fun _ => 0) →
      Alone cfg m (.start (.ex e)) ⟨t', cnt'⟩ (.done r)
  | exBad (e) : e.run cfg m.tab = none → Alone cfg m (.start (.ex e)) m .bad
  /- `rehash_if_full()` and the next turn of the loop of `emplace_and_visit_impl` (1601-1611, 1726-1732) -/
  | grow (o t' cnt') : rehashIfFull cfg m.tab = some t' → (cnt' = m.cnt ∨ cnt' = fun _ => 0) →
      Alone cfg m (.full o) ⟨t', cnt'⟩ (.start (.key o))
  | growBad (o) : rehashIfFull cfg m.tab = none → Alone cfg m (.full o) m .bad

/-! ### locks held, derived from where the threads are -/

/-- The group lock a thread holds. -/
def Pc.locks : Pc K V → Option (Nat × Mode)
  | .check o _ pb _ => some (pb.pos, o.mode)
  | .hit o pb _ => some (pb.pos, o.mode)
  | .insFind _ _ pb | .insNext _ _ pb | .insInc _ _ pb _ | .rollReset _ pb _ | .rollUnlock _ pb => some (pb.pos, .excl)
  | .eraseReset g _ _ _ | .eraseSize g _ _ => some (g, .excl)
  | .swAt m _ g _ _ => some (g, m)
  | .unlock g m _ => some (g, m)
  | _ => none

/-- Inside the shared section of the container. -/
def Pc.inside : Pc K V → Bool
  | .idle | .done _ | .start _ | .full _ | .bad => false
  | _ => true

/-- Memory and threads. -/
structure State (K V : Type) where
  mem : Mem K V
  pc : Nat → Pc K V

/-- No other thread holds group `g` exclusively / at all. -/
def State.canS (s : State K V) (t g : Nat) : Prop := ∀ u, u ≠ t → (s.pc u).locks ≠ some (g, .excl)
def State.canX (s : State K V) (t g : Nat) : Prop := ∀ u, u ≠ t → ∀ m, (s.pc u).locks ≠ some (g, m)

/-- The state after thread `t` has moved. -/
def State.set (s : State K V) (t : Nat) (m : Mem K V) (pc : Pc K V) : State K V :=
  ⟨m, fun u => if u = t then pc else s.pc u⟩

/-- One step of thread `t`. -/
inductive StepBy (cfg : Cfg) (t : Nat) (s : State K V) : State K V → Prop where
  | quiet {pc'} : Quiet s.mem (s.canS t) (s.canX t) (s.pc t) pc' → StepBy cfg t s (s.set t s.mem pc')
  | eff {m' pc'} : Eff s.mem (s.pc t) m' pc' → StepBy cfg t s (s.set t m' pc')
  | alone {m' pc'} : (∀ u, (s.pc u).inside = false) → Alone cfg s.mem (s.pc t) m' pc' → StepBy cfg t s (s.set t m' pc')

def Step (cfg : Cfg) (s s' : State K V) : Prop := ∃ t, StepBy cfg t s s'

/-- A newly constructed container, no operations. -/
def init (cfg : Cfg) (f : Fns K) (al n : Nat) : State K V := ⟨⟨Table.mk_ cfg f al n, fun _ => 0⟩, fun _ => .idle⟩

/-- Nobody about to compare its recorded counter has let 2^32 insertions pass since recording it. -/
def NoWrap (s : State K V) : Prop :=
  ∀ t o c pb j, s.pc t = .insInc o c pb j → s.mem.cnt (s.mem.pos0 o.key) < c + 2 ^ 32

/-- Reachable without wrap-around of an insertion counter during a single insertion. -/
inductive Reach (cfg : Cfg) (f : Fns K) (al n : Nat) : State K V → Prop where
  | init : Reach cfg f al n (init cfg f al n)
  | step {s s'} : Reach cfg f al n s → NoWrap s → Step cfg s s' → Reach cfg f al n s'

end Conc.Tab

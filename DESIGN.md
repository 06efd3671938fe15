# Formal model of boostorg/unordered in Lean 4

Properties: `properties.jsonl`. Claims and theorem names: `MANIFEST.json`. Mutation log: `seeded/LOG.jsonl`.
Lean project: `lean/` (`lake build`), modules under `lean/Verif/`, all imported by `lean/Verif.lean`.

## Trusted base
* Lean 4.33.0's kernel. Mathlib is used only as a library of kernel-checked theorems.
* Axioms: every theorem depends on at most `propext`, `Classical.choice`, `Quot.sound` (Lean's own). No axioms are added, no
  compiled-code tactics are used. Concrete runs (witnesses, `example`s) are evaluated by the kernel (`decide +kernel`).
* The reading of the C++ source: each definition of the model cites the file and lines in `/repo` it models, and says where it
  simplifies. Nothing checks that reading mechanically; the C++ is not executed here.
* The statements: specification files (`Spec*.lean`) import nothing of the model and are meant to be read on their own.
* Below the model: `std::size_t` of 64 bits, IEEE-754 binary32 round-to-nearest-even (`Float32.lean`, defined in Lean on natural
  numbers; no overflow/NaN), allocators that return fresh memory or throw, hash and equality that are functions and form
  an equivalence compatible with the hash (`Cfg`/`Fns.Ok`-style hypotheses appear in each theorem), sequentially consistent
  memory for the concurrent table (the spinlock model, in contrast, admits stale relaxed loads and spurious CAS failure).

## Conventions
* Undefined behaviour is a distinct outcome (outer `none`, or `bad` in the exception models), never assumed away: reading an
  unconstructed slot, constructing over a live one, writing to the static dummy groups, dereferencing a null
  bucket/group/node pointer, freeing memory with an allocator different from the one it came from, freeing twice, failing a
  BOOST_ASSERT where stated, a probe loop that never ends. Theorems say it does not occur.
* A loop over a prober/mask/bucket list is a recursion over the list of positions visited; lemmas tie those lists to the bit
  operations of the code.
* Elements are (key, payload) pairs; sets have payload `Unit`. Address stability is stated by letting the payload (or, in
  `Node/`, the element) be an address.
* Programs: registers of containers, lists of calls; theorems quantify over all programs and all configurations (hash
  function, allocator propagation traits, ...), by induction over the call list.
* Exceptions: an environment holds the number of throwing-capable calls that still succeed and the set of kinds of calls that
  may throw; quantifying over it ranges over all throw points.
* Concurrency: a transition system with any number of threads, one shared access per step, all interleavings.
* Property theorems live in `Props/*.lean`, with a concrete non-trivial `example` beside each; everything else is lemmas.
* Where a property is false of the code, a negative theorem with a concrete reachable witness is proved and the strongest
  variant that holds has suffix `_partial`.

## Module map
| modules | models | source |
|---|---|---|
| `Float32` | binary32 rounding, `ceil`, products and quotients | - |
| `Foa/Prober`, `Foa/Load`, `Foa/Layout` | size policy, quadratic prober, load arithmetic, buffer layout | foa/core.hpp |
| `Foa/Group`, `Foa/GroupTables`, `Foa/GroupImpl`, `Foa/GroupSim` | metadata group: byte-vector model; SSE2, NEON and portable bit-level models; simulation | foa/core.hpp |
| `Foa/Table`, `Foa/Inv`, `Foa/Ops`, `Foa/Ops2` | `table_core`, `table`: all operations; invariants and effects | foa/core.hpp, foa/table.hpp |
| `Foa/Iter`, `Foa/IterErase` | iterators, increment, erase(iterator), erase(range) | foa/table.hpp |
| `Foa/Machine`, `Foa/Refine` | public interface of flat/node maps and sets as programs; refinement of `Spec` | unordered_flat_map.hpp etc. |
| `Foa/Exceptions`, `Foa/ExcLemmas`, `Foa/ExcOps*`, `Foa/ExcMachine`, `Foa/ExcRefine` | the same code with throw points and allocation/element ledgers; refinement of `SpecExc` | foa/*.hpp |
| `Foa/Heap`, `Foa/HeapLemmas` | the operations that allocate or free arrays, on a heap of blocks; `Props/Memory` | foa/core.hpp |
| `Foa/Stats`, `Foa/StatsArith`, `Foa/StatsLemmas`, `Foa/StatsRefine` | statistics: Welford's algorithm, recording in every operation; `SpecStats` | cumulative_stats.hpp, foa/core.hpp |
| `Foa/Serial`, `Fca/Serial` | save/load of all container families; `SpecSer` | serialize_container.hpp, concurrent_table.hpp |
| `Arith/PrimeFmod`, `Arith/Mulx` | prime bucket counts, fast modulo, mulx, xmx | prime_fmod.hpp, mulx.hpp, xmx.hpp |
| `Fca/Gba`, `Fca/GbaInv`, `Fca/GbaOps`, `Fca/Cursor`, `Fca/Unlink` | `grouped_bucket_array`, bucket groups, bitmasks, circular list, iterators | fca.hpp |
| `Fca/Table`, `Fca/Inv`, `Fca/Ops*`, `Fca/Equal`, `Fca/Machine`, `Fca/Refine` | closed-addressing `table`, unique and equivalent keys; programs; refinement of `SpecC` | implementation.hpp, unordered_map.hpp |
| `Fca/LoadInv`, `Fca/LoadBound`, `Fca/Reserve` | `max_load_` bookkeeping, rounding error, reserve | implementation.hpp |
| `Fca/Exceptions`, `Fca/Exc*` | the same code with throw points and ledgers; refinement of `SpecExcC` | implementation.hpp |
| `Fca/Functions`, `Fca/FunctionsInv` | double buffer of hash/equality pairs, byte level, with throw points; `SpecFn` | implementation.hpp |
| `Node/*` | node memory, node handles, containers of node pointers (both libraries); `SpecNode` | node_handle.hpp, unordered_map.hpp, ... |
| `Conc/Spinlock` | rw_spinlock, one atomic access per step, stale loads | rw_spinlock.hpp |
| `Conc/Locking` | multimutex, scoped locks, group locks, over the spinlock model | concurrent_table.hpp |
| `Conc/Reentry`, `Conc/ReentryInv` | reentrancy check; `SpecReentry` | reentrancy_check.hpp |
| `Fca/Storage`, `Fca/StorageLemmas` | blocks of closed-addressing containers and node handles, with exceptions | implementation.hpp (memory management of `table`), fca.hpp (arrays), unordered_map.hpp (constructors, merge, node_handle_map) |
| `SpecTrack`, `Serial/Track`, `Serial/TrackLoad`, `Foa/SerialIter`, `Fca/SerialIter` | object tracking of archives, serialization of iterators | serialize_tracked_address.hpp, serialize_container.hpp, table.hpp:217-236, implementation.hpp:1084-1102, fca.hpp:310-326 |
| `SpecCost`, `Foa/Work`, `Fca/Work`, `Props/Cost` | what growth work is counted; counted models of insertion, rehash and erasure, potential functions (C57) | core.hpp:1036-1079, 1558-1569, 1980-2002, 2058-2075, 2119-2133, 2281-2322, table.hpp:484-496, 628-655, implementation.hpp:1866-1960, 2449-2465, 2729-2801, fca.hpp:546-594 |
| Fca/LoadPolicy, Fca/LoadProg, Props/FcaLoadProg | C23 for range insertion, merge, node insertion, copies, moves and whole programs | implementation.hpp (min_buckets, reserve_for_insert, recalculate_max_load and their callers) |
| `SpecAddr`, `Props/FcaAddr` | what happens to pointers, references and iterators (C58) | implementation.hpp 1443-1485, 1490-1528, 1632-1704, 2729-2801 |
| `SpecHet`, `Foa/Het`, `Foa/HetLemmas`, `Fca/Het`, `Fca/HetLemmas`, `Props/Het` | heterogeneous calls | core.hpp 1707-1755, 1964-2002; table.hpp 406-467, 484-496, 628-655; implementation.hpp 1279-1308, 1721-1799, 1962-2070, 2230-2243, 2626-2647; transparent overloads of the public headers |
| `Conc/Nested`, `Props/ConcNested` | nested operations of concurrent containers, as lock programs | concurrent_table.hpp 107-235, 1127-1151, 1309-1331, 1384-1404, 1702-1712, 1759-1777; rw_spinlock.hpp |
| `SpecArgs`, `Obj/Insert`, `Obj/Lemmas`, `Props/Args` | insertions as reads, moves, constructions and destructions of objects (C61) | table.hpp 406-467, 628-655; core.hpp 1277-1300, 1901-1912, 1964-2002, 2146-2165, 2287-2364; concurrent_table.hpp 1597-1629, 1682-1724; implementation.hpp 707-818, 1855-2070, 2449-2465; unordered_flat_map.hpp 346-405 |
| `SpecAddrO`, `Foa/AddrLemmas`, `Foa/AddrStep`, `Props/FoaAddr` | addresses of elements in the heap model of C36 (C62) | core.hpp and table.hpp as for `Foa/Heap`; node_map_types.hpp 20-140 |
| `Debug/Printers`, `Props/Printers` | debugger scripts (C63, C64) | extra/boost_unordered_printers.py 36-40, 52-94, 162-251; extra/boost_unordered.natvis 66-100, 186-208, 315-414 |
| `Fca/Asserts`, `Props/FcaAsserts` | assertions on sizes and loads (C65) | implementation.hpp 1421-1427, 1502-1528, 1569-1704, 2305-2347, 2498-2509, 2572-2597, 2657-2700 |
| `Conc/TabWhile`, `Props/ConcWhile` | `visit_while` (C66) | concurrent_table.hpp 633-668, 1262-1269, 1759-1777 |
| `Foa/LoadIface`, `Props/FoaLoad` | load interface (C67) | core.hpp 1260, 1558-1569, 1809-1836; concurrent_table.hpp 1045-1065, 1424-1429 |
| `Conc/Interop`, `Props/ConcInterop` | conversions between concurrent and non-concurrent containers (C68) | concurrent_table.hpp 499-521; table.hpp 378-379, 588-611 |
| `Conc/AssignList`, `Props/ConcAssign` | `operator=(initializer_list)` of concurrent containers under the exclusive lock (C42) | concurrent_table.hpp 541-549, 1613-1629; core.hpp 2004-2020 |
| `Conc/Overloads`, `Props/ConcOverloads` | public insertion functions of concurrent containers (C69) | tuple_rotate_right.hpp; concurrent_table.hpp 685-900, 1430-1611; concurrent_flat_map.hpp 462-935 |
| `Conc/Nodes`, `Conc/NodesTab`, `Conc/NodesInv`, `Conc/NodesRun`, `Conc/NodesPoint`, `Props/ConcNodes`, `Props/ConcNodesKey`, `Props/ConcNodesLife`, `Props/ConcNodesSweep`, `Props/ConcPassStop` (C44) | node handles of concurrent node containers (C70) | concurrent_node_map.hpp 512-530, 603-620, 1094-1127; concurrent_table.hpp 905-996, 1597-1726; node_handle.hpp; node_map_types.hpp 37-143 |
| `Conc/NodesExc`, `Props/ConcNodesExc` | node handles of concurrent node containers with exceptions (C71) | concurrent_node_map.hpp 512-530, 603-620; concurrent_table.hpp 1682-1724; node_map_types.hpp 65-70; node_handle.hpp 111-183 |
| `Conc/Table`, `Conc/Tab*` | concurrent table: lookup, insertion with optimistic counters, erasure, passes, growth; `SpecT` | concurrent_table.hpp |
| `Conc/Weak*` | the same table on a weak memory machine: unlocked reads may return old values | concurrent_table.hpp |
| `Conc/Exc*` | the same table when user code or the allocator throws; unwinding is step by step | concurrent_table.hpp, core.hpp |
| `Conc/Bulk*` | bulk visitation, reduced to single visits | concurrent_table.hpp |
| `Conc/Multi*` | several concurrent tables and the operations between them | concurrent_table.hpp |
| `Conc/CacheArray`, `SpecLife` | the aligned array of mutexes: addresses and lifetimes | concurrent_table.hpp:77-105 |

## Per property: what is modelled, how it is proved
| id | modelled | how proved |
|----|----------|------------|
| C01 | all public operations of flat/node maps and sets, programs over several containers | invariant of the arrays + refinement of `Spec`, induction over calls |
| C02 | find with overflow-byte early exit | invariant: every group before an element's in its probe sequence has the overflow bit set |
| C03, C04 | emplace, size/max_load bookkeeping | invariant |
| C05 | emplace probe loop | counting argument + C06 |
| C06 | prober | triangular numbers mod 2^k |
| C07, C08 | iterator increment (regular and interleaved) over occupied masks with sentinel, erase(iterator), erase(range) | induction over slots |
| C09 | erase_if | fold lemma |
| C10 | reserve | false after anti-drift erasures (witness); proved for tables whose max load is the initial one |
| C11 | growth request | float32 bounds |
| C12 | slot positions as addresses | frame lemma |
| C13 | three group15 implementations over BitVec with literal tables | simulation to a last-write specification |
| C14, C15 | reduced hash, size policy | tables checked in full by the kernel, arithmetic |
| C16 | buffer_size, alignment modulo 2^W | false for wrapping requests (witness); proved when the byte count fits |
| C17, C38 | mulx (wide and portable), xmx | BitVec/Nat arithmetic; injectivity through inverses |
| C18 | prime_fmod with literal reciprocals | Lemire's error bound |
| C19, C20 | closed-addressing programs | refinement of the relational `SpecC`; copy assignment propagating an unequal allocator onto an empty container is false (witness) |
| C21 | rehash_impl | false (reverses groups): exact behaviour and witness |
| C22 | grouped_bucket_array | invariant of bitmasks and links |
| C23 | max_load_ arithmetic, all insertions, whole programs | false (rounding; stale max_load_): witnesses; bound up to rounding for every kind of insertion and at all times of a program, exact for the default factor to 2^24 elements (`Policy` = relation respected by every way of choosing a bucket count; invariant over programs) |
| C24 | operator== of all families | list lemmas |
| C25, C26 | exceptions | Hoare-style calculus `Sat` over throwing executions, ledgers |
| C27 | spinlock | inductive invariant on the word and the waiters |
| C28 | locks of any number of containers | order argument over the spinlock model |
| C29-C31, C42-C44 | concurrent table | global invariant over memory, counters and program counters; linearization points; accounting of the size counter |
| C32 | bulk visits | every search of a bulk visit is a thread of the single-visit model |
| C33 | save/load | refinement of `SpecSer` including forged archives |
| C34 | node handles | ownership invariant, refinement of `SpecNode` |
| C35 | `functions` | state machine with throw points, refinement of `SpecFn` |
| C36 | every allocation/deallocation of the FOA arrays on a heap of blocks (address, allocator, size) (`Foa/Heap`) | ownership invariant: the live blocks are a permutation of the blocks held by the containers; induction over programs on top of C01's refinement |
| C37 | ml bookkeeping | step theorems |
| C39-C41 | bucket interface, closed-addressing erasure, erase by a stored key | lemmas on `Fca/Cursor`; C41 false (witness) |
| C45, C46 | steps of concurrent operations | measure functions; livelock run for insertions |
| C47 | reserve of the closed-addressing containers | monotonicity of rounded arithmetic; false for node insertion, merge and forward ranges (witnesses) |
| C48 | `cache_aligned_array` (`Conc/CacheArray`) | address arithmetic; lifetime events executed on `SpecLife`; destruction false (theorem for every instance) |
| C49 | view machine over `Conc/Table` (`Conc/Weak`): per-group metadata versions, thread views, views published with insertion counters and `size` | invariant: an insertion that happens before a thread is in its view along the whole probe path; counter and `ml` accounting with old values; what is lost without happens-before is a witness |
| C50 | `Conc/Table` with a throwing variant of every call of user code or the allocator (`Conc/Exc`); guards are unwound in steps of the thread | the invariant of `Conc/Table` is kept by every throwing step; linearization points with exceptions; rank of the unwinding. Exclusive sections reuse the exception model of `Foa/Exceptions` |
| C51 | `Foa/Storage`: blocks with addresses, sort, allocator and size; the storage part of every function that allocates, frees or hands over arrays, plain and concurrent, with its `try`/`catch` and holders; contents are left out (sizes asked for are arbitrary inputs) | ownership invariant (live blocks are a permutation of the blocks of the living containers), Hoare-style lemma with frame per function |
| C52 | several containers of `Conc/Table` side by side; operations on whole containers (`Conc/Multi`) are one step under both exclusive locks (C28), with the sequential functions of `Foa/Machine` | per-container invariant kept by replacement steps; sequential refinement of `Spec` applied to the containers involved (locality lemma); linearization points and passes with replacement steps |
| C53 | every function that records a datum is given again with the recording (`Foa/Stats`), exact rationals for `double`; the number of groups and comparisons is a trace of the lookup loop | erasure lemmas (same tables and results), Welford's invariant over lists of rationals, per-call refinement of `SpecStats`; negative theorem for the probe length after a full probe |
| C54 | `entry_trace` objects with addresses on the stack of a thread, thread-local list through pointers (dangling pointer = undefined behaviour); programs of nested operations with throw, catch, early unlock (`Conc/Reentry`) | the pointer list mirrors the stack of locks held (frame argument over stack addresses), structural induction over programs; log on one container is flat, so C28 applies. A function run by a worker thread of a parallel algorithm is not covered by the check: the list is thread-local |
| C55 | blocks with address, sort, allocator, size; bucket array, group array and one node block per element; node handles; every allocation, element constructor and user function may throw (`may`); two-container operations, handlers, `node_tmp`, `node_constructor`, local arrays (`Fca/Storage`). Which keys are equivalent and when the table grows are arbitrary inputs | ownership as a permutation of the heap's blocks; one lemma per function giving the result's ownership on normal and exceptional exit; induction over programs |
| C56 | the archive's object tracking (`SpecTrack`: an address gets a number when saved first; on loading an unknown number is given the new address, a known one only read), saving/loading of several containers followed by iterators (`Serial/Track`), iterators as their pointers: (control byte, element) resp. (node, bucket, group) (`Foa/SerialIter`, `Fca/SerialIter`) | the list of pairs (saved address, loaded address) as invariant; first pair decides; uniqueness of element addresses; for buckets and groups, first element of the iteration in that bucket; arbitrary archives (any items, any object numbers): induction over the loading loop (`Serial/TrackLoad`) |
| C57 | The two table models with counters for everything whose amount depends on the array sizes (`Foa/Work`, `Fca/Work`), proved equal to the uncounted models. Probing and bucket walks are not counted (they depend on the hash function). Closed addressing: default maximum load factor only. | potential function: for open addressing 2*size + drift - 122*(max_load - size), using that growth requests room for size + size/61 + 1 elements and that an erasure never brings max_load closer to size; for closed addressing 5*size + min(6*size, 30*(size - buckets)) - 7*(buckets - size), using the ratio ≥ 1.8 and ≤ 2.25 of neighbouring bucket counts and bounds for the float arithmetic |
| C58 | Closed-addressing programs over elements whose payload carries the node address (`Verif/SpecAddr.lean`); iterators are the pair of node address and bucket/group index of `Fca/SerialIter` | `C58_references` from the refinement (every element the specification keeps is kept with its tag), `C58_room_keeps_buckets` by following every insertion path under `size+n <= maxLoad`, `C58_iterators` from placement (bucket determined by hash and bucket count), `C58_handed_over`, `C58_same_count_same_buckets`. That nodes are not copied is the storage model's C55; the tag only follows the values. `rehash_impl` with several growth steps beyond the largest bucket count is excluded from the last one |
| C59 | The member functions of both tables instantiated with another argument type (`Foa/Het`, `Fca/Het`): a call sees of its argument the hash, `eq(q,.)`, `eq(.,q)` and the key constructed from it. Specification `SpecHet`: what compatibility is, and each call in terms of the elements equal to `q` | Either some key is equal to `q`, then the call is literally the ordinary call with that key and the refinement theorems apply, or none is, then the loops are shown to find nothing (`findLoop_never`, `qFind_never`); induction over mixed programs (`Open`, `Closed`). Overload resolution (`are_transparent`, `transparent_non_iterable`) and the concurrent containers' transparent overloads are not modelled |
| C60 | Lock programs of nested operations (`Conc/Nested`): an operation is a shared section with user code outside and inside group locks, an exclusive section or an exclusive section on two containers, each with the operations user code calls meanwhile; threads execute them spinlock access by access (`Conc/Locking`) | Lock order by level, address, mutexes before groups, index: ordered programs follow it (mutual induction, `Code.good`), then the progress argument of C28, which is generic in the levels. Negative companion: explicit deadlocked run of a visit nested against the addresses and a `swap` |
| C61 | Insertion functions of all families as operations on objects (`Obj/Insert`): key and mapped part of every object are live, moved from or not there; arguments are references with a value category, to anything. Placement is left out, the need to rehash is an input. Specification `SpecArgs` | Construction from the arguments (`construct_spec`), lookup (`find_spec`), transfer by moving, copying or not at all (`rehash_spec`, induction over the elements), then composition; concurrent insertion by induction over the rounds of its loop, other threads doing anything to objects that are not arguments. Negative companion: closed-addressing `try_emplace` never moves from the key |
| C62 | The heap model of C36 (`Foa/Heap`): the address of an element of a flat container is its block and slot. For node containers the key carries the address of its node (ignored by hash and equality). Specification `SpecAddrO`: what a call destroys, where elements are handed to, which calls are steady | One call (`hstep_addr`): removals only empty slots and the element is still there by C01's refinement, insertions with room only fill slots, the rest by unfolding; then programs by `hrun_own` and `run_refines`. Distinctness from C36's ownership of blocks. Converse for growth: the new block is fresh |
| C63 | The script's functions over the raw 16 bytes or two words of each group and an array of element slots; reading outside is a fault (`Debug/Printers`) | Mask and end test equal those of the group implementations (C13's relations), one advance of the script equals one `++` of the interleaved iterator, then `rest`-induction as for C07; closed addressing by induction on the bucket index. Every container has a memory image in both layouts (`memOf_inMemory`) |
| C64 | The same loop with Natvis' 32-bit masks; the closed-addressing list reads the first bucket before its loop | As C63; false for closed-addressing containers without a bucket array (negation proved), `_partial` for the others |
| C65 | The functions containing those assertions again, with the assertion evaluated (`Fca/Asserts`); outcome ok / assertion fails / UB | Equality with the model without assertions on reachable containers. `reserve_for_insert(n)` leaves room for `n` by monotonicity of rounding if n and the number of buckets stay below 2^24; negation at n = 201326612 |
| C66 | `visitWhile`, a pass of the concurrent model whose callback may stop it (`Conc/Table`); the parallel overloads are not modelled | Invariant over the steps of the pass: no call has said `false` yet, or exactly the last one has and the pass is on its way out |
| C67 | `Table.loadFactor`, `Table.concLoadFactor` over the float model (`Foa/LoadIface`); the container invariant and the concurrent accounting invariant carry `ml <= initial_max_load()` | Closed form of the initial maximum load (exact up to 2^20 groups by kernel evaluation of the 18 cases, rounding lemmas above); induction over programs and over interleavings. The note on max_load() is refuted and a rounded-down version proved |
| C68 | `toConc`, `toSeq`, worlds of containers of both kinds (`Conc/Interop`) | Induction over histories: the invariant of the non-concurrent container is what the concurrent one has when nobody is inside, in both directions; then the refinement theorem (C01) and the linearization lemma (C42) apply from any state satisfying the invariants |
| C69 | `rotateRight`, `dispatch` from public calls to the insertion of the concurrent model, the loops of the range overloads (`Conc/Overloads`) | Index arithmetic of the rotation for any length; each insertion of a loop adds one element iff it answers true (linearization, C42), summed over the steps of the thread. The documented answer of the range overloads with callbacks is refuted by a run, the true relation proved (partial) |
| C70 | The concurrent table with elements (key, node, mapped value), the memory for nodes, handle variables, `extract`, `insert(node_type&&)` (`Conc/Nodes`); every access to shared memory a step, destruction, move and change of handles steps of their own | Invariant: slots and handles partition the live nodes, handles have one of three shapes, each call's handle fits its program counter (`Conc/NodesInv`); induction along runs for the step at which a call takes effect (`Conc/NodesPoint`); runs projected on runs of the table, where linearizability (C42) applies, for `visit`, `emplace`, `erase` |
| C71 | The concurrent table with exceptions of C50, keys carrying the address of the node; the handle followed along the steps of the call: nulled by the step that constructs the element, reset on return (`Conc/NodesExc`) | Case analysis of the steps of an insertion (only the one that constructs adds a key), induction along the run. The last sentence is false (finding 24): proved if callbacks do not throw, negation proved on a run |

## Findings (kernel-checked witnesses)
1. Copy assignment of an empty closed-addressing container with POCCA and unequal allocators leaves `max_load_` stale (C19, C23).
2. Closed-addressing rehash reverses the order of equivalent elements (C21).
3. Rounding lets `load_factor()` exceed `max_load_factor()`, and `reserve(n)` leave room for fewer than `n` (C23, C47).
4. Concurrent insertions can livelock each other (C46); the 32-bit insertion counter can wrap and admit a duplicate (C29).
5. `cache_aligned_array`'s destructor walks indices N..1 instead of N-1..0 (C48).
6. `reserve(n)` on an open-addressing table whose max load has drifted may not prevent rehashing (C10).
7. Open-addressing and multimap `merge` lose the element in transit when the insertion throws (C25, C26).
8. `buffer_size` wraps for huge requests (C16).
9. Closed-addressing move assignment/construction with unequal allocators leaves moved-from elements in the source.
10. `erase(key)` of multimap/multiset with a key stored in the container reads freed memory (C41).
11. `multimap::merge(self)` does not terminate.
12. Open-addressing move assignment with unequal non-propagating allocators corrupts the source if allocation throws (C25).
13. A writer can starve behind other writers (C27); visits nested across containers can deadlock (C28).
14. Closed-addressing copy assignment changes `max_load_factor` although an allocation fails (C26).
15. A lookup that is not synchronized with a completed insertion may miss the element: metadata are relaxed (C49).
16. Statistics: the probe length recorded by an unsuccessful lookup that exhausts all groups is one too large (`C53_probe_length_wrong`).
17. Closed addressing: an iterator loaded from an archive may carry the bucket of another element if the loaded container has another bucket count; `*it` is right, `++it` repeats elements, `erase(it)` is undefined (`C56_closed_iterator_wrong_bucket`).
18. Concurrent containers: `exclusive_access(x,y)` locks by address, so nesting visits of two containers in one consistent order deadlocks with `swap`/assignment/`merge`/`==` of them if that order is against the addresses; the documentation gives no rule (C60).
19. Closed-addressing maps: `try_emplace(key_type&& k, args...)` and the hinted overloads pass `k` on as an lvalue (implementation.hpp:2000, 2017, 2039), so an rvalue key is copied, never moved (C61).
20. Natvis, closed-addressing containers: the initial value of the list variable `node` (boost_unordered.natvis:70, 90) reads the first bucket before the loop tests the bucket count; for a container without buckets (default-constructed, moved-from) the array pointer is null, so the visualizer reads address 0 (C64). The GDB script does not.
21. Closed addressing: `reserve_for_insert(n)` computes the bucket request in `float` (implementation.hpp:2749), so the room it leaves can be too small for n above 2^24: with the default load factor n = 201326612 gets 201326611 buckets. The library's own assertions then fail in `emplace_no_rehash_equiv` (2500, forward ranges into multi containers) and `move_assign_buckets` (2329, 2681); without assertions the maximum load factor is exceeded by one element (C65).
22. Open addressing: the documented note "after construction, rehash or clearance, the container's maximum load is at least `max_load_factor() * bucket_count()`" (unordered_flat_map.adoc:1294, 1487) is not exact: with 59 buckets `max_load()` is 51 < 51.625 (core.hpp:1558-1569 truncates), and a `rehash`/`reserve` that finds the bucket count it wants leaves a maximum load lowered by erasures as it is (core.hpp:1830), e.g. 24 for 29 buckets (C67). Documentation only.
23. Concurrent containers: `insert_or_[c]visit`, `insert_and_[c]visit` and `insert_range_*` with a range or an initializer list are documented to return "the number of elements inserted" (concurrent_flat_map.adoc:1265, 1284, 1303, 1390) but return the length of the range: `for (; first != last; ++first, ++count_elements)` (concurrent_flat_map.hpp:548, 562, 596, 610, 648, 665, 706, 723 and the same in the three other containers), unlike `insert(first,last)`, which counts (480). The tests assert the range length. `insert_or_visit({{1,10},{1,20}},f)` on an empty container returns 2 and inserts one element (C69).
24. (C71) `insert_and_[c]visit(node_type&&, f1, f2)` of concurrent node containers: when `f1` throws, the element has been constructed and its pointer in the handle nulled (node_map_types.hpp:65-70), but `access::reset(nh)` (concurrent_node_map.hpp:523-528) is not reached: the handle is empty while the copy of the allocator in it is alive. `~node_handle_base` and assignments do nothing for an empty handle (node_handle.hpp:138-183), and `emplace` constructs another allocator over it: the destructor of that copy never runs. `C71_handle_left_half_empty`, `C71_half_empty_not_destroyed`.

## Simplifications
* Sequential consistency for `Conc/Table` (C29-C31, C42-C46); `Conc/Weak` (C49) drops it for all unlocked reads: metadata,
  insertion counters, `ml`. Load buffering (reading a value not yet written) is not in `Conc/Weak`. Group locks are one step there (C27/C28 justify it), the exclusive section is one step, element accesses merge with
  an adjacent metadata access, a group's `match` is a read per byte in any order and may report false matches. Callbacks do not
  throw and do not use the container. Insertion counters do not wrap in the state but are compared modulo 2^32.
* `Node/`: node addresses are never reused, only memory-transferring move assignment, `merge` of multi containers with unequal
  allocators is undefined.
* Serialization: version numbers are left out, a map element is one item.
* Iterators in archives (C56): that the Boost.Serialization archives track objects as in `SpecTrack` is an assumption about that library; containers are saved before iterators, the items themselves are not tracked, nodes of closed-addressing containers have distinct addresses.
* Insertions on objects (C61): no exceptions (C41 ff. have those), addresses are not reused, the elements' order and placement are left out, lookup reads the keys of all elements it has to, construction of a mapped value reads all its arguments; the concurrent general `emplace(args...)`, which builds a value and then inserts it as an rvalue, is the composition of `construct` and `concEmplace` and not stated separately; initializer lists and ranges are sequences of the insertions here.
* Addresses (C62): calls that are not `Steady` are covered for growth only (others may or may not move elements); block addresses are not reused while the program runs, so 'another address' is 'another block'; that a node's address travels with the element on transfer is node_map_types.hpp:53, 65-69 (the pointer is moved), not derived.
* Debugger scripts (C63, C64): raw pointers only (no fancy-pointer customization points), the program is stopped between calls, `gdb.Value` arithmetic on pointers is exact; the statistics and iterator printers are not modelled.
* Assertions (C65): those about sizes, loads and bucket counts of the closed-addressing containers. Of the others, the ones restating a precondition (allocators equal, iterator not `end()`, handle not empty) are preconditions here; `current_&2` of the function objects is C35, `num_destroyed` in `unchecked_rehash` and positions inside groups are UB in the open-addressing model (C01, C13, C25).
* C68: the allocations of the conversions (group locks and counters; empty arrays for fancy pointers) are taken to succeed, and moved-from function objects and allocators to keep their value. The source of a conversion to a non-concurrent container is locked exclusively: the step happens when no thread is inside; threads that have called but not entered go on with the emptied container.
* C69: overload resolution and the types of arguments are not modelled: an argument is a callback or something to construct from, and a call with them in the wrong places has no meaning (`none`). How an element is made from arguments is a parameter. `emplace` with a ready element or with (key, value), which skip or defer the construction, is the same insertion.
* C70: one container whose allocator no call changes (merge and assignment between concurrent containers are C52, the storage they hand over C51). Node addresses are not reused. The node `emplace` makes exists from the step that puts it into the table. A handle returned with a refused node is put back into the variable it came from. Handles in use by a call are not touched by others. Nothing throws.
* C71: the handle is not part of the state but computed from the steps of the thread that uses it (no other thread may). The constructor from an element being moved is allowed to throw, as for every insertion; in the code it does not (more behaviours are covered).
* Not modelled: type-level machinery (traits, SFINAE, deduction guides), heterogeneous-lookup overload selection,
  parallel execution policies (their workers are further threads of the concurrent model), rounding and standard deviation of statistics, complexity beyond C57, fancy pointers, 32-bit `size_t` except where stated.

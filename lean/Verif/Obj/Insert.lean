/-
Insertions as what they do to objects: when arguments are read, moved from, elements built, moved and destroyed.
Sources: /repo/include/boost/unordered/detail/foa/table.hpp, /repo/include/boost/unordered/detail/foa/core.hpp,
/repo/include/boost/unordered/detail/foa/concurrent_table.hpp, /repo/include/boost/unordered/detail/implementation.hpp and the public
headers.

Simplifications: where elements are placed is left out, so a container is the list of the addresses of its elements, in any order, and
whether an insertion has to rehash is an input (`full`); lookups compare the argument with all elements in turn (the code compares with
fewer); nothing throws. Addresses are not reused. The mapped value is built from any number of arguments by `mk`; sets have `V = Unit`
and no such arguments. Reading a key that was moved from or destroyed, moving or destroying an object that does not exist, is
undefined behaviour (`none`).
-/
import Verif.SpecArgs

namespace Obj
open SpecArgs
variable {K V : Type}

/-- writing one cell -/
def put {α : Type} (f : Nat → Cell α) (a : Nat) (c : Cell α) : Nat → Cell α := fun x => if x = a then c else f x

/-- the hash function or `key_eq` is called on the key at `a` -/
def readKey (m : Mem K V) (a : Nat) : Option K :=
  match m.key a with
  | .live k => some k
  | _ => none

/-- a key is copied or moved out of the object referred to -/
def takeKey (m : Mem K V) (r : Ref) : Option (K × Mem K V) :=
  match m.key r.addr with
  | .live k => some (k, if r.rv then { m with key := put m.key r.addr .husk } else m)
  | _ => none

/-- a mapped value (or argument for one) is copied or moved out of the object referred to -/
def takeVal (m : Mem K V) (r : Ref) : Option (V × Mem K V) :=
  match m.val r.addr with
  | .live v => some (v, if r.rv then { m with val := put m.val r.addr .husk } else m)
  | _ => none

def takeVals : Mem K V → List Ref → Option (List V × Mem K V)
  | m, [] => some ([], m)
  | m, r :: rs =>
    match takeVal m r with
    | none => none
    | some (v, m) => (takeVals m rs).map (fun p => (v :: p.1, p.2))

/-- An element is constructed from its arguments in new storage (`construct_element`, core.hpp:1901-1912, 2146-2165, through `construct` of the type
policies, flat_map_types.hpp:54-60, node_map_types.hpp:101-118; `construct_node_from_args`, `construct_node_pair_from_args`,
implementation.hpp:707-818). -/
def construct (m : Mem K V) (k : Ref) (args : List Ref) (mk : List V → V) : Option (Nat × Mem K V) :=
  match takeKey m k with
  | none => none
  | some (k0, m) =>
    match takeVals m args with
    | none => none
    | some (vs, m) =>
      some (m.next, { key := put m.key m.next (.live k0), val := put m.val m.next (.live (mk vs)), next := m.next + 1 })

/-- an object is destroyed -/
def destroy (m : Mem K V) (a : Nat) : Option (Mem K V) :=
  match m.key a, m.val a with
  | .dead, _ => none
  | _, .dead => none
  | _, _ => some { m with key := put m.key a .dead, val := put m.val a .dead }

/-- Lookup with the key referred to by `k` (table_core::find, core.hpp:1707-1755; find_node_impl, implementation.hpp:1721-1734). -/
def find (eq : K → K → Bool) (m : Mem K V) (k : Nat) : List Nat → Option (Option Nat)
  | [] => some none
  | e :: es =>
    match readKey m k, readKey m e with
    | some k0, some ke => if eq k0 ke then some (some e) else find eq m k es
    | _, _ => none

/-! ### open addressing -/

/-- How elements get to new arrays (`nosize_transfer_element`, core.hpp:2331-2364): moved one by one, each destroyed at once; or copied,
and the old ones destroyed at the end; or, in node containers, not at all (the slots hold pointers: element_type.hpp:28-33). -/
inductive Kind where
  | move
  | copy
  | node
deriving DecidableEq

/-- an object is made at a new address with the parts of another one, which is moved from if `mv` (a mapped part the user has moved from
before stays so) -/
def relocate (mv : Bool) (m : Mem K V) (e : Nat) : Option (Nat × Mem K V) :=
  match m.key e, m.val e with
  | .live k, .live v =>
    some (m.next, { key := put (if mv then put m.key e .husk else m.key) m.next (.live k),
                    val := put (if mv then put m.val e .husk else m.val) m.next (.live v), next := m.next + 1 })
  | .live k, .husk =>
    some (m.next, { key := put (if mv then put m.key e .husk else m.key) m.next (.live k),
                    val := put m.val m.next .husk, next := m.next + 1 })
  | _, _ => none

/-- `nosize_transfer_element` (core.hpp:2331-2364): the key is hashed, then the element moved, copied or left where it is. -/
def transferOne (kd : Kind) (m : Mem K V) (e : Nat) : Option (Nat × Mem K V) :=
  match readKey m e with
  | none => none
  | some _ =>
    match kd with
    | .node => some (e, m)
    | .copy => relocate false m e
    | .move =>
      match relocate true m e with
      | none => none
      | some (a, m) => (destroy m e).map (fun m => (a, m))

/-- the loops over all elements -/
def transferAll (kd : Kind) : Mem K V → List Nat → Option (List Nat × Mem K V)
  | m, [] => some ([], m)
  | m, e :: es =>
    match transferOne kd m e with
    | none => none
    | some (a, m) => (transferAll kd m es).map (fun r => (a :: r.1, r.2))

def destroyAll : Mem K V → List Nat → Option (Mem K V)
  | m, [] => some m
  | m, e :: es =>
    match destroy m e with
    | none => none
    | some m => destroyAll m es

/-- `unchecked_rehash` (core.hpp:2287-2322), without exceptions: the old elements are destroyed at the end if they were not on the way
(`num_destroyed!=size()`). -/
def rehash (kd : Kind) (m : Mem K V) (els : List Nat) : Option (List Nat × Mem K V) :=
  match transferAll kd m els with
  | none => none
  | some (els', m) =>
    match kd with
    | .copy => (destroyAll m els).map (fun m => (els', m))
    | _ => some (els', m)

/-- `table::emplace_impl` (table.hpp:628-655), with `unchecked_emplace_at` (core.hpp:1964-1972) and `unchecked_emplace_with_rehash`
(core.hpp:1980-2002: the element is constructed in the new arrays, then the others are transferred). This is `try_emplace(k,args...)`,
`insert(x)` (then `k` and the only argument are the parts of `x`), `emplace(x)` and `emplace(k,v)` for a `k` of key type (table.hpp:415-467),
and `unprotected_emplace` of concurrent tables (concurrent_table.hpp:1613-1629). -/
def emplaceImpl (eq : K → K → Bool) (kd : Kind) (full : Bool) (m : Mem K V) (els : List Nat) (k : Ref) (args : List Ref)
    (mk : List V → V) : Option (Mem K V × List Nat × Nat × Bool) :=
  match readKey m k.addr with
  | none => none
  | some _ =>
    match find eq m k.addr els with
    | none => none
    | some (some e) => some (m, els, e, false)
    | some none =>
      match construct m k args mk with
      | none => none
      | some (a, m) =>
        if full then (rehash kd m els).map (fun r => (r.2, a :: r.1, a, true))
        else some (m, a :: els, a, true)

/-- The general `emplace(args...)` (table.hpp:406-412): a value is constructed first (`alloc_cted_insert_type`, core.hpp:1277-1300), looked
up and moved into the container; it is destroyed in the end. `k` and `args` are what its key and its mapped part are constructed from. -/
def emplaceTemp (eq : K → K → Bool) (kd : Kind) (full : Bool) (m : Mem K V) (els : List Nat) (k : Ref) (args : List Ref)
    (mk : List V → V) : Option (Mem K V × List Nat × Nat × Bool) :=
  match construct m k args mk with
  | none => none
  | some (x, m) =>
    match emplaceImpl eq kd full m els ⟨x, true⟩ [⟨x, true⟩] (fun vs => vs.headD (mk [])) with
    | none => none
    | some (m, els, a, b) => (destroy m x).map (fun m => (m, els, a, b))

/-- `ibp.first->second = std::forward<M>(obj)`; assigning moves or copies -/
def assign (m : Mem K V) (a : Nat) (obj : Ref) : Option (Mem K V) :=
  match takeVal m obj with
  | none => none
  | some (v, m) => some { m with val := put m.val a (.live v) }

/-- `insert_or_assign(k,obj)` of flat and node maps (unordered_flat_map.hpp:346-405): `obj` is forwarded twice. -/
def insertOrAssign (eq : K → K → Bool) (kd : Kind) (full : Bool) (m : Mem K V) (els : List Nat) (k obj : Ref) (dflt : V) :
    Option (Mem K V × List Nat × Nat × Bool) :=
  match emplaceImpl eq kd full m els k [obj] (fun vs => vs.headD dflt) with
  | none => none
  | some (m, els, a, true) => some (m, els, a, true)
  | some (m, els, a, false) => (assign m a obj).map (fun m => (m, els, a, false))

/-! ### concurrent open addressing -/

/-- What keeps a round of the loops of insertion from inserting. -/
inductive Stop where
  /-- the size is at its maximum: -1 is returned, the lock given back, `rehash_if_full()` called -/
  | isFull
  /-- the insertion counter has changed: `goto startover` -/
  | overtaken
  /-- nothing -/
  | goes

/-- What one round of the loops meets (`emplace_and_visit_impl`, concurrent_table.hpp:1597-1611, `unprotected_norehash_emplace_and_visit`,
1682-1724): what other threads have done to objects (`env`), the elements that are in the container by then, and what stops this
thread. -/
structure Round (K V : Type) where
  env : Mem K V → Mem K V
  els : List Nat
  stop : Stop

/-- The insertion loop, given what its rounds meet; no result at the end of the list: not finished. The result is the memory, the address
of the element inserted (or of the equal one), and whether it was inserted. -/
def concEmplace (eq : K → K → Bool) (k : Ref) (args : List Ref) (mk : List V → V) : Mem K V → List (Round K V) →
    Option (Option (Mem K V × Nat × Bool))
  | _, [] => some none
  | m, r :: rs =>
    let m := r.env m
    match readKey m k.addr with
    | none => none
    | some _ =>
      match find eq m k.addr r.els with
      | none => none
      | some (some e) => some (some (m, e, false))
      | some none =>
        match r.stop with
        | .isFull | .overtaken => concEmplace eq k args mk m rs
        | .goes => (construct m k args mk).map (fun p => some (p.2, p.1, true))

/-! ### closed addressing -/

/-- `reserve`, `rehash_impl` (implementation.hpp:2740-2801): nodes stay where they are, the keys are hashed. -/
def hashAll (m : Mem K V) : List Nat → Option Unit
  | [] => some ()
  | e :: es =>
    match readKey m e with
    | none => none
    | some _ => hashAll m es

/-- growing, if necessary, and linking the node -/
def link (full : Bool) (m : Mem K V) (els : List Nat) (a : Nat) : Option (Mem K V × List Nat × Nat × Bool) :=
  if full then (hashAll m els).map (fun _ => (m, a :: els, a, true)) else some (m, a :: els, a, true)

/-- `emplace_unique(const_key_type& k, args...)` (implementation.hpp:1866-1890), with `k` referring to the key among the arguments:
`insert(x)`, `emplace(x)`, `emplace(k,v)`; `insert_or_assign_unique` on a new key (2044-2070); `try_emplace_unique(k)` (1962-1992). -/
def emplaceUnique (eq : K → K → Bool) (full : Bool) (m : Mem K V) (els : List Nat) (k : Ref) (args : List Ref) (mk : List V → V) :
    Option (Mem K V × List Nat × Nat × Bool) :=
  match readKey m k.addr with
  | none => none
  | some _ =>
    match find eq m k.addr els with
    | none => none
    | some (some e) => some (m, els, e, false)
    | some none =>
      match construct m k args mk with
      | none => none
      | some (a, m) => link full m els a

/-- `try_emplace_unique(k,args...)` (implementation.hpp:2004-2031): `k` is passed on as an lvalue. -/
def tryEmplaceUnique (eq : K → K → Bool) (full : Bool) (m : Mem K V) (els : List Nat) (k : Ref) (args : List Ref) (mk : List V → V) :
    Option (Mem K V × List Nat × Nat × Bool) :=
  match args with
  | [] => emplaceUnique eq full m els k [] mk
  | args => emplaceUnique eq full m els ⟨k.addr, false⟩ args mk

/-- The hint of `emplace_hint_unique` (implementation.hpp:1855-1864) and `try_emplace_hint_unique` (1994-2002, 2033-2041; there `k` is
passed on as an lvalue: `lv`); comparing in one order or the other. -/
def hinted (eq : K → K → Bool) (lv : Bool) (full : Bool) (m : Mem K V) (els : List Nat) (hint : Option Nat) (k : Ref) (args : List Ref)
    (mk : List V → V) : Option (Mem K V × List Nat × Nat × Bool) :=
  let rest := emplaceUnique eq full m els (if lv then ⟨k.addr, false⟩ else k) args mk
  match hint with
  | none => rest
  | some e =>
    match readKey m k.addr, readKey m e with
    | some k0, some ke => if eq k0 ke then some (m, els, e, false) else rest
    | _, _ => none

/-- `emplace_unique(no_key,args...)` (implementation.hpp:1922-1949): the node is constructed first and destroyed by `node_tmp` if there is an
equal element. -/
def emplaceNoKey (eq : K → K → Bool) (full : Bool) (m : Mem K V) (els : List Nat) (k : Ref) (args : List Ref) (mk : List V → V) :
    Option (Mem K V × List Nat × Nat × Bool) :=
  match construct m k args mk with
  | none => none
  | some (a, m) =>
    match readKey m a with
    | none => none
    | some _ =>
      match find eq m a els with
      | none => none
      | some (some e) => (destroy m a).map (fun m => (m, els, e, false))
      | some none => link full m els a

/-- `emplace_unique(converting_key,k,v)` (implementation.hpp:1951-1960): the key is constructed first (it is an object of its own here, whose
mapped part is not used), then used both for looking up and, as an rvalue, for construction; it is destroyed in the end. -/
def emplaceConverting (eq : K → K → Bool) (full : Bool) (m : Mem K V) (els : List Nat) (k v : Ref) (dflt : V) :
    Option (Mem K V × List Nat × Nat × Bool) :=
  match construct m k [] (fun _ => dflt) with
  | none => none
  | some (x, m) =>
    match emplaceUnique eq full m els ⟨x, true⟩ [v] (fun vs => vs.headD dflt) with
    | none => none
    | some (m, els, a, b) => (destroy m x).map (fun m => (m, els, a, b))

/-- `insert_or_assign_unique` (implementation.hpp:2044-2070). -/
def insertOrAssignUnique (eq : K → K → Bool) (full : Bool) (m : Mem K V) (els : List Nat) (k obj : Ref) (dflt : V) :
    Option (Mem K V × List Nat × Nat × Bool) :=
  match readKey m k.addr with
  | none => none
  | some _ =>
    match find eq m k.addr els with
    | none => none
    | some (some e) => (assign m e obj).map (fun m => (m, els, e, false))
    | some none =>
      match construct m k [obj] (fun vs => vs.headD dflt) with
      | none => none
      | some (a, m) => link full m els a

/-- `emplace_equiv(construct_node_from_args(...))` (implementation.hpp:2449-2465; unordered_map.hpp: multimap `emplace`): always inserts. -/
def emplaceEquiv (eq : K → K → Bool) (full : Bool) (m : Mem K V) (els : List Nat) (k : Ref) (args : List Ref) (mk : List V → V) :
    Option (Mem K V × List Nat × Nat × Bool) :=
  match construct m k args mk with
  | none => none
  | some (a, m) =>
    match readKey m a with
    | none => none
    | some _ =>
      match find eq m a els with
      | none => none
      | some _ => link full m els a

end Obj

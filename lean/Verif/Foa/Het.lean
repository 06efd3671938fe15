/-
Heterogeneous calls of the open-addressing containers: the same member functions of `foa::table` instantiated with a type other
than the key type. What a call uses of its argument `q` is its hash, `eq(q,·)` and the key constructed from it.
Source: /repo/include/boost/unordered/detail/foa/core.hpp, detail/foa/table.hpp, unordered_flat_map.hpp (likewise
unordered_flat_set.hpp, unordered_node_map.hpp, unordered_node_set.hpp).
-/
import Verif.SpecHet
import Verif.Foa.Machine

namespace Foa
open Spec (Res)
open SpecHet (Het Call)
variable {K V Q : Type}

/-- What a call sees of its argument: the hash, `eq(q,·)`, and the key an element constructed from it gets. -/
structure Query (K : Type) where
  h : Nat
  l : K → Bool
  key : K

/-- a heterogeneous argument -/
def Query.of (H : Het K Q) (q : Q) : Query K := ⟨H.hash q, H.eqL q, H.make q⟩

/-- an argument of the key type -/
def Query.ofKey (f : Fns K) (k : K) : Query K := ⟨f.hash k, f.eq k, k⟩

namespace Table
open Arrays

/-- `find<Key>(x)` (core.hpp:1707-1755) -/
def qFind (t : Table K V) (q : Query K) : Option (Option Pos) :=
  findLoop t.arr q.l q.h (probeSeq t.arr.mask (t.arr.posFor q.h))

/-- `unchecked_emplace_at(pos0,hash,try_emplace_args_t{},k,args...)` (core.hpp:1964-1972): the position and the stored reduced
hash are those of the argument's hash. -/
def qUncheckedInsert (t : Table K V) (q : Query K) (v : V) : Option (Table K V × Pos) :=
  match t.arr.emplace q.h (q.key, v) with
  | none => none
  | some (a, p) => some ({ t with arr := a, size := t.size + 1 }, p)

/-- `unchecked_emplace_with_rehash(hash,try_emplace_args_t{},k,args...)` (core.hpp:1980-2002) once the new arrays are there -/
def qEmplaceIntoNew (t : Table K V) (q : Query K) (v : V) (new : Arrays K V) : Option (Table K V × Pos) :=
  match new.emplace q.h (q.key, v) with
  | none => none
  | some (a, p) =>
    match t.uncheckedRehash a with
    | none => none
    | some t' => some ({ t' with size := t'.size + 1 }, p)

/-- `unchecked_emplace_with_rehash` (core.hpp:1980-2002) -/
def qEmplaceWithRehash (cfg : Cfg) (t : Table K V) (q : Query K) (v : V) : Option (Table K V × Pos) :=
  t.qEmplaceIntoNew q v (Arrays.new_ cfg t.al (growthRequest t.size))

/-- `try_emplace<Key,Args...>` (table.hpp:428-441) through `emplace_impl` (table.hpp:628-655): hash and comparisons are those of
the argument, the key of the new element is constructed from it. -/
def qEmplace (cfg : Cfg) (t : Table K V) (q : Query K) (v : V) : Option (Table K V × Pos × Bool) :=
  match t.qFind q with
  | none => none
  | some (some p) => some (t, p, false)
  | some none =>
    if t.size < t.ml then (t.qUncheckedInsert q v).map (fun r => (r.1, r.2, true))
    else (t.qEmplaceWithRehash cfg q v).map (fun r => (r.1, r.2, true))

/-- `find<Key>` and reading through the result (unordered_flat_map.hpp:626-646) -/
def qLookup (t : Table K V) (q : Query K) : Option (Option (K × V)) :=
  match t.qFind q with
  | none => none
  | some none => some none
  | some (some p) =>
    match t.deref p with
    | none => none
    | some e => some (some e)

/-- A call with an argument of another type (unordered_flat_map.hpp:366-405, 429-470, 492-500, 554-680; `extract`
unordered_node_map.hpp:574-583). Hints are ignored (unordered_flat_map.hpp:386-405, 444-470). `equal_range` returns the position
found and the next one. -/
def hstep (cfg : Cfg) (t : Table K V) (H : Het K Q) : Call Q V → Option (Table K V × Res K V)
  | .find q => (t.qLookup (.of H q)).map (fun e => (t, .elem e))
  | .contains q => (t.qFind (.of H q)).map (fun p => (t, .bool p.isSome))
  | .count q => (t.qFind (.of H q)).map (fun p => (t, .num (if p.isSome then 1 else 0)))
  | .equalRange q => (t.qLookup (.of H q)).map (fun e => (t, .list e.toList))
  | .at q => (t.qLookup (.of H q)).map (fun e => (t, .val (e.map Prod.snd)))
  | .erase q =>
    match t.qFind (.of H q) with
    | none => none
    | some none => some (t, .num 0)
    | some (some p) => (t.eraseAt p).map (fun t' => (t', .num 1))
  | .extract q =>
    match t.qFind (.of H q) with
    | none => none
    | some none => some (t, .elem none)
    | some (some p) =>
      match t.deref p with
      | none => none
      | some e => (t.eraseAt p).map (fun t' => (t', .elem (some e)))
  | .insert q v =>
    match t.qEmplace cfg (.of H q) v with
    | none => none
    | some (t', p, b) => (t'.deref p).map (fun e => (t', .ins e b))
  | .insertHint _ q v =>
    match t.qEmplace cfg (.of H q) v with
    | none => none
    | some (t', p, _) => (t'.deref p).map (fun e => (t', .elem (some e)))
  | .insertOrAssign q v =>
    match t.qEmplace cfg (.of H q) v with
    | none => none
    | some (t', p, true) => (t'.deref p).map (fun e => (t', .ins e true))
    | some (t', p, false) =>
      match t'.assignAt p v with
      | none => none
      | some t'' => (t''.deref p).map (fun e => (t'', .ins e false))
  | .index q d =>
    match t.qEmplace cfg (.of H q) d with
    | none => none
    | some (t', p, _) => (t'.deref p).map (fun e => (t', .val (some e.2)))

end Table
end Foa

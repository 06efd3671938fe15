/-
Heterogeneous calls of the closed-addressing containers: the same member functions of `detail::table` instantiated with a type
other than the key type. What a call uses of its argument `q` is its hash, `eq(q,·)`, `eq(·,q)` and the key constructed from it.
Source: /repo/include/boost/unordered/detail/implementation.hpp, unordered_map.hpp, unordered_set.hpp.
-/
import Verif.SpecHet
import Verif.Fca.Machine

namespace Fca
open Spec (Res)
open SpecHet (Het Call)
variable {K V Q : Type}

/-- What a call sees of its argument: the hash, `eq(q,·)`, `eq(·,q)`, and the key an element constructed from it gets. -/
structure Query (K : Type) where
  h : Nat
  l : K → Bool
  r : K → Bool
  key : K

/-- a heterogeneous argument -/
def Query.of (H : Het K Q) (q : Q) : Query K := ⟨H.hash q, H.eqL q, fun k => H.eqR k q, H.make q⟩

/-- an argument of the key type -/
def Query.ofKey (f : Fns K) (k : K) : Query K := ⟨f.hash k, f.eq k, fun e => f.eq e k, k⟩

namespace Table

/-- `find_node_impl<Key>` (implementation.hpp:1721-1734) -/
def qFindImpl (t : Table K V) (q : Query K) (itb : BIt) : Option (Option Nat) :=
  if itb.p = t.b.size then some none
  else
    match t.b.get itb with
    | none => none
    | some l => some (l.findIdx? (fun e => q.l e.1))

/-- `find<Key>` / `transparent_find<Key,Hash,Pred>` (implementation.hpp:1747-1768); also
`find(CompatibleKey,CompatibleHash,CompatiblePredicate)` (unordered_map.hpp:1772-1790, 2380-2397). -/
def qFind (t : Table K V) (q : Query K) : Option It :=
  if 0 < t.size then
    let itb := t.bucketFor q.h
    match t.b.get itb with
    | none => none
    | some l =>
      match l.findIdx? (fun e => q.l e.1) with
      | none => some none
      | some i => some (some (itb, i))
  else some none

/-- `find_node<Key>` (implementation.hpp:1736-1740) -/
def qFindNode (t : Table K V) (q : Query K) : Option It :=
  let itb := t.bucketFor q.h
  match t.qFindImpl q itb with
  | none => none
  | some none => some none
  | some (some i) => some (some (itb, i))

/-- `try_emplace_unique<Key,Args...>` (implementation.hpp:1962-1991, 2003-2031): the key of the new element is constructed from
the argument, its bucket is that of the argument's hash. -/
def qEmplaceUnique (t : Table K V) (q : Query K) (v : V) : Option (Table K V × (BIt × Nat) × Bool) :=
  let itb := t.bucketFor q.h
  match t.qFindImpl q itb with
  | none => none
  | some (some i) => some (t, (itb, i), false)
  | some none =>
    match t.growForOne with
    | none => none
    | some t1 =>
      let itb1 := t1.bucketFor q.h
      match t1.b.insertNode itb1 (q.key, v) with
      | none => none
      | some b' => some ({ t1 with b := b', size := t1.size + 1 }, (itb1, 0), true)

/-- `try_emplace_hint_unique<Key,Args...>` (implementation.hpp:1993-2001, 2033-2042): the hint is compared as `eq(*hint,k)`. -/
def qEmplaceHintUnique (t : Table K V) (hint : It) (q : Query K) (v : V) : Option (Table K V × (BIt × Nat)) :=
  match hint with
  | none => (t.qEmplaceUnique q v).map (fun r => (r.1, r.2.1))
  | some p =>
    match t.b.deref p with
    | none => none
    | some e => if q.r e.1 then some (t, p) else (t.qEmplaceUnique q v).map (fun r => (r.1, r.2.1))

/-- `insert_or_assign_unique<Key,M>` (implementation.hpp:2044-2070) -/
def qInsertOrAssign (t : Table K V) (q : Query K) (v : V) : Option (Table K V × (BIt × Nat) × Bool) :=
  match t.qEmplaceUnique q v with
  | none => none
  | some (t', it, true) => some (t', it, true)
  | some (t', it, false) => (t'.assignAt it v).map (fun t'' => (t'', it, false))

/-- `group_count<Key>` (implementation.hpp:1288-1308) -/
def qGroupCount (t : Table K V) (q : Query K) : Option Nat :=
  if t.size = 0 then some 0
  else (t.b.get (t.bucketFor q.h)).map (countRun (fun e => q.l e.1) false)

/-- `next_group<Key>` (implementation.hpp:1279-1286), collecting the elements passed over -/
def qNextGroup (t : Table K V) (q : Query K) : Nat → It → Option (List (K × V) × It)
  | _, none => some ([], none)
  | f, some it =>
    match t.b.deref it with
    | none => none
    | some e =>
      if q.l e.1 then
        match f with
        | 0 => none
        | f + 1 =>
          match t.b.incIt it with
          | none => none
          | some it' => (qNextGroup t q f it').map (fun r => (e :: r.1, r.2))
      else some ([], some it)

/-- `equal_range<Key>` of the multi containers (unordered_map.hpp:1162-1182) -/
def qEqualRangeEquiv (t : Table K V) (q : Query K) : Option (List (K × V)) :=
  match t.qFind q with
  | none => none
  | some it => (t.qNextGroup q t.size it).map Prod.fst

/-- `equal_range<Key>` of the unique containers (unordered_map.hpp:524-550): the element found, the second iterator one past it -/
def qEqualRangeUnique (t : Table K V) (q : Query K) : Option (List (K × V)) :=
  match t.qFind q with
  | none => none
  | some none => some []
  | some (some it) =>
    match t.b.deref it, t.b.incIt it with
    | some e, some _ => some [e]
    | _, _ => none

/-- `erase_key_unique_impl<Key>` (implementation.hpp:2230-2243; `find_prev<Key>` 1771-1784) -/
def qEraseKeyUnique (t : Table K V) (q : Query K) : Option (Table K V × Nat) :=
  let itb := t.bucketFor q.h
  if 0 < t.size then
    match t.b.get itb with
    | none => none
    | some l =>
      match l.findIdx? (fun e => q.l e.1) with
      | none => some (t, 0)
      | some i =>
        match t.b.extractNode itb i, t.deleteNode with
        | some b', some _ => some ({ t with b := b', size := t.size - 1 }, 1)
        | _, _ => none
  else some (t, 0)

/-- `erase_key_equiv_impl<Key>` (implementation.hpp:2626-2647): found with `eq(k,·)`, then nodes are deleted while `eq(·,k)`. -/
def qEraseKeyEquiv (t : Table K V) (q : Query K) : Option (Table K V × Nat) :=
  let itb := t.bucketFor q.h
  if 0 < t.size then
    match t.b.get itb with
    | none => none
    | some l =>
      match l.findIdx? (fun e => q.l e.1) with
      | none => some (t, 0)
      | some i =>
        match t.deleteNode with
        | none => none
        | some _ =>
          let r := eraseRun (fun e => q.r e.1) i l.length l
          let b' := { t.b with chain := up t.b.chain itb.p r.1 }
          if t.size < r.2 then none
          else
            match (if r.1.isEmpty then b'.unlinkBucket itb else some b') with
            | none => none
            | some b'' => some ({ t with b := b'', size := t.size - r.2 }, r.2)
  else some (t, 0)

/-- `extract_by_key_impl<Key>` (implementation.hpp:1788-1799) -/
def qExtract (t : Table K V) (q : Query K) : Option (Table K V × Option (K × V)) :=
  match t.qFind q with
  | none => none
  | some none => some (t, none)
  | some (some p) => (t.extractAt p).map (fun r => (r.1, some r.2))

/-- `at<Key>` (unordered_map.hpp:1879-1914): `none` = `std::out_of_range` -/
def qAt (t : Table K V) (q : Query K) : Option (Option (K × V)) :=
  if t.size = 0 then some none else (t.qFindNode q).bind t.peek

/-- A call with an argument of another type. `count` of the unique containers is `find(k)!=end()`
(unordered_map.hpp:511-519), of the multi containers `group_count(k)` (1150-1158). -/
def hstep (u : Bool) (t : Table K V) (H : Het K Q) : Call Q V → Option (Table K V × Res K V)
  | .find q => ((t.qFind (.of H q)).bind t.peek).map (fun e => (t, .elem e))
  | .contains q => (t.qFind (.of H q)).map (fun it => (t, .bool it.isSome))
  | .count q =>
    if u then (t.qFind (.of H q)).map (fun it => (t, .num (if it.isSome then 1 else 0)))
    else (t.qGroupCount (.of H q)).map (fun n => (t, .num n))
  | .equalRange q =>
    (if u then t.qEqualRangeUnique (.of H q) else t.qEqualRangeEquiv (.of H q)).map (fun l => (t, .list l))
  | .at q => (t.qAt (.of H q)).map (fun e => (t, .val (e.map Prod.snd)))
  | .erase q =>
    (if u then t.qEraseKeyUnique (.of H q) else t.qEraseKeyEquiv (.of H q)).map (fun r => (r.1, .num r.2))
  | .extract q => (t.qExtract (.of H q)).map (fun r => (r.1, .elem r.2))
  | .insert q v =>
    match t.qEmplaceUnique (.of H q) v with
    | none => none
    | some (t', p, b) => (t'.b.deref p).map (fun e => (t', .ins e b))
  | .insertHint i q v =>
    match t.begin_.bind (t.advance i) with
    | none => none
    | some hint =>
      match t.qEmplaceHintUnique hint (.of H q) v with
      | none => none
      | some (t', p) => (t'.b.deref p).map (fun e => (t', .elem (some e)))
  | .insertOrAssign q v =>
    match t.qInsertOrAssign (.of H q) v with
    | none => none
    | some (t', p, b) => (t'.b.deref p).map (fun e => (t', .ins e b))
  | .index q d =>
    match t.qEmplaceUnique (.of H q) d with
    | none => none
    | some (t', p, _) => (t'.b.deref p).map (fun e => (t', .val (some e.2)))

end Table
end Fca

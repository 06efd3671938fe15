/-
Model of `grouped_bucket_array`: buckets arranged in groups of 64 with an occupancy bitmask, the non-empty groups being
linked in a circular doubly-linked list.
Source: /repo/include/boost/unordered/detail/fca.hpp.

Conventions
* `none` (Option monad) is undefined behaviour: dereferencing a null bucket, group or node pointer, pointer arithmetic on a
  null pointer, deallocating with an allocator different from the one that allocated.
* A bucket pointer is the index of the bucket; a group pointer is the index of the group (`Option Nat`, `none` = null); the
  nodes hanging from a bucket are a list. A node pointer is a (bucket, index in its list) pair.
* `buckets` and `groups` are null exactly when `size_==0` (constructor with n==0, `clear`, moved-from).
-/
import Mathlib.Data.List.Perm.Basic
import Mathlib.Data.List.Nodup
import Verif.Arith.PrimeFmod

namespace Fca

/-- Update a function at one argument (a memory write). -/
def up {β : Type} (f : Nat → β) (i : Nat) (x : β) : Nat → β := fun j => if j = i then x else f j

@[simp] theorem up_same {β : Type} (f : Nat → β) (i : Nat) (x : β) : up f i x i = x := by simp [up]
theorem up_ne {β : Type} (f : Nat → β) {i j : Nat} (x : β) (h : j ≠ i) : up f i x j = f j := by simp [up, h]
theorem up_apply {β : Type} (f : Nat → β) (i j : Nat) (x : β) : up f i x j = if j = i then x else f j := rfl

/-- `grouped_bucket_array` (fca.hpp:486-528): `size_index_`, `size_`, the bucket array (`chain b` = the nodes reachable from
`buckets[b].next`), the group array (`bucket_group`, fca.hpp:198-214: `base g` = `groups[g].buckets`, `mask`, `nxt`, `prv`),
and the allocator the two arrays were obtained from. -/
structure Gba (α : Type) where
  mal : Nat
  si : Nat
  size : Nat
  chain : Nat → List α
  base : Nat → Option Nat
  mask : Nat → Nat
  nxt : Nat → Option Nat
  prv : Nat → Option Nat

/-- `grouped_bucket_iterator` (fca.hpp:229-290): bucket pointer and group pointer. -/
structure BIt where
  p : Nat
  g : Option Nat
deriving DecidableEq, Repr

/-- `boost::core::countr_zero` on 64-bit words. -/
def ctz (m : Nat) : Nat := ((List.range 64).find? (fun j => m.testBit j)).getD 64
/-- `set_bit` (fca.hpp:215). -/
def setBit (n : Nat) : Nat := 2 ^ n
/-- `reset_bit` (fca.hpp:217-220): complement of `1<<n` in 64 bits. -/
def resetBit (n : Nat) : Nat := 2 ^ 64 - 1 - 2 ^ n
/-- `reset_first_bits` (fca.hpp:222-225): `~(~0 >> (64-n))`, `n>0`. -/
def resetFirstBits (n : Nat) : Nat := 2 ^ 64 - 1 - (2 ^ 64 - 1) >>> (64 - n)

namespace Gba
variable {α : Type}

/-- `bucket_count_for` (fca.hpp:531-537). -/
def bucketCountFor (n : Nat) : Nat := if n = 0 then 0 else PrimeFmod.size (PrimeFmod.sizeIndex n)

/-- index of the last group: `groups_len()-1` (fca.hpp:718) -/
def last (a : Gba α) : Nat := a.size / 64

/-- state with null arrays: default constructor, `n==0`, after `clear`, moved-from (fca.hpp:539-553, 601-637, 778-783) -/
def null (al : Nat) : Gba α :=
  { mal := al, si := 0, size := 0, chain := fun _ => [], base := fun _ => none, mask := fun _ => 0,
    nxt := fun _ => none, prv := fun _ => none }

/-- `grouped_bucket_array(n,al)` (fca.hpp:546-594): empty buckets; the last group holds the end bucket and is linked to
itself. Allocation failure is not modelled here. -/
def new (n al : Nat) : Gba α :=
  if n = 0 then null al
  else
    let si := PrimeFmod.sizeIndex n
    let sz := PrimeFmod.size si
    { mal := al, si := si, size := sz, chain := fun _ => [],
      base := up (fun _ => none) (sz / 64) (some (64 * (sz / 64))),
      mask := up (fun _ => 0) (sz / 64) (setBit (sz % 64)),
      nxt := up (fun _ => none) (sz / 64) (some (sz / 64)),
      prv := up (fun _ => none) (sz / 64) (some (sz / 64)) }

/-- `deallocate` (fca.hpp:644-675) with allocator `al`. -/
def dealloc (a : Gba α) (al : Nat) : Option Unit := if a.size ≠ 0 ∧ a.mal ≠ al then none else some ()

/-- reading `itb->next` (the chain of a bucket); null or out-of-range bucket pointers are UB -/
def get (a : Gba α) (it : BIt) : Option (List α) := if a.size ≠ 0 ∧ it.p ≤ a.size then some (a.chain it.p) else none

/-- `end()` (fca.hpp:729-737): no group pointer. -/
def end_ (a : Gba α) : BIt := ⟨a.size, none⟩

/-- `at(n)` (fca.hpp:753-765). -/
def at_ (a : Gba α) (n : Nat) : BIt := if 0 < a.size then ⟨n, some (n / 64)⟩ else a.end_

/-- `operator==` on bucket iterators (fca.hpp:288-291): bucket pointers only. -/
def beq (x y : BIt) : Bool := x.p == y.p

/-- `position(hash)` (fca.hpp:773-776). The portable and the 128-bit `get_remainder` agree (C18). -/
def position (a : Gba α) (h : Nat) : Nat := PrimeFmod.position false h a.si

/-- `increment` (fca.hpp:293-308). -/
def inc (a : Gba α) (it : BIt) : Option BIt :=
  match it.g with
  | none => none
  | some g =>
    match a.base g with
    | none => none
    | some bs =>
      let n := ctz (a.mask g &&& resetFirstBits (it.p - bs + 1))
      if n < 64 then some ⟨bs + n, some g⟩
      else
        match a.nxt g with
        | none => none
        | some g' =>
          match a.base g' with
          | none => none
          | some bs' => some ⟨bs' + ctz (a.mask g'), some g'⟩

/-- `begin()` (fca.hpp:727). -/
def begin_ (a : Gba α) : Option BIt := if a.size = 0 then some a.end_ else a.inc (a.at_ a.size)

/-- `append_bucket_group` (fca.hpp:785-813). -/
def append (a : Gba α) (it : BIt) : Option (Gba α) :=
  match a.get it with
  | none => none
  | some (_ :: _) => some a
  | some [] =>
    match it.g with
    | none => none
    | some g =>
      let n := it.p
      if a.mask g = 0 then
        match a.nxt a.last with
        | none => none
        | some f =>
          some { a with
            base := up a.base g (some (64 * (n / 64)))
            nxt := up (up a.nxt g (some f)) a.last (some g)
            prv := up (up a.prv f (some g)) g (some a.last)
            mask := up a.mask g (a.mask g ||| setBit (n % 64)) }
      else some { a with mask := up a.mask g (a.mask g ||| setBit (n % 64)) }

/-- `insert_node` (fca.hpp:815-821): push at the front of the bucket. -/
def insertNode (a : Gba α) (it : BIt) (x : α) : Option (Gba α) :=
  match a.append it with
  | none => none
  | some a' => some { a' with chain := up a'.chain it.p (x :: a'.chain it.p) }

/-- insert `x` after index `i` -/
def insertAfter (l : List α) (i : Nat) (x : α) : List α := l.take (i + 1) ++ x :: l.drop (i + 1)

/-- `insert_node_hint` (fca.hpp:823-835): after the hint node if there is one, else at the front. -/
def insertNodeHint (a : Gba α) (it : BIt) (x : α) (hint : Option Nat) : Option (Gba α) :=
  match a.append it with
  | none => none
  | some a' =>
    match hint with
    | some i =>
      if i < (a'.chain it.p).length then
        some { a' with chain := up a'.chain it.p (insertAfter (a'.chain it.p) i x) }
      else none
    | none => some { a' with chain := up a'.chain it.p (x :: a'.chain it.p) }

/-- `unlink_group` (fca.hpp:894-899). -/
def unlinkGroup (a : Gba α) (g : Nat) : Option (Gba α) :=
  match a.nxt g, a.prv g with
  | some n, some p =>
    some { a with prv := up (up a.prv n (some p)) g none, nxt := up (up a.nxt p (some n)) g none }
  | _, _ => none

/-- `unlink_bucket` (fca.hpp:884-891). -/
def unlinkBucket (a : Gba α) (it : BIt) : Option (Gba α) :=
  match it.g with
  | none => none
  | some g =>
    match a.base g with
    | none => none
    | some bs =>
      let m := a.mask g &&& resetBit (it.p - bs)
      let a' := { a with mask := up a.mask g m }
      if m = 0 then a'.unlinkGroup g else some a'

/-- `extract_node` / `extract_node_after` (fca.hpp:837-852): unlink the node at index `i` of the bucket, and the bucket if it
becomes empty. -/
def extractNode (a : Gba α) (it : BIt) (i : Nat) : Option (Gba α) :=
  match a.get it with
  | none => none
  | some l =>
    if i < l.length then
      let a' := { a with chain := up a.chain it.p (l.eraseIdx i) }
      if (l.eraseIdx i).isEmpty then a'.unlinkBucket it else some a'
    else none

/-- body of the loop of `unlink_empty_buckets` over one group: reset the bits of the empty ones among its first `k` buckets
(fca.hpp:867-872, 878-881) -/
def resetEmpty (a : Gba α) (g bs k : Nat) : Gba α :=
  { a with mask := up a.mask g ((List.range k).foldl
      (fun m n => if (a.chain (bs + n)).isEmpty then m &&& resetBit n else m) (a.mask g)) }

/-- the loop over all groups but the last (fca.hpp:862-875) -/
def unlinkEmptyLoop : List Nat → Gba α → Option (Gba α)
  | [], a => some a
  | g :: gs, a =>
    match a.base g with
    | none => unlinkEmptyLoop gs a
    | some bs =>
      let a' := a.resetEmpty g bs 64
      if a'.mask g = 0 ∧ (a'.nxt g).isSome then
        match a'.unlinkGroup g with
        | none => none
        | some a'' => unlinkEmptyLoop gs a''
      else unlinkEmptyLoop gs a'

/-- `unlink_empty_buckets` (fca.hpp:854-882). -/
def unlinkEmpty (a : Gba α) : Option (Gba α) :=
  if a.size = 0 then some a
  else
    match unlinkEmptyLoop (List.range a.last) a with
    | none => none
    | some a' =>
      match a'.base a'.last with
      | none => none
      | some bs => some (a'.resetEmpty a'.last bs (a'.size % 64))

end Gba
end Fca

/-
Byte-vector model of the metadata group `group15` (regular layout, i.e. the SSE2 version).
Source: /repo/include/boost/unordered/detail/foa/core.hpp:217-425.
The bit-level SSE2, NEON and portable versions are modelled in `Verif/Foa/GroupImpl.lean` and proved equivalent to this.
-/
import Verif.Foa.Prober

namespace Foa

/-- `group15::m` (core.hpp:397-418): 15 slot bytes (0 = available, 1 = sentinel, ≥2 = reduced hash) and the
overflow byte (byte 15). -/
structure Group where
  /-- byte of slot `j` (`j < 15`) -/
  md : Nat → Nat
  /-- overflow byte (core.hpp:407-415) -/
  ofw : Nat

/-- `group15::reduced_hash` / `match_word` table (core.hpp:340-395): low byte of the hash with 0,1 mapped to 8,9. -/
def rhash (h : Nat) : Nat :=
  if h % 256 = 0 then 8 else if h % 256 = 1 then 9 else h % 256

namespace Group

/-- `initialize` (core.hpp:230-234): all zero. -/
def empty : Group := ⟨fun _ => 0, 0⟩

/-- `set(pos,hash)` (core.hpp:236-240). -/
def set (G : Group) (pos h : Nat) : Group := { G with md := fun j => if j = pos then rhash h else G.md j }

/-- `set_sentinel()` (core.hpp:242-245): byte N-1 := 1. -/
def setSentinel (G : Group) : Group := { G with md := fun j => if j = N - 1 then 1 else G.md j }

/-- `reset(pos)` / `reset(pc)` (core.hpp:258-267): byte := 0. -/
def reset (G : Group) (pos : Nat) : Group := { G with md := fun j => if j = pos then 0 else G.md j }

/-- Slots of `match(hash)` (core.hpp:269-273) in the order in which `unchecked_countr_zero(mask)`, `mask&=mask-1` deliver
them. -/
def matchSlots (G : Group) (h : Nat) : List Nat := (List.range N).filter (fun j => G.md j == rhash h)

/-- Slots of `match_available()` (core.hpp:294-298). -/
def availSlots (G : Group) : List Nat := (List.range N).filter (fun j => G.md j == 0)

/-- Slots of `match_occupied()` (core.hpp:311-314); includes the sentinel. -/
def occSlots (G : Group) : List Nat := (List.range N).filter (fun j => G.md j != 0)

/-- `is_not_overflowed(hash)` (core.hpp:275-280): bit `hash%8` of the overflow byte is clear. -/
def isNotOverflowed (G : Group) (h : Nat) : Bool := !(G.ofw.testBit (h % 8))

/-- `mark_overflow(hash)` (core.hpp:282-285). -/
def markOverflow (G : Group) (h : Nat) : Group := { G with ofw := G.ofw ||| (1 <<< (h % 8)) }

/-- `maybe_caused_overflow(pc)` (core.hpp:287-292): overflow bit for the reduced hash stored in the slot. -/
def maybeCausedOverflow (G : Group) (pos : Nat) : Bool := !(G.isNotOverflowed (G.md pos))

end Group

theorem rhash_ge_two (h : Nat) : 2 ≤ rhash h := by
  unfold rhash; split
  · omega
  · split <;> omega

theorem rhash_lt (h : Nat) : rhash h < 256 := by
  unfold rhash; split
  · omega
  · split <;> omega

theorem rhash_mod8 (h : Nat) : rhash h % 8 = h % 8 := by
  unfold rhash; split
  · omega
  · split <;> omega

theorem testBit_mark (o h b : Nat) : (o ||| (1 <<< h)).testBit b = (o.testBit b || decide (h = b)) := by
  rw [Nat.testBit_or, Nat.one_shiftLeft, Nat.testBit_two_pow]

end Foa

/-
Bit-level models of the three implementations of the 15-slot metadata group `group15`, and proof that each simulates
the byte-vector model `Foa.Group` used by the table model.
Source: /repo/include/boost/unordered/detail/foa/core.hpp:217-418 (SSE2), 420-615 (NEON), 617-797 (portable).
The lookup tables are in `Verif/Foa/GroupTables.lean`.
-/
import Verif.Foa.GroupTables

namespace Foa.Impl

/-! ## Bit masks -/

/-- `_mm_movemask_epi8` (used at core.hpp:272, 297): bit `j` of the result is the top bit of byte `j`; the byte is 0xFF or
0x00 here, given as a Boolean. -/
def movemask (b : Nat → Bool) : Nat :=
  (List.range 16).foldr (fun j acc => (if b j then 1 <<< j else 0) ||| acc) 0

/-- `unchecked_countr_zero(int x)` (core.hpp:920-931), meaningful for `x ≠ 0`. -/
def ctz (x : Nat) : Nat := if x = 0 then 0 else if x % 2 = 1 then 0 else ctz (x / 2) + 1
decreasing_by omega

/-- The loop `do{ n=unchecked_countr_zero(mask); ...; mask&=mask-1; }while(mask);` (core.hpp:1735-1744, 1792-1796,
2066-2071): the sequence of `n`s.  The first argument bounds the number of iterations; 16 suffices for a 15-bit mask. -/
def maskLoop : Nat → Nat → List Nat
  | 0, _ => []
  | fuel + 1, x => if x = 0 then [] else ctz x :: maskLoop fuel (x &&& (x - 1))

/-- The slots delivered by the mask loop. -/
def maskSlots (x : Nat) : List Nat := maskLoop 16 x

/-! ## SSE2 -/

/-- SSE2 `group15::m[16]` (core.hpp:417): 16 bytes. -/
structure Sse2 where
  m : Nat → Nat

namespace Sse2

/-- `match_word(hash)` (core.hpp:340-390). -/
def matchWord (h : Nat) : Nat := word.getD (h % 256) 0

/-- `reduced_hash(hash)` (core.hpp:392-395): low byte of the word. -/
def reducedHash (h : Nat) : Nat := matchWord h % 256

/-- `initialize` (core.hpp:230-234). -/
def init : Sse2 := ⟨fun _ => 0⟩

/-- `dummy_group_type::storage` (core.hpp:225-228). -/
def dummy : Sse2 := ⟨fun j => [0,0,0,0,0,0,0,0,0,0,0,0,0,0,1,0].getD j 0⟩

/-- `at(pos)=v` (core.hpp:397-400). -/
def put (g : Sse2) (pos v : Nat) : Sse2 := ⟨fun j => if j = pos then v else g.m j⟩

/-- `set` (core.hpp:236-240). -/
def set (g : Sse2) (pos h : Nat) : Sse2 := g.put pos (reducedHash h)

/-- `set_sentinel` (core.hpp:242-245). -/
def setSentinel (g : Sse2) : Sse2 := g.put 14 1

/-- `is_sentinel(pos)` (core.hpp:247-251) and `is_sentinel(pc)` (core.hpp:253-256). -/
def isSentinel (g : Sse2) (pos : Nat) : Bool := g.m pos == 1

/-- `reset(pos)`, `reset(pc)` (core.hpp:258-267). -/
def reset (g : Sse2) (pos : Nat) : Sse2 := g.put pos 0

/-- `match(hash)` (core.hpp:269-273): byte `j` is compared with byte `j%4` of the replicated 32-bit word. -/
def match_ (g : Sse2) (h : Nat) : Nat :=
  movemask (fun j => g.m j == (matchWord h >>> (8 * (j % 4))) % 256) &&& 0x7FFF

/-- `shift[]` of `is_not_overflowed` (core.hpp:277). -/
def shift : List Nat := [1,2,4,8,16,32,64,128]

/-- `is_not_overflowed(hash)` (core.hpp:275-280). -/
def isNotOverflowed (g : Sse2) (h : Nat) : Bool := (g.m 15 &&& shift.getD (h % 8) 0) == 0

/-- `mark_overflow(hash)` (core.hpp:282-285). -/
def markOverflow (g : Sse2) (h : Nat) : Sse2 := g.put 15 ((g.m 15 ||| (1 <<< (h % 8))) % 256)

/-- `maybe_caused_overflow(pc)` (core.hpp:287-292); `pc` points to byte `pos` of a 16-aligned group. -/
def maybeCausedOverflow (g : Sse2) (pos : Nat) : Bool := !(g.isNotOverflowed (g.m pos))

/-- `match_available()` (core.hpp:294-298). -/
def matchAvailable (g : Sse2) : Nat := movemask (fun j => g.m j == 0) &&& 0x7FFF

/-- `is_occupied(pos)`, `is_occupied(pc)` (core.hpp:300-309). -/
def isOccupied (g : Sse2) (pos : Nat) : Bool := g.m pos != 0

/-- `match_occupied()` (core.hpp:311-314): `(~match_available())&0x7FFF` on a 32-bit `int`. -/
def matchOccupied (g : Sse2) : Nat := (~~~(BitVec.ofNat 32 g.matchAvailable) &&& 0x7FFF#32).toNat

end Sse2

/-! ## NEON -/

/-- NEON `group15::m[16]` (core.hpp:612): 16 bytes. -/
structure Neon where
  m : Nat → Nat

namespace Neon

/-- `reduced_hash(hash)` (core.hpp:542-566). -/
def reducedHash (h : Nat) : Nat := neonTable.getD (h % 256) 0

/-- `md[16]` of `simde_mm_movemask_epi8` (core.hpp:571-590). -/
def md : List Nat := [1 <<< 0, 1 <<< 1, 1 <<< 2, 1 <<< 3, 1 <<< 4, 1 <<< 5, 1 <<< 6, 1 <<< 7,
  1 <<< 0, 1 <<< 1, 1 <<< 2, 1 <<< 3, 1 <<< 4, 1 <<< 5, 1 <<< 6, 1 <<< 7]

/-- `masked` (core.hpp:580): lane `j` is `md[j] & a[j]`, `a[j]` being 0xFF or 0x00. -/
def masked (a : Nat → Bool) (j : Nat) : Nat := md.getD j 0 &&& (if a j then 0xFF else 0)

/-- 16-bit lane `i` of `x` (core.hpp:581-582): `vzip_u8(low,high)` interleaves, so that on little endian lane `i` is
`low[i] + 256*high[i]`. -/
def lane (a : Nat → Bool) (i : Nat) : Nat := masked a i + 256 * masked a (i + 8)

/-- `vaddvq_u16(x)` (core.hpp:585): sum of the eight lanes modulo 2^16. -/
def movemaskA64 (a : Nat → Bool) : Nat :=
  (lane a 0 + lane a 1 + lane a 2 + lane a 3 + lane a 4 + lane a 5 + lane a 6 + lane a 7) % 65536

/-- The 32-bit ARM alternative (core.hpp:587-588): two pairwise widening additions, then the two 64-bit lanes. -/
def movemaskA32 (a : Nat → Bool) : Nat :=
  (((lane a 0 + lane a 1) % 2^32 + (lane a 2 + lane a 3) % 2^32) % 2^64)
  + (((lane a 4 + lane a 5) % 2^32 + (lane a 6 + lane a 7) % 2^32) % 2^64)

/-- `simde_mm_movemask_epi8` (core.hpp:571-590); the flag is `__ARM_ARCH_ISA_A64`. -/
def movemask (a64 : Bool) (a : Nat → Bool) : Nat := if a64 then movemaskA64 a else movemaskA32 a

/-- `initialize` (core.hpp:433-436). -/
def init : Neon := ⟨fun _ => 0⟩

/-- `dummy_group_type::storage` (core.hpp:428-431). -/
def dummy : Neon := ⟨fun j => [0,0,0,0,0,0,0,0,0,0,0,0,0,0,1,0].getD j 0⟩

/-- `at(pos)=v` (core.hpp:592-600). -/
def put (g : Neon) (pos v : Nat) : Neon := ⟨fun j => if j = pos then v else g.m j⟩

/-- `set` (core.hpp:438-442). -/
def set (g : Neon) (pos h : Nat) : Neon := g.put pos (reducedHash h)

/-- `set_sentinel` (core.hpp:444-447). -/
def setSentinel (g : Neon) : Neon := g.put 14 1

/-- `is_sentinel(pos)` (core.hpp:449-453). -/
def isSentinel (g : Neon) (pos : Nat) : Bool := pos == 14 && g.m 14 == 1

/-- `is_sentinel(pc)` (core.hpp:455-458). -/
def isSentinelPc (g : Neon) (pos : Nat) : Bool := g.m pos == 1

/-- `reset(pos)`, `reset(pc)` (core.hpp:460-469). -/
def reset (g : Neon) (pos : Nat) : Neon := g.put pos 0

/-- `match(hash)` (core.hpp:471-475). -/
def match_ (a64 : Bool) (g : Neon) (h : Nat) : Nat := movemask a64 (fun j => g.m j == reducedHash h) &&& 0x7FFF

/-- `is_not_overflowed(hash)` (core.hpp:477-482). -/
def isNotOverflowed (g : Neon) (h : Nat) : Bool := (g.m 15 &&& [1,2,4,8,16,32,64,128].getD (h % 8) 0) == 0

/-- `mark_overflow(hash)` (core.hpp:484-487). -/
def markOverflow (g : Neon) (h : Nat) : Neon := g.put 15 ((g.m 15 ||| (1 <<< (h % 8))) % 256)

/-- `maybe_caused_overflow(pc)` (core.hpp:489-494). -/
def maybeCausedOverflow (g : Neon) (pos : Nat) : Bool := !(g.isNotOverflowed (g.m pos))

/-- `match_available()` (core.hpp:496-500). -/
def matchAvailable (a64 : Bool) (g : Neon) : Nat := movemask a64 (fun j => g.m j == 0) &&& 0x7FFF

/-- `is_occupied(pos)` (core.hpp:502-511). -/
def isOccupied (g : Neon) (pos : Nat) : Bool := g.m pos != 0

/-- `match_occupied()` (core.hpp:513-517): unsigned `> 0` per byte. -/
def matchOccupied (a64 : Bool) (g : Neon) : Nat := movemask a64 (fun j => decide (0 < g.m j)) &&& 0x7FFF

end Neon

/-! ## Portable (non-SIMD) -/

/-- Portable `group15::m[2]` (core.hpp:796): bit planes. -/
structure Port where
  m0 : BitVec 64
  m1 : BitVec 64

namespace Port

/-- `reduced_hash(hash)` (core.hpp:719-741). -/
def reducedHash (h : Nat) : Nat := portTable.getD (h % 256) 0

/-- `initialize` (core.hpp:629). -/
def init : Port := ⟨0#64, 0#64⟩

/-- `dummy_group_type::m` (core.hpp:623-627). -/
def dummy : Port := ⟨0x0000000000004000#64, 0x0000000000000000#64⟩

/-- `set_impl(word_type&,pos,n)` (core.hpp:750-774). -/
def setWord (x : BitVec 64) (pos n : Nat) : BitVec 64 :=
  (x ||| (setMask.getD n 0#64 <<< pos)) &&& ~~~(setIMask.getD n 0#64 <<< pos)

/-- `set_impl(pos,n)` (core.hpp:743-748). -/
def setImpl (g : Port) (pos n : Nat) : Port := ⟨setWord g.m0 pos (n &&& 0xF), setWord g.m1 pos (n >>> 4)⟩

/-- `set` (core.hpp:631-635). -/
def set (g : Port) (pos h : Nat) : Port := g.setImpl pos (reducedHash h)

/-- `set_sentinel` (core.hpp:637-640). -/
def setSentinel (g : Port) : Port := g.setImpl 14 1

/-- `is_sentinel(pos)` (core.hpp:642-650). -/
def isSentinel (g : Port) (pos : Nat) : Bool :=
  pos == 14 && (g.m0 &&& 0x4000400040004000#64) == 0x4000#64 && (g.m1 &&& 0x4000400040004000#64) == 0#64

/-- `reset(pos)`, `reset(pc)` (core.hpp:652-663). -/
def reset (g : Port) (pos : Nat) : Port := g.setImpl pos 0

/-- The 32-bit tail shared by `match_impl` and `match_available` (core.hpp:692-694, 791-793). -/
def foldAnd (x : BitVec 64) : Nat :=
  let y : BitVec 32 := (x &&& (x >>> 32)).setWidth 32
  let y := y &&& (y >>> 16)
  (y &&& 0x7FFF#32).toNat

/-- `match_impl(n)` (core.hpp:776-794). -/
def matchImpl (g : Port) (n : Nat) : Nat :=
  let x := g.m0 ^^^ matchMask.getD (n &&& 0xF) 0#64
  foldAnd (~~~((g.m1 ^^^ matchMask.getD (n >>> 4) 0#64) ||| x))

/-- `match(hash)` (core.hpp:665-668). -/
def match_ (g : Port) (h : Nat) : Nat := g.matchImpl (reducedHash h)

/-- Position, within the 64-bit word it belongs to, of the top bit of the `r`-th 16-bit lane (`r<8`) of the array viewed
as `uint16_t[8]` (core.hpp:672, 677); the flag selects a big-endian machine. -/
def laneBit (be : Bool) (r : Nat) : Nat := 16 * (if be then 3 - r % 4 else r % 4) + 15

/-- `is_not_overflowed(hash)` (core.hpp:670-673). -/
def isNotOverflowed (be : Bool) (g : Port) (h : Nat) : Bool :=
  !(if h % 8 < 4 then g.m0 else g.m1).getLsbD (laneBit be (h % 8))

/-- `mark_overflow(hash)` (core.hpp:675-678). -/
def markOverflow (be : Bool) (g : Port) (h : Nat) : Port :=
  if h % 8 < 4 then { g with m0 := g.m0 ||| BitVec.twoPow 64 (laneBit be (h % 8)) }
  else { g with m1 := g.m1 ||| BitVec.twoPow 64 (laneBit be (h % 8)) }

/-- `maybe_caused_overflow(pc)` (core.hpp:680-687). -/
def maybeCausedOverflow (be : Bool) (g : Port) (pos : Nat) : Bool :=
  let x := (g.m0 >>> pos) &&& 0x000100010001#64
  let y : BitVec 32 := (x ||| (x >>> 15) ||| (x >>> 30)).setWidth 32
  !(g.isNotOverflowed be y.toNat)

/-- `match_available()` (core.hpp:689-695). -/
def matchAvailable (g : Port) : Nat := foldAnd (~~~(g.m0 ||| g.m1))

/-- `is_occupied(pos)` (core.hpp:697-702). -/
def isOccupied (g : Port) (pos : Nat) : Bool :=
  ((g.m0 ||| g.m1) &&& (0x0001000100010001#64 <<< pos)) != 0#64

/-- `match_occupied()` (core.hpp:704-710). -/
def matchOccupied (g : Port) : Nat :=
  let x := g.m0 ||| g.m1
  let y : BitVec 32 := (x ||| (x >>> 32)).setWidth 32
  let y := y ||| (y >>> 16)
  (y &&& 0x7FFF#32).toNat

end Port
end Foa.Impl

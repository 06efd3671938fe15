/-
Memory layout of the single buffer holding elements and groups (`table_arrays`).
Source: /repo/include/boost/unordered/detail/foa/core.hpp:1036-1120.
All arithmetic is that of `size_t`/`uintptr_t` modulo `2^W` (`W` = 64 or 32).
-/
import Verif.Foa.Load

namespace Foa.Layout

/-- `sizeof(group_type)` (all three versions, core.hpp:417, 612, 796). -/
def groupSize : Nat := 16

/-- `buffer_size(groups_size)` (core.hpp:1104-1114) in wrapping arithmetic: number of `value_type` objects asked of the
allocator; `sv = sizeof(value_type)`. -/
def bufferSize (W sv g : Nat) : Nat :=
  let bytes := (sv * (g * N + 2 ^ W - 1) + groupSize * (g + 1) + 2 ^ W - 1) % 2 ^ W
  ((bytes + sv + 2 ^ W - 1) % 2 ^ W) / sv

/-- Address of the group array (core.hpp:1054-1056): the address just past the last element slot, moved up by
`(uintptr_t(16)-p)%16`. -/
def groupsAddr (W base sv g : Nat) : Nat :=
  let p := base + sv * (g * N - 1)
  p + ((groupSize + 2 ^ W - p) % 2 ^ W) % groupSize

end Foa.Layout

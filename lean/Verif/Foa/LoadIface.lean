/-
The load interface of the open-addressing containers: `load_factor()`, `max_load()`, `bucket_count()`.
Source: /repo/include/boost/unordered/detail/foa/core.hpp:1260, 1558-1569, 1809-1836 and
/repo/include/boost/unordered/detail/foa/concurrent_table.hpp:1045-1065, 1424-1429
-/
import Verif.Foa.Ops
import Mathlib.Tactic.IntervalCases

namespace Foa
open F32
variable {K V : Type}

/-- `load_factor()` (core.hpp:1814-1818), a binary32 number in the representation of `Float32`: `float(size())/float(capacity())`,
or 0 when there are no buckets. -/
def Table.loadFactor (t : Table K V) : Nat :=
  if t.capacity = 0 then 0 else div (ofNat t.size) (ofNat t.capacity)

/-- `concurrent_table::load_factor()` (concurrent_table.hpp:1051-1057): the size is `min(size_ctrl.size,size_ctrl.ml)`
(concurrent_table.hpp:1424-1429), which is what the two atomic counters hold at the moment of the call. -/
def Table.concLoadFactor (t : Table K V) : Nat :=
  if t.capacity = 0 then 0 else div (ofNat (min t.size t.ml)) (ofNat t.capacity)

/-- upper bound on the maximum load of `2^k` groups, k ≥ 3 -/
theorem maxLoad_le {k : Nat} (hk : 3 ≤ k) : initialMaxLoad (capOf k) ≤ 105 * 2 ^ (k - 3) := by
  obtain ⟨d, rfl⟩ : ∃ d, k = 3 + d := ⟨k - 3, by omega⟩
  have hcap : ¬ capOf (3 + d) ≤ 2 * N - 1 := by
    unfold capOf N
    have : 2 ^ 2 ≤ 2 ^ (3 + d) := Nat.pow_le_pow_right (by norm_num) (by omega)
    omega
  have e : 3 + d - 3 = d := by omega
  rw [e]
  unfold initialMaxLoad
  rw [if_neg hcap]
  have h1 : ofNat (capOf (3 + d)) ≤ 15 * 2 ^ (3 + d) * SC := ofNat_le (by norm_num) (by unfold capOf N; omega)
  have h2 : mul mlf (ofNat (capOf (3 + d))) ≤ 105 * 2 ^ (d + 149) := by
    unfold mul
    apply rnd_le (by norm_num) SC_pos (by norm_num)
    calc mlf * ofNat (capOf (3 + d)) ≤ mlf * (15 * 2 ^ (3 + d) * SC) := Nat.mul_le_mul_left _ h1
      _ = 105 * 2 ^ (d + 149) * SC := by unfold mlf; rw [pow_add, pow_add]; ring
  unfold truncN
  calc _ ≤ 105 * 2 ^ (d + 149) / SC := Nat.div_le_div_right h2
    _ = 105 * 2 ^ d := by
      have : 105 * 2 ^ (d + 149) = 105 * 2 ^ d * SC := by unfold SC; rw [pow_add]; ring
      rw [this, Nat.mul_div_cancel _ SC_pos]

/-- and exactly that bound minus one as long as the capacity is exactly representable -/
theorem maxLoad_mid {k : Nat} (h3 : 3 ≤ k) (h20 : k ≤ 20) : initialMaxLoad (capOf k) = 105 * 2 ^ (k - 3) - 1 := by
  interval_cases k <;> decide +kernel

theorem capOf_lt {k : Nat} (h : k ≤ 20) : capOf k < 2 ^ 24 := by
  unfold capOf N
  have : 2 ^ k ≤ 2 ^ 20 := Nat.pow_le_pow_right (by norm_num) h
  omega

/-- In binary32, `float(n)/float(capacity)` stays below 7/8 for every `n` up to the initial maximum load. -/
theorem ofNat_load {k n : Nat} (hk : 2 ≤ k) (hn : n ≤ initialMaxLoad (capOf k)) : 8 * ofNat n ≤ 7 * ofNat (capOf k) := by
  by_cases h21 : 21 ≤ k
  · have h1 : ofNat n ≤ 105 * 2 ^ (k - 3) * SC := ofNat_le (by norm_num) (hn.trans (maxLoad_le (by omega)))
    have h2 := ofNat_cap_big h21
    obtain ⟨d, rfl⟩ : ∃ d, k = 3 + d := ⟨k - 3, by omega⟩
    have e : 3 + d - 3 = d := by omega
    rw [e] at h1
    calc 8 * ofNat n ≤ 8 * (105 * 2 ^ d * SC) := Nat.mul_le_mul_left _ h1
      _ = 7 * (15 * 2 ^ (3 + d) * SC) := by rw [pow_add]; ring
      _ ≤ _ := Nat.mul_le_mul_left _ h2
  · have hc := capOf_lt (k := k) (by omega)
    have hle : n ≤ capOf k := hn.trans (initialMaxLoad_le_cap k)
    rw [ofNat_exact' hc, ofNat_exact' (lt_of_le_of_lt hle hc)]
    have key : 8 * n ≤ 7 * capOf k := by
      by_cases h2 : k = 2
      · subst h2
        have : initialMaxLoad (capOf 2) = 51 := by decide +kernel
        rw [this] at hn
        have : capOf 2 = 59 := by decide
        omega
      · rw [maxLoad_mid (by omega) (by omega)] at hn
        obtain ⟨d, rfl⟩ : ∃ d, k = 3 + d := ⟨k - 3, by omega⟩
        have e : 3 + d - 3 = d := by omega
        rw [e] at hn
        unfold capOf N
        rw [pow_add]
        omega
    calc 8 * (n * SC) = (8 * n) * SC := by ring
      _ ≤ (7 * capOf k) * SC := Nat.mul_le_mul_right _ key
      _ = _ := by ring

theorem capOf_gt {k : Nat} (h : 29 < capOf k) : 2 ≤ k := by
  by_contra hk
  have : k = 0 ∨ k = 1 := by omega
  rcases this with rfl | rfl <;> simp [capOf, N] at h

theorem load_div {k n : Nat} (hk : 2 ≤ k) (hn : n ≤ initialMaxLoad (capOf k)) : div (ofNat n) (ofNat (capOf k)) ≤ mlf := by
  have h := ofNat_load hk hn
  have hpos : 0 < ofNat (capOf k) := by
    have h1 : 1 * 2 ^ 0 * SC ≤ ofNat (capOf k) := ofNat_ge (by norm_num) (by
      have : 2 ^ 2 ≤ 2 ^ k := Nat.pow_le_pow_right (by norm_num) hk
      unfold capOf N; omega)
    have := SC_pos
    omega
  unfold div mlf
  apply rnd_le (by norm_num) hpos (by norm_num)
  generalize ofNat n = a at h ⊢
  generalize ofNat (capOf k) = b at h ⊢
  have e : SC = 8 * 2 ^ 146 := by unfold SC; norm_num
  rw [e]
  calc a * (8 * 2 ^ 146) = (8 * a) * 2 ^ 146 := by ring
    _ ≤ (7 * b) * 2 ^ 146 := Nat.mul_le_mul_right _ h
    _ = _ := by ring

/-- The exact ratio: at most 7/8 of the buckets plus one. -/
theorem load_exact {k n : Nat} (hk : 2 ≤ k) (hn : n ≤ initialMaxLoad (capOf k)) : 8 * n ≤ 7 * (capOf k + 1) := by
  by_cases h2 : k = 2
  · subst h2
    have : initialMaxLoad (capOf 2) = 51 := by decide +kernel
    rw [this] at hn
    have : capOf 2 = 59 := by decide
    omega
  · have := hn.trans (maxLoad_le (k := k) (by omega))
    obtain ⟨d, rfl⟩ : ∃ d, k = 3 + d := ⟨k - 3, by omega⟩
    have e : 3 + d - 3 = d := by omega
    rw [e] at this
    unfold capOf N
    rw [pow_add]
    omega

/-- The initial maximum load is at least 7/8 of the capacity, rounded down. -/
theorem maxLoad_floor (k : Nat) : 7 * capOf k / 8 ≤ initialMaxLoad (capOf k) := by
  by_cases h3 : 3 ≤ k
  · have := maxLoad_ge h3
    obtain ⟨d, rfl⟩ : ∃ d, k = 3 + d := ⟨k - 3, by omega⟩
    have e : 3 + d - 3 = d := by omega
    rw [e] at this
    have hd := Nat.two_pow_pos d
    have hc : capOf (3 + d) = 15 * (8 * 2 ^ d) - 1 := by unfold capOf N; rw [pow_add]; norm_num; omega
    generalize initialMaxLoad (capOf (3 + d)) = M at this ⊢
    rw [hc]
    omega
  · have : k = 0 ∨ k = 1 ∨ k = 2 := by omega
    rcases this with rfl | rfl | rfl <;> decide +kernel

theorem initMl_floor (a : Arrays K V) : 7 * a.capacity / 8 ≤ Table.initMl a := by
  unfold Table.initMl Arrays.capacity
  split
  · exact maxLoad_floor _
  · simp

theorem initMl_load {a : Arrays K V} (hc : 29 < a.capacity) {n : Nat} (hn : n ≤ Table.initMl a) :
    div (ofNat n) (ofNat a.capacity) ≤ mlf ∧ 8 * n ≤ 7 * (a.capacity + 1) := by
  unfold Table.initMl at hn
  have hk : ∃ k, a.capacity = capOf k := by
    unfold Arrays.capacity at hc ⊢
    split at hc
    · next h => rw [if_pos h]; exact ⟨_, rfl⟩
    · omega
  obtain ⟨k, hk⟩ := hk
  rw [hk] at hc hn ⊢
  exact ⟨load_div (capOf_gt hc) hn, load_exact (capOf_gt hc) hn⟩

end Foa

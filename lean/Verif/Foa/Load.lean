/-
Model of the load-factor arithmetic of the open-addressing containers.
Source: /repo/include/boost/unordered/detail/foa/core.hpp
-/
import Verif.Float32
import Verif.Foa.Prober

namespace Foa
open F32

/-- `mlf=0.875f` (core.hpp:1260): 7/8 = 7*2^146 / 2^149. -/
def mlf : Nat := 7 * 2 ^ 146

/-- `std::size_t(std::ceil(float(n)/mlf))`: elements to slots (core.hpp:1521, 1601, 1826, 1835, 2010, 2131-2132). -/
def slotsFor (n : Nat) : Nat := ceilN (div (ofNat n) mlf)

/-- log2 of the number of groups for an element capacity request `n` (core.hpp:831-860): `size_index_for(n) = 64 - kFor n`
(`sizeIndexFor_eq`). -/
def kFor (n : Nat) : Nat := if n / N + 1 ≤ 2 then 1 else bitWidth (n / N)

/-- Element capacity of `2^k` groups, one slot being taken by the sentinel (core.hpp:1809-1812). -/
def capOf (k : Nat) : Nat := 2 ^ k * N - 1

/-- `capacity_for` (core.hpp:2276-2279). -/
def capacityFor (n : Nat) : Nat := capOf (kFor n)

/-- `initial_max_load` (core.hpp:1558-1569) as a function of `capacity()`. -/
def initialMaxLoad (cap : Nat) : Nat :=
  if cap ≤ 2 * N - 1 then cap else truncN (mul mlf (ofNat cap))

/-- Capacity request of `new_arrays_for_growth` (core.hpp:2119-2133). -/
def growthRequest (size : Nat) : Nat := slotsFor (size + size / 61 + 1)

/-! ### Lemmas -/

theorem lt_two_pow_bitWidth (n : Nat) : n < 2 ^ bitWidth n := by
  unfold bitWidth; split
  · simp; omega
  · exact Nat.lt_log2_self

theorem bitWidth_le {n k : Nat} (h : n < 2 ^ k) : bitWidth n ≤ k := by
  unfold bitWidth; split
  · omega
  · next hn => exact (Nat.log2_lt hn).mpr h

theorem kFor_pos (n : Nat) : 1 ≤ kFor n := by
  unfold kFor; split
  · omega
  · unfold bitWidth; split <;> omega

theorem kFor_le {n k : Nat} (hk : 1 ≤ k) (h : n < 15 * 2 ^ k) : kFor n ≤ k := by
  unfold kFor; split
  · exact hk
  · apply bitWidth_le
    exact Nat.div_lt_of_lt_mul h

theorem lt_kFor (n : Nat) : n < 15 * 2 ^ kFor n := by
  unfold kFor
  split
  · simp only [N] at *; omega
  · have h1 := lt_two_pow_bitWidth (n / N)
    rw [Nat.div_lt_iff_lt_mul (by norm_num)] at h1
    simp only [N] at *
    omega

theorem le_capacityFor (n : Nat) : n ≤ capacityFor n := by
  have := lt_kFor n
  unfold capacityFor capOf N; omega

theorem sizeIndexFor_eq (n : Nat) : sizeIndexFor n = 64 - kFor n := by
  unfold sizeIndexFor sizeIndex kFor
  simp

theorem sizeOf_sizeIndexFor (n : Nat) (h : n < 15 * 2 ^ 64) : sizeOf' (sizeIndexFor n) = 2 ^ kFor n := by
  have := kFor_le (k := 64) (by omega) h
  rw [sizeIndexFor_eq, sizeOf', Nat.shiftLeft_eq, Nat.one_mul]
  congr 1; omega

/-- slots needed grow at the critical points -/
theorem slotsFor_ge {n m f c e : Nat} (hm : m < 2 ^ 24) (hc : c < 2 ^ 24) (h : m * 2 ^ f ≤ n)
    (hce : 7 * (c * 2 ^ e) ≤ 8 * (m * 2 ^ f)) : c * 2 ^ e ≤ slotsFor n := by
  unfold slotsFor
  apply le_ceilN
  have h1 := ofNat_ge hm h
  unfold div
  have e1 : c * 2 ^ e * SC = c * 2 ^ (e + 149) := by unfold SC; rw [pow_add]; ring
  rw [e1]
  apply rnd_ge (by norm_num) (by unfold mlf; positivity) hc
  rw [← e1]
  have e2 : 8 * mlf = 7 * SC := by unfold mlf SC; norm_num
  have h2 : 8 * (c * 2 ^ e * SC * mlf) ≤ 8 * (ofNat n * SC) := by
    calc 8 * (c * 2 ^ e * SC * mlf) = c * 2 ^ e * SC * (8 * mlf) := by ring
      _ = 7 * (c * 2 ^ e) * SC * SC := by rw [e2]; ring
      _ ≤ 8 * (m * 2 ^ f) * SC * SC := by gcongr
      _ = 8 * ((m * 2 ^ f * SC) * SC) := by ring
      _ ≤ _ := by gcongr
  omega

theorem le_initialMaxLoad_of {k c e : Nat} (hk : 2 ≤ k) (hc : c < 2 ^ 24)
    (h : 8 * (c * 2 ^ e) * SC ≤ 7 * ofNat (capOf k)) : c * 2 ^ e ≤ initialMaxLoad (capOf k) := by
  unfold initialMaxLoad
  have hcap : ¬ capOf k ≤ 2 * N - 1 := by
    unfold capOf N
    have : 2 ^ 2 ≤ 2 ^ k := Nat.pow_le_pow_right (by norm_num) hk
    omega
  rw [if_neg hcap]
  unfold truncN
  rw [Nat.le_div_iff_mul_le SC_pos]
  have e1 : c * 2 ^ e * SC = c * 2 ^ (e + 149) := by unfold SC; rw [pow_add]; ring
  rw [e1]
  unfold mul
  apply rnd_ge (by norm_num) SC_pos hc
  rw [← e1]
  have e2 : 8 * mlf = 7 * SC := by unfold mlf SC; norm_num
  have : 8 * (c * 2 ^ e * SC * SC) ≤ 8 * (mlf * ofNat (capOf k)) := by
    calc 8 * (c * 2 ^ e * SC * SC) = (8 * (c * 2 ^ e) * SC) * SC := by ring
      _ ≤ 7 * ofNat (capOf k) * SC := by gcongr
      _ = (7 * SC) * ofNat (capOf k) := by ring
      _ = 8 * (mlf * ofNat (capOf k)) := by rw [← e2]; ring
  omega

/-- rounding 15*2^k-1 up to 15*2^k when it does not fit in 24 bits -/
theorem ofNat_cap_big {k : Nat} (hk : 21 ≤ k) : 15 * 2 ^ k * SC ≤ ofNat (capOf k) := by
  obtain ⟨d, rfl⟩ : ∃ d, k = 21 + d := ⟨k - 21, by omega⟩
  unfold ofNat rnd
  dsimp only
  have hcap : capOf (21 + d) = 15 * (2097152 * 2 ^ d) - 1 := by unfold capOf N; rw [pow_add]; norm_num; omega
  have hd := Nat.two_pow_pos d
  have hl : Nat.log2 (capOf (21 + d) * SC / 1) = 24 + d + 149 := by
    have hne : capOf (21 + d) * SC ≠ 0 := by
      have := SC_pos
      apply Nat.mul_ne_zero <;> omega
    rw [Nat.div_one, Nat.log2_eq_iff hne]
    constructor
    · have : 2 ^ (24 + d) ≤ capOf (21 + d) := by rw [hcap, pow_add]; norm_num; omega
      calc 2 ^ (24 + d + 149) = 2 ^ (24 + d) * SC := by rw [pow_add]; rfl
        _ ≤ _ := Nat.mul_le_mul_right _ this
    · have : capOf (21 + d) < 2 ^ (25 + d) := by rw [hcap, pow_add]; norm_num; omega
      calc capOf (21 + d) * SC < 2 ^ (25 + d) * SC := Nat.mul_lt_mul_of_pos_right this SC_pos
        _ = 2 ^ (24 + d + 149 + 1) := by unfold SC; rw [← pow_add]; congr 1; omega
  rw [hl]
  have he : 24 + d + 149 + 1 - 24 = d + 150 := by omega
  rw [he]
  have h : 15728640 ≤ rne (capOf (21 + d) * SC) (1 * 2 ^ (d + 150)) := by
    apply rne_ge_even (by positivity) (by norm_num)
    have e2 : 2 ^ (d + 150) = 2 * 2 ^ d * SC := by unfold SC; rw [pow_add]; ring
    rw [Nat.one_mul, e2, hcap]
    have e3 : 2 * ((15 * (2097152 * 2 ^ d) - 1) * SC) + 2 * 2 ^ d * SC
        = (2 * (15 * (2097152 * 2 ^ d) - 1) + 2 * 2 ^ d) * SC := by ring
    rw [e3, ← Nat.mul_assoc]
    apply Nat.mul_le_mul_right
    omega
  calc 15 * 2 ^ (21 + d) * SC = 15728640 * 2 ^ (d + 150) := by unfold SC; rw [pow_add, pow_add]; ring
    _ ≤ _ := Nat.mul_le_mul_right _ h

/-- lower bound on the maximum load of `2^k` groups, k ≥ 3 -/
theorem maxLoad_ge {k : Nat} (hk : 3 ≤ k) : 105 * 2 ^ (k - 3) - 1 ≤ initialMaxLoad (capOf k) := by
  obtain ⟨d, rfl⟩ : ∃ d, k = 3 + d := ⟨k - 3, by omega⟩
  have hcap : capOf (3 + d) = 15 * (8 * 2 ^ d) - 1 := by unfold capOf N; rw [pow_add]; norm_num; omega
  have hd := Nat.two_pow_pos d
  have e : 3 + d - 3 = d := by omega
  rw [e]
  by_cases hb : 21 ≤ 3 + d
  · have h := ofNat_cap_big hb
    have := le_initialMaxLoad_of (k := 3 + d) (c := 105) (e := d) (by omega) (by norm_num) (by
      calc 8 * (105 * 2 ^ d) * SC = 7 * (15 * 2 ^ (3 + d) * SC) := by rw [pow_add]; ring
        _ ≤ _ := Nat.mul_le_mul_left _ h)
    omega
  · have hd' : 2 ^ d ≤ 2 ^ 17 := Nat.pow_le_pow_right (by norm_num) (by omega)
    have hex : ofNat (capOf (3 + d)) = capOf (3 + d) * SC := ofNat_exact' (by rw [hcap]; omega)
    have := le_initialMaxLoad_of (k := 3 + d) (c := 105 * 2 ^ d - 1) (e := 0) (by omega) (by omega) (by
      rw [hex, ← Nat.mul_assoc 7]
      apply Nat.mul_le_mul_right
      rw [hcap]; omega)
    simpa using this

theorem initialMaxLoad_le_cap (k : Nat) : initialMaxLoad (capOf k) ≤ capOf k := by
  unfold initialMaxLoad
  split
  · exact le_rfl
  · next h =>
    have hk : 2 ≤ k := by
      by_contra hk
      apply h
      have : k = 0 ∨ k = 1 := by omega
      rcases this with rfl | rfl <;> simp [capOf, N]
    have h1 : ofNat (capOf k) ≤ 15 * 2 ^ k * SC := ofNat_le (by norm_num) (by unfold capOf N; omega)
    have h2 : mul mlf (ofNat (capOf k)) ≤ 105 * 2 ^ k * 2 ^ 146 := by
      have : 105 * 2 ^ k * 2 ^ 146 = 105 * 2 ^ (k + 146) := by rw [pow_add]; ring
      rw [this]
      unfold mul
      apply rnd_le (by norm_num) SC_pos (by norm_num)
      calc mlf * ofNat (capOf k) ≤ mlf * (15 * 2 ^ k * SC) := Nat.mul_le_mul_left _ h1
        _ = 105 * 2 ^ (k + 146) * SC := by unfold mlf; rw [pow_add]; ring
    unfold truncN
    generalize mul mlf (ofNat (capOf k)) = M at h2 ⊢
    clear h1 h
    have h3 : 4 ≤ 2 ^ k := by
      calc 4 = 2 ^ 2 := by norm_num
        _ ≤ 2 ^ k := Nat.pow_le_pow_right (by norm_num) hk
    rw [Nat.div_le_iff_le_mul_add_pred SC_pos]
    have e : SC = 8 * 2 ^ 146 := by unfold SC; norm_num
    have hX : 0 < 2 ^ 146 := by norm_num
    unfold capOf N
    rw [e]
    clear e
    generalize 2 ^ 146 = X at h2 hX ⊢
    generalize 2 ^ k = K at h2 h3 ⊢
    obtain ⟨J, rfl⟩ : ∃ J, K = J + 4 := ⟨K - 4, by omega⟩
    have : 8 * X * ((J + 4) * 15 - 1) = 105 * (J + 4) * X + (15 * J + 52) * X := by
      have : (J + 4) * 15 - 1 = 15 * J + 59 := by omega
      rw [this]; ring
    rw [this]
    exact le_trans h2 (by omega)

/-- The key fact: the arrays allocated for `n` elements have a maximum load of at least `n`. -/
theorem le_maxLoad_slotsFor (n : Nat) : n ≤ initialMaxLoad (capacityFor (slotsFor n)) := by
  unfold capacityFor
  generalize hk : kFor (slotsFor n) = k
  have hlt : slotsFor n < 15 * 2 ^ k := by rw [← hk]; exact lt_kFor _
  have hk1 : 1 ≤ k := by rw [← hk]; exact kFor_pos _
  by_cases h3 : 3 ≤ k
  · have h := maxLoad_ge h3
    by_contra hn
    obtain ⟨d, rfl⟩ : ∃ d, k = 3 + d := ⟨k - 3, by omega⟩
    have hd := Nat.two_pow_pos d
    have e : 3 + d - 3 = d := by omega
    rw [e] at h
    have hs := slotsFor_ge (n := n) (m := 105) (f := d) (c := 15) (e := 3 + d) (by norm_num) (by norm_num)
      (by omega) (by rw [pow_add]; omega)
    omega
  · have : k = 1 ∨ k = 2 := by omega
    rcases this with rfl | rfl
    · have e : initialMaxLoad (capOf 1) = 29 := by decide +kernel
      rw [e]
      by_contra hn
      have := slotsFor_ge (n := n) (m := 30) (f := 0) (c := 30) (e := 0) (by norm_num) (by norm_num)
        (by omega) (by norm_num)
      omega
    · have e : initialMaxLoad (capOf 2) = 51 := by decide +kernel
      rw [e]
      by_contra hn
      have h52 : 60 ≤ slotsFor 52 := by decide +kernel
      by_cases hn' : n = 52
      · subst hn'; omega
      · have := slotsFor_ge (n := n) (m := 53) (f := 0) (c := 60) (e := 0) (by norm_num) (by norm_num)
          (by omega) (by norm_num)
        omega

/-- Growth always makes room for at least one more element. -/
theorem lt_maxLoad_growth (size : Nat) : size < initialMaxLoad (capacityFor (growthRequest size)) := by
  have := le_maxLoad_slotsFor (size + size / 61 + 1)
  unfold growthRequest; omega

theorem slotsFor_pos {n : Nat} (h : 0 < n) : 0 < slotsFor n := by
  have := slotsFor_ge (n := n) (m := 1) (f := 0) (c := 1) (e := 0) (by norm_num) (by norm_num)
    (by omega) (by norm_num)
  omega

theorem slotsFor_zero : slotsFor 0 = 0 := by decide +kernel

end Foa

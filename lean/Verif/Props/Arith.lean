/-
C15 (size policy of the open-addressing containers), C16 (layout of the array buffer), C17 (mulx), C18 (prime bucket
counts and reduction), C38 (xmx).
-/
import Verif.Foa.Layout
import Verif.Props.FoaMap
import Verif.Arith.PrimeFmod
import Verif.Arith.Mulx

namespace Props.Arith

/-! ## C15 -/
section C15
open Foa

/-- **C15.** For every request that fits the address space, `size(size_index(n))` is the least power of two that is at
least `n` and at least 2. -/
theorem C15_size_policy_tight (n : Nat) (hn : n ≤ 2 ^ 63) :
    ∃ k, 1 ≤ k ∧ sizeOf' (sizeIndex n) = 2 ^ k ∧ n ≤ 2 ^ k ∧ ∀ k', 1 ≤ k' → n ≤ 2 ^ k' → 2 ^ k ≤ 2 ^ k' := by
  unfold sizeIndex sizeOf'
  by_cases h2 : n ≤ 2
  · refine ⟨1, by omega, by rw [if_pos h2]; rfl, by omega, fun k' hk' _ => Nat.pow_le_pow_right (by omega) hk'⟩
  · rw [if_neg h2, Nat.one_shiftLeft]
    have hb : bitWidth (n - 1) ≤ 63 := bitWidth_le (by omega)
    have hp : 1 ≤ bitWidth (n - 1) := by unfold bitWidth; split <;> omega
    refine ⟨bitWidth (n - 1), hp, by congr 1; omega, ?_, fun k' _ h => ?_⟩
    · have := lt_two_pow_bitWidth (n - 1); omega
    · exact Nat.pow_le_pow_right (by omega) (bitWidth_le (by omega))

example : sizeOf' (sizeIndex 0) = 2 ∧ sizeOf' (sizeIndex 3) = 4 ∧ sizeOf' (sizeIndex 4) = 4 ∧
    sizeOf' (sizeIndex 1025) = 2048 := by decide +kernel

/-- **C15.** The position of any 64-bit hash is below the group count, for the size index of any request. -/
theorem C15_position_in_range (hash n : Nat) (hh : hash < 2 ^ 64) (hn : n ≤ 2 ^ 63) :
    position hash (sizeIndex n) < sizeOf' (sizeIndex n) := by
  have hb : ∃ k, k ≤ 63 ∧ sizeIndex n = 64 - k := by
    unfold sizeIndex
    split
    · exact ⟨1, by omega, rfl⟩
    · exact ⟨_, bitWidth_le (by omega), rfl⟩
  obtain ⟨k, hk, e⟩ := hb
  rw [e, sizeOf', Nat.one_shiftLeft, show 64 - (64 - k) = k by omega]
  exact position_lt hash k hh

example : position (2 ^ 64 - 1) (sizeIndex 5) = 7 ∧ sizeOf' (sizeIndex 5) = 8 := by decide +kernel

/-- **C15.** For every 64-bit capacity request the shift count stays below 64, the group array has at least two groups, the
slots (minus the one taken by the end marker) suffice, and half as many groups would not (unless at the minimum of two). -/
theorem C15_capacity_for_request (n : Nat) (hn : n < 2 ^ 64) :
    0 < sizeIndexFor n ∧ sizeIndexFor n ≤ 63 ∧ n ≤ sizeOf' (sizeIndexFor n) * 15 - 1 ∧
    2 ≤ sizeOf' (sizeIndexFor n) ∧
    (sizeOf' (sizeIndexFor n) = 2 ∨ sizeOf' (sizeIndexFor n) / 2 * 15 - 1 < n) := by
  have h1 := kFor_pos n
  have h2 : kFor n ≤ 61 := kFor_le (by omega) (by omega)
  have h3 := lt_kFor n
  rw [sizeOf_sizeIndexFor n (by omega), sizeIndexFor_eq]
  have h4 : 2 ≤ 2 ^ kFor n := by
    calc 2 = 2 ^ 1 := rfl
      _ ≤ _ := Nat.pow_le_pow_right (by omega) h1
  refine ⟨by omega, by omega, by omega, h4, ?_⟩
  by_cases hk : kFor n = 1
  · left; rw [hk, pow_one]
  · right
    by_contra hc
    have e : 2 ^ kFor n = 2 * 2 ^ (kFor n - 1) := by
      rw [← pow_succ']; congr 1; omega
    have : kFor n ≤ kFor n - 1 := kFor_le (by omega) (by omega)
    omega

example : sizeOf' (sizeIndexFor (2 ^ 64 - 1)) = 2 ^ 61 ∧ sizeOf' (sizeIndexFor 30) = 4 ∧
    sizeOf' (sizeIndexFor 29) = 2 := by decide +kernel

/-- **C15.** After `rehash(n)` on any reachable container `bucket_count() ≥ n`, and the elements are the same. -/
theorem C15_rehash_capacity {K V : Type} (c : MCfg) (t : Table K V) (h : Props.Reachable c t) (n : Nat) :
    ∃ t', t.rehash c.toCfg n = some t' ∧ n ≤ t'.capacity ∧ t'.contents.Perm t.contents := by
  obtain ⟨t', h1, _, _, _, h5, _, h7⟩ := rehash_spec c.toCfg h.inv n
  exact ⟨t', h1, h7, h5⟩

example : ∃ t : Table Nat Nat, Props.Reachable {} t ∧ t.size = 36 := Props.sample_reachable

end C15

/-! ## C16 -/
section C16
open Foa.Layout

/-- The number of bytes really needed: elements, alignment padding, groups. -/
def bytesNeeded (sv g : Nat) : Nat := sv * (15 * g - 1) + 16 * g + 15

/-- **C16 (partial).** Provided the byte count does not exceed the address range, the buffer obtained from the allocator
for `g` groups and elements of size `sv` at any address `base` holds all `15g-1` elements followed by the `g` groups,
without overlap and with the groups 16-byte aligned.  Missing: the code does not check the byte count; see
`C16_buffer_size_wraps`. -/
theorem C16_buffer_holds_arrays_partial (W sv g base : Nat) (hsv : 0 < sv) (hg : 0 < g) (hW : 5 ≤ W)
    (hfit : bytesNeeded sv g + sv ≤ 2 ^ W)
    (hbase : base + sv * bufferSize W sv g ≤ 2 ^ W) :
    base + sv * (15 * g - 1) ≤ groupsAddr W base sv g ∧
    groupsAddr W base sv g % 16 = 0 ∧
    groupsAddr W base sv g + 16 * g ≤ base + sv * bufferSize W sv g := by
  unfold bytesNeeded at hfit
  have hN : Foa.N = 15 := rfl
  have h32 : 32 ≤ 2 ^ W := by
    calc 32 = 2 ^ 5 := rfl
      _ ≤ _ := Nat.pow_le_pow_right (by omega) hW
  have hdvd : 2 ^ W % 16 = 0 := by
    obtain ⟨d, rfl⟩ : ∃ d, W = d + 4 := ⟨W - 4, by omega⟩
    rw [pow_add]; omega
  have hB : sv * bufferSize W sv g ≥ sv * (15 * g - 1) + 16 * g + 15 := by
    unfold bufferSize groupSize
    rw [hN]
    dsimp only
    have e1 : sv * (g * 15 + 2 ^ W - 1) = sv * (15 * g - 1) + sv * 2 ^ W := by
      rw [← Nat.mul_add]; congr 1; omega
    have e2 : (sv * (g * 15 + 2 ^ W - 1) + 16 * (g + 1) + 2 ^ W - 1) % 2 ^ W = sv * (15 * g - 1) + 16 * g + 15 := by
      rw [e1]
      have : sv * (15 * g - 1) + sv * 2 ^ W + 16 * (g + 1) + 2 ^ W - 1
          = (sv * (15 * g - 1) + 16 * g + 15) + 2 ^ W * (sv + 1) := by
        rw [Nat.mul_comm sv (2 ^ W), Nat.mul_add, Nat.mul_add, Nat.mul_one]; omega
      rw [this, Nat.add_mul_mod_self_left, Nat.mod_eq_of_lt (by omega)]
    rw [e2]
    generalize sv * (15 * g - 1) + 16 * g + 15 = B at *
    have e3 : (B + sv + 2 ^ W - 1) % 2 ^ W = B + sv - 1 := by
      have : B + sv + 2 ^ W - 1 = (B + sv - 1) + 2 ^ W := by omega
      rw [this, Nat.add_mod_right, Nat.mod_eq_of_lt (by omega)]
    rw [e3]
    have := Nat.div_add_mod (B + sv - 1) sv
    have := Nat.mod_lt (B + sv - 1) hsv
    omega
  generalize bufferSize W sv g = S at *
  unfold groupsAddr groupSize
  rw [hN]
  dsimp only
  rw [Nat.mul_comm g 15]
  generalize sv * (15 * g - 1) = E at *
  generalize sv * S = B at *
  generalize hQ : 2 ^ W = Q at *
  obtain ⟨Q', rfl⟩ : ∃ Q', Q = 16 * Q' := ⟨Q / 16, by omega⟩
  generalize hp : base + E = p at *
  have hpQ : p + 16 * g + 15 ≤ 16 * Q' := by omega
  have e5 : ((16 + 16 * Q' - p) % (16 * Q')) % 16 = (16 + 16 * Q' - p) % 16 := by
    rw [Nat.mod_mul_right_mod]
  rw [e5]
  omega

example : bufferSize 64 24 2 = 31 ∧ groupsAddr 64 1000 24 2 = 1696 ∧
    bytesNeeded 24 2 + 24 ≤ 2 ^ 64 ∧ 1000 + 24 * bufferSize 64 24 2 = 1744 := by decide +kernel

/-- **C16 (negative).** The byte count is computed in wrapping arithmetic and not checked: `rehash(n)` with
`n = 15·2^55` on a container of 16-byte elements asks for 2^56 groups and requests **zero** elements from the allocator,
although about 2^64 bytes are needed; the initialization of the groups then writes outside the buffer. The same happens
with a 32-bit `size_t` at `n = 15·2^23`. -/
theorem C16_buffer_size_wraps :
    Foa.sizeOf' (Foa.sizeIndexFor (15 * 2 ^ 55)) = 2 ^ 56 ∧ bufferSize 64 16 (2 ^ 56) = 0 ∧
    bytesNeeded 16 (2 ^ 56) = 2 ^ 64 - 1 ∧
    bufferSize 32 16 (2 ^ 24) = 0 ∧ bytesNeeded 16 (2 ^ 24) = 2 ^ 32 - 1 := by decide +kernel

/-- The full claim of C16, "for every element size and group count the requested buffer is large enough", is false. -/
theorem C16_claim_false :
    ¬ ∀ sv g : Nat, 0 < sv → 0 < g → g ≤ 2 ^ 60 → bytesNeeded sv g ≤ sv * bufferSize 64 sv g := by
  intro h
  have := h 16 (2 ^ 56) (by omega) (by omega) (by omega)
  rw [C16_buffer_size_wraps.2.1] at this
  unfold bytesNeeded at this
  omega

end C16

/-! ## C17 -/
section C17
open Mulx

/-- **C17.** The 128-bit version of the mixer computes low half xor high half of the exact product. -/
theorem C17_mulx64_exact (x y : BitVec 64) :
    mulx64 x y = BitVec.ofNat 64 (x.toNat * y.toNat % 2 ^ 64) ^^^ BitVec.ofNat 64 (x.toNat * y.toNat / 2 ^ 64) := by
  unfold mulx64
  dsimp only
  congr 1
  · apply BitVec.eq_of_toNat_eq; rw [mulx64_toNat_lo, BitVec.toNat_ofNat, Nat.mod_mod]
  · apply BitVec.eq_of_toNat_eq
    rw [mulx64_toNat_hi, BitVec.toNat_ofNat, Nat.mod_eq_of_lt]
    have hx := x.isLt; have hy := y.isLt
    have hm : x.toNat * y.toNat ≤ (2 ^ 64 - 1) * (2 ^ 64 - 1) := Nat.mul_le_mul (by omega) (by omega)
    apply Nat.div_lt_of_lt_mul
    omega

/-- **C17.** The portable multiplication gives the same mixed value as the native 128-bit one, for all operands. -/
theorem C17_mulx64_portable_agrees (x y : BitVec 64) : mulx64Portable x y = mulx64 x y := by
  rw [C17_mulx64_exact]
  unfold mulx64Portable
  have hx := x.isLt; have hy := y.isLt
  have x1 := lo32_toNat x; have x2 := hi32_toNat x; have y1 := lo32_toNat y; have y2 := hi32_toNat y
  have bx1 : (lo32 x).toNat ≤ 2 ^ 32 - 1 := by rw [x1]; omega
  have by1 : (lo32 y).toNat ≤ 2 ^ 32 - 1 := by rw [y1]; omega
  have bx2 : (x >>> 32).toNat ≤ 2 ^ 32 - 1 := by rw [x2]; omega
  have by2 : (y >>> 32).toNat ≤ 2 ^ 32 - 1 := by rw [y2]; omega
  have ex : x.toNat = 2 ^ 32 * (x >>> 32).toNat + (lo32 x).toNat := by rw [x1, x2]; omega
  have ey : y.toNat = 2 ^ 32 * (y >>> 32).toNat + (lo32 y).toNat := by rw [y1, y2]; omega
  have hP : x.toNat * y.toNat = (lo32 x).toNat * (lo32 y).toNat
      + 2 ^ 32 * ((lo32 x).toNat * (y >>> 32).toNat + (x >>> 32).toNat * (lo32 y).toNat)
      + 2 ^ 64 * ((x >>> 32).toNat * (y >>> 32).toNat) := by rw [ex, ey]; ring
  have ha := Nat.mul_le_mul bx1 by1
  have hb := Nat.mul_le_mul bx1 by2
  have hc := Nat.mul_le_mul bx2 by1
  have hd := Nat.mul_le_mul bx2 by2
  rw [hP]
  obtain ⟨p1, p2⟩ := portable_arith _ _ _ _ ha hb hc hd
  rw [← p1, ← p2]
  dsimp only
  congr 1
  · apply BitVec.eq_of_toNat_eq
    simp only [BitVec.toNat_add, BitVec.toNat_shiftLeft, lo32_toNat, hi32_toNat, BitVec.toNat_mul, BitVec.toNat_ofNat,
      Nat.shiftLeft_eq] at *
    exact portable_lo _ _ _ ha hb hc
  · apply BitVec.eq_of_toNat_eq
    simp only [BitVec.toNat_add, lo32_toNat, hi32_toNat, BitVec.toNat_mul, BitVec.toNat_ofNat] at *
    exact portable_hi _ _ _ _ ha hb hc hd

/-- **C17.** So hash mixing is the same on all 64-bit platforms, and on 32-bit ones with and without runtime checks. -/
theorem C17_mulx_platform_independent (x : BitVec 64) (u v : BitVec 32) :
    Mulx.mulx true x = Mulx.mulx false x ∧ mulx32 true u v = mulx32 false u v := by
  refine ⟨?_, ?_⟩
  · unfold Mulx.mulx; simp [C17_mulx64_portable_agrees]
  · unfold mulx32
    simp only [if_true, Bool.false_eq_true, if_false]
    congr 1
    apply BitVec.eq_of_getLsbD_eq
    intro i hi
    rw [BitVec.getLsbD_setWidth, BitVec.getLsbD_setWidth, BitVec.getLsbD_and]
    have : ∀ i < 32, (0xFFFFFFFF#64).getLsbD i = true := by decide
    rw [this i hi, Bool.and_true]

example : Mulx.mulx true 0x123456789abcdef0#64 = Mulx.mulx false 0x123456789abcdef0#64 ∧
    Mulx.mulx false 0xFFFFFFFFFFFFFFFF#64 = 0xFFFFFFFFFFFFFFFF#64 ∧ Mulx.mulx true 2#64 = 0x3C6EF372FE94F82B#64 := by
  decide +kernel

end C17

/-! ## C18 -/
section C18
open PrimeFmod

/-- The mathematical remainder the closed-addressing containers use: of the 32-bit sum of the two hash halves for the
sizes below 2^32, of the hash itself for the others. -/
def reduced (hash i : Nat) : Nat :=
  if i < 29 then ((hash % 2 ^ 32 + hash / 2 ^ 32) % 2 ^ 32) % PrimeFmod.size i else hash % PrimeFmod.size i

/-- **C18.** For every 64-bit hash and every table size, the bucket computed through the precomputed reciprocals — with
either version of the high-product helper — is the mathematical remainder. -/
theorem C18_position_exact (portable : Bool) (hash i : Nat) (hi : i < 38) :
    PrimeFmod.position portable hash i = reduced hash i := by
  unfold PrimeFmod.position reduced
  split
  · rename_i h29
    obtain ⟨t1, t2, t3, t4⟩ := inv_table i h29
    have hf : fold32 hash = (hash % 2 ^ 32 + hash / 2 ^ 32) % 2 ^ 32 := by
      unfold fold32; rw [Nat.shiftRight_eq_div_pow]; omega
    have hf2 : fold32 hash < 2 ^ 32 := by rw [hf]; exact Nat.mod_lt _ (by norm_num)
    rw [← hf, Nat.mod_eq_of_lt t1]
    unfold fastModulo
    dsimp only
    rw [getRemainder_portable _ _ (Nat.mod_lt _ (by norm_num)) t1, ite_self]
    unfold getRemainder
    rw [Nat.shiftRight_eq_div_pow, fastmod_exact _ _ _ hf2 t1 t2 t3 t4]
    exact Nat.mod_eq_of_lt (Nat.lt_trans (Nat.mod_lt _ t2) t1)
  · unfold PrimeFmod.size; congr 2; omega

/-- **C18.** Hence the bucket index is always below `bucket_count()`. -/
theorem C18_position_in_range (portable : Bool) (hash i : Nat) (hi : i < 38) :
    PrimeFmod.position portable hash i < PrimeFmod.size i := by
  rw [C18_position_exact portable hash i hi]
  have hs : ∀ i < 38, 0 < PrimeFmod.size i := by decide +kernel
  unfold reduced; split
  · exact Nat.mod_lt _ (hs i hi)
  · exact Nat.mod_lt _ (hs i hi)

example : PrimeFmod.position true 0xFFFFFFFFFFFFFFFF 3 = 0xFFFFFFFE % 97 ∧ PrimeFmod.size 3 = 97 ∧
    PrimeFmod.position false 0xFFFFFFFFFFFFFFFF 30 = 0xFFFFFFFFFFFFFFFF % 12884901893 := by decide +kernel

/-- **C18.** With a 32-bit `size_t` likewise. -/
theorem C18_position32_in_range (hash i : Nat) (hi : i < 30) : position32 hash i < sizes32.getD i 0 := by
  have hs : ∀ i < 30, 0 < sizes32.getD i 0 := by decide +kernel
  exact Nat.mod_lt _ (hs i hi)

example : position32 4294967290 29 = 4294967290 ∧ sizes32.getD 29 0 = 4294967291 := by decide +kernel

/-- **C18.** The bucket count chosen for a request is the least table size that is at least the request, or the largest
table size if there is none; in particular every request up to 1649267441651 is met. -/
theorem C18_size_index (n : Nat) :
    PrimeFmod.sizeIndex n < 38 ∧
    (n ≤ 1649267441651 → n ≤ PrimeFmod.size (PrimeFmod.sizeIndex n)) ∧
    (∀ i < 38, n ≤ PrimeFmod.size i → PrimeFmod.size (PrimeFmod.sizeIndex n) ≤ PrimeFmod.size i) := by
  obtain ⟨k, e, hk, h1, h2⟩ := sizeIndexFrom_spec n sizes (by decide) 0
  have e' : PrimeFmod.sizeIndex n = k := by unfold PrimeFmod.sizeIndex; omega
  have hl : sizes.length = 38 := by decide +kernel
  have mono : ∀ i < 38, ∀ j < 38, i ≤ j → PrimeFmod.size i ≤ PrimeFmod.size j := by decide +kernel
  rw [e']
  refine ⟨by omega, fun hn => ?_, fun i hi hni => ?_⟩
  · rcases h2 with h2 | h2
    · exact h2
    · have : k = 37 := by omega
      subst this
      exact hn
  · apply mono k (by omega) i hi
    by_contra hc
    have := h1 i (by omega)
    unfold PrimeFmod.size at hni
    omega

example : PrimeFmod.size (PrimeFmod.sizeIndex 0) = 13 ∧ PrimeFmod.size (PrimeFmod.sizeIndex 14) = 29 ∧
    PrimeFmod.size (PrimeFmod.sizeIndex 29) = 29 := by decide +kernel

/-- **C18 (limit).** Requests beyond the largest table size are silently truncated: `rehash(n)` for larger `n` ends with
`bucket_count() < n`. -/
theorem C18_size_index_saturates (n : Nat) (hn : 1649267441651 < n) :
    PrimeFmod.size (PrimeFmod.sizeIndex n) = 1649267441651 := by
  obtain ⟨k, e, hk, h1, h2⟩ := sizeIndexFrom_spec n sizes (by decide) 0
  have e' : PrimeFmod.sizeIndex n = k := by unfold PrimeFmod.sizeIndex; omega
  have hl : sizes.length = 38 := by decide +kernel
  have bnd : ∀ i < 38, sizes.getD i 0 ≤ 1649267441651 := by decide +kernel
  rw [e']
  rcases h2 with h2 | h2
  · have := bnd k (by omega); omega
  · have : k = 37 := by omega
    subst this; decide +kernel

end C18

/-! ## C38 -/
section C38
open Mulx

private theorem xorshift_inv (w s : Nat) (hs : w ≤ 3 * s) (z : BitVec w) :
    let u := z ^^^ (z >>> s)
    u ^^^ (u >>> s) ^^^ (u >>> (2 * s)) = z := by
  intro u
  apply BitVec.eq_of_getLsbD_eq
  intro i hi
  simp only [u, BitVec.getLsbD_xor, BitVec.getLsbD_ushiftRight]
  have e1 : s + (s + i) = 2 * s + i := by omega
  have e2 : z.getLsbD (s + (2 * s + i)) = false := BitVec.getLsbD_of_ge _ _ (by omega)
  rw [e1, e2]
  cases z.getLsbD i <;> cases z.getLsbD (s + i) <;> cases z.getLsbD (2 * s + i) <;> rfl

private theorem xorshift_inj (w s : Nat) (hs : w ≤ 3 * s) (x y : BitVec w) (h : x ^^^ (x >>> s) = y ^^^ (y >>> s)) :
    x = y := by
  have a := xorshift_inv w s hs x
  have b := xorshift_inv w s hs y
  dsimp only at a b
  rw [← a, ← b, h]

private theorem mul_inj {w : Nat} (c c' : BitVec w) (h : c * c' = 1#w) (x y : BitVec w) (e : x * c = y * c) : x = y := by
  have := congrArg (· * c') e
  simpa [BitVec.mul_assoc, h] using this

/-- **C38.** The 64-bit xmx mixer never maps two hash values to one. -/
theorem C38_xmx64_injective (x y : BitVec 64) (h : xmx64 x = xmx64 y) : x = y := by
  unfold xmx64 at h
  dsimp only at h
  have h1 := xorshift_inj 64 23 (by omega) _ _ h
  have h2 := mul_inj 0xff51afd7ed558ccd#64 0x4f74430c22a54005#64 (by decide) _ _ h1
  exact xorshift_inj 64 23 (by omega) _ _ h2

/-- **C38.** Neither does the 32-bit one. -/
theorem C38_xmx32_injective (x y : BitVec 32) (h : xmx32 x = xmx32 y) : x = y := by
  unfold xmx32 at h
  dsimp only at h
  have h1 := xorshift_inj 32 16 (by omega) _ _ h
  have h2 := mul_inj 0x56b5aaad#32 0xffbf4925#32 (by decide) _ _ h1
  exact xorshift_inj 32 18 (by omega) _ _ h2

example : xmx64 1#64 ≠ xmx64 2#64 := by decide
example : xmx32 1#32 ≠ xmx32 (2#32) := by decide

end C38

end Props.Arith

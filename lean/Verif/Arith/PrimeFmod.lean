/-
Model of `prime_fmod_size` (bucket counts and hash-to-bucket reduction of the closed-addressing containers).
Source: /repo/include/boost/unordered/detail/prime_fmod.hpp.  The tables are transcribed from the source text.
-/
import Mathlib.Data.Nat.Basic
import Mathlib.Tactic.Ring
import Mathlib.Tactic.Linarith

namespace PrimeFmod

/-- `sizes[]` with a 64-bit `size_t` (prime_fmod.hpp:36-48). -/
def sizes : List Nat := [
  13, 29, 53, 97, 193, 389, 769, 1543, 3079, 6151, 12289, 24593, 49157, 98317, 196613, 393241, 786433,
  1572869, 3145739, 6291469, 12582917, 25165843, 50331653, 100663319, 201326611, 402653189, 805306457,
  1610612741, 3221225473, 6442450939, 12884901893, 25769803751, 51539607551, 103079215111, 206158430209,
  412316860441, 824633720831, 1649267441651]

/-- `sizes[]` with a 32-bit `size_t` (prime_fmod.hpp:36-43). -/
def sizes32 : List Nat := [
  13, 29, 53, 97, 193, 389, 769, 1543, 3079, 6151, 12289, 24593, 49157, 98317, 196613, 393241, 786433,
  1572869, 3145739, 6291469, 12582917, 25165843, 50331653, 100663319, 201326611, 402653189, 805306457,
  1610612741, 3221225473, 4294967291]

/-- `inv_sizes32[]` (prime_fmod.hpp:55-64). -/
def invSizes32 : List Nat := [
  1418980313362273202, 636094623231363849, 348051774975651918, 190172619316593316, 95578984837873325,
  47420935922132524, 23987963684927896, 11955116055547344, 5991147799191151, 2998982941588287,
  1501077717772769, 750081082979285, 375261795343686, 187625172388393, 93822606204624, 46909513691883,
  23456218233098, 11728086747027, 5864041509391, 2932024948977, 1466014921160, 733007198436, 366503839517,
  183251896093, 91625960335, 45812983922, 22906489714, 11453246088, 5726623060]

/-- The search loop of `size_index` (prime_fmod.hpp:123-129) from index `i` over the remaining table. -/
def sizeIndexFrom (n : Nat) : Nat → List Nat → Nat
  | i, [] => i
  | i, [_] => i
  | i, s :: s' :: rest => if s ≥ n then i else sizeIndexFrom n (i + 1) (s' :: rest)

/-- `size_index(n)` (prime_fmod.hpp:121-130). -/
def sizeIndex (n : Nat) : Nat := sizeIndexFrom n 0 sizes

/-- `size(size_index)` (prime_fmod.hpp:132-135). -/
def size (i : Nat) : Nat := sizes.getD i 0

/-- `get_remainder`, 128-bit versions (prime_fmod.hpp:147-156). -/
def getRemainder (fractional d : Nat) : Nat := (fractional * d) >>> 64

/-- `get_remainder`, portable version in 64-bit wrapping arithmetic (prime_fmod.hpp:161-164). -/
def getRemainderPortable (fractional d : Nat) : Nat :=
  let r1 := (fractional % 2 ^ 32 * d) % 2 ^ 64
  let r2 := ((fractional >>> 32) * d) % 2 ^ 64
  let r2 := (r2 + (r1 >>> 32)) % 2 ^ 64
  r2 >>> 32

/-- `fast_modulo(a,M,d)` (prime_fmod.hpp:168-173); the flag selects the portable `get_remainder`. -/
def fastModulo (portable : Bool) (a M d : Nat) : Nat :=
  let fractional := (M * a) % 2 ^ 64
  (if portable then getRemainderPortable fractional d else getRemainder fractional d) % 2 ^ 32

/-- The 32-bit folding of the hash (prime_fmod.hpp:182-183): unsigned 32-bit addition of both halves. -/
def fold32 (hash : Nat) : Nat := (hash % 2 ^ 32 + (hash >>> 32) % 2 ^ 32) % 2 ^ 32

/-- `position(hash,size_index)` with a 64-bit `size_t` (prime_fmod.hpp:176-191); the function table `positions[]`
(prime_fmod.hpp:78-121) holds `hash % sizes[29+i]`. -/
def position (portable : Bool) (hash i : Nat) : Nat :=
  if i < 29 then fastModulo portable (fold32 hash) (invSizes32.getD i 0) (size i % 2 ^ 32)
  else hash % sizes.getD (29 + (i - 29)) 0

/-- `position(hash,size_index)` with a 32-bit `size_t` (prime_fmod.hpp:189). -/
def position32 (hash i : Nat) : Nat := hash % sizes32.getD i 0

/-- Same search with the 32-bit table. -/
def sizeIndex32 (n : Nat) : Nat := sizeIndexFrom n 0 sizes32

/-! ## Lemmas -/

theorem getRemainder_portable (f d : Nat) (hf : f < 2 ^ 64) (hd : d < 2 ^ 32) :
    getRemainderPortable f d = getRemainder f d := by
  unfold getRemainderPortable getRemainder
  simp only [Nat.shiftRight_eq_div_pow]
  obtain ⟨f0, f1, e0, e1, ef⟩ : ∃ f0 f1, f % 2 ^ 32 = f0 ∧ f / 2 ^ 32 = f1 ∧ f = 2 ^ 32 * f1 + f0 :=
    ⟨_, _, rfl, rfl, (Nat.div_add_mod f (2 ^ 32)).symm⟩
  have h0 : f0 < 2 ^ 32 := by rw [← e0]; exact Nat.mod_lt _ (by norm_num)
  have h1 : f1 < 2 ^ 32 := by
    rw [← e1]; apply Nat.div_lt_of_lt_mul; omega
  rw [e0, e1]
  have b0 : f0 * d ≤ (2 ^ 32 - 1) * (2 ^ 32 - 1) := Nat.mul_le_mul (by omega) (by omega)
  have b1 : f1 * d ≤ (2 ^ 32 - 1) * (2 ^ 32 - 1) := Nat.mul_le_mul (by omega) (by omega)
  have em : f * d = 2 ^ 32 * (f1 * d) + f0 * d := by rw [ef]; ring
  rw [em]
  generalize f0 * d = u at *
  generalize f1 * d = v at *
  norm_num at *
  omega

/-- Lemire, Kaser, Kurz: the remainder by direct computation. -/
theorem fastmod_exact (a d M : Nat) (ha : a < 2 ^ 32) (hd : d < 2 ^ 32) (hd0 : 0 < d)
    (hM1 : 2 ^ 64 ≤ M * d) (hM2 : M * d < 2 ^ 64 + d) :
    ((M * a) % 2 ^ 64 * d) / 2 ^ 64 = a % d := by
  obtain ⟨e, he⟩ : ∃ e, M * d = 2 ^ 64 + e := ⟨M * d - 2 ^ 64, by omega⟩
  have hed : e < d := by omega
  have hr : a % d < d := Nat.mod_lt _ hd0
  have hqr := Nat.div_add_mod a d
  generalize hq' : a / d = q at *
  generalize hr' : a % d = r at *
  have h1 : M * a = q * 2 ^ 64 + (q * e + M * r) := by
    rw [← hqr]
    calc M * (d * q + r) = (M * d) * q + M * r := by ring
      _ = _ := by rw [he]; ring
  have h2 : (q * e + M * r) * d = 2 ^ 64 * r + e * a := by
    calc (q * e + M * r) * d = q * e * d + (M * d) * r := by ring
      _ = 2 ^ 64 * r + e * (d * q + r) := by rw [he]; ring
      _ = _ := by rw [hqr]
  have h3 : e * a < 2 ^ 64 := by
    calc e * a ≤ (2 ^ 32 - 1) * (2 ^ 32 - 1) := Nat.mul_le_mul (by omega) (by omega)
      _ < 2 ^ 64 := by norm_num
  have h4 : q * e + M * r < 2 ^ 64 := by
    have : (q * e + M * r) * d < 2 ^ 64 * d := by
      rw [h2]
      calc 2 ^ 64 * r + e * a < 2 ^ 64 * r + 2 ^ 64 := by omega
        _ = 2 ^ 64 * (r + 1) := by ring
        _ ≤ 2 ^ 64 * d := Nat.mul_le_mul_left _ hr
    exact Nat.lt_of_mul_lt_mul_right this
  have h5 : (M * a) % 2 ^ 64 = q * e + M * r := by
    rw [h1, Nat.mul_comm q, Nat.mul_add_mod, Nat.mod_eq_of_lt h4]
  rw [h5, h2, Nat.mul_add_div (by norm_num), Nat.div_eq_of_lt h3, Nat.add_zero]

theorem inv_table : ∀ i < 29, size i < 2 ^ 32 ∧ 0 < size i ∧ 2 ^ 64 ≤ invSizes32.getD i 0 * size i ∧
    invSizes32.getD i 0 * size i < 2 ^ 64 + size i := by decide +kernel

theorem sizeIndexFrom_spec (n : Nat) (l : List Nat) (hl : l ≠ []) (i : Nat) :
    ∃ k, sizeIndexFrom n i l = i + k ∧ k < l.length ∧
      (∀ j < k, l.getD j 0 < n) ∧ (n ≤ l.getD k 0 ∨ k + 1 = l.length) := by
  induction l generalizing i with
  | nil => exact absurd rfl hl
  | cons s rest ih =>
    cases rest with
    | nil => exact ⟨0, rfl, by simp, by omega, Or.inr rfl⟩
    | cons s' rest =>
      unfold sizeIndexFrom
      split
      · rename_i h
        exact ⟨0, rfl, by simp, by omega, Or.inl (by simpa using h)⟩
      · rename_i h
        obtain ⟨k, e, hk, h1, h2⟩ := ih (by simp) (i + 1)
        refine ⟨k + 1, by rw [e]; omega, by simp at hk ⊢; omega, ?_, ?_⟩
        · intro j hj
          cases j with
          | zero => simpa using h
          | succ j => simpa using h1 j (by omega)
        · rcases h2 with h2 | h2
          · left; simpa using h2
          · right; simp at h2 ⊢; omega

theorem sizeIndex_lt (n : Nat) : sizeIndex n < sizes.length := by
  obtain ⟨k, e, hk, _⟩ := sizeIndexFrom_spec n sizes (by decide) 0
  unfold sizeIndex; rw [e]; omega

theorem le_size_sizeIndex {n : Nat} (h : n ≤ 1649267441651) : n ≤ size (sizeIndex n) := by
  obtain ⟨k, e, hk, _, h2⟩ := sizeIndexFrom_spec n sizes (by decide) 0
  unfold sizeIndex size; rw [e, Nat.zero_add]
  rcases h2 with h2 | h2
  · exact h2
  · have : k = 37 := by
      have : sizes.length = 38 := by decide
      omega
    subst this
    exact h

theorem position_lt (portable : Bool) (hash : Nat) {i : Nat} (hi : i < sizes.length) :
    position portable hash i < size i := by
  have h38 : sizes.length = 38 := by decide
  unfold position
  by_cases h : i < 29
  · rw [if_pos h]
    obtain ⟨h1, h2, h3, h4⟩ := inv_table i h
    have hf : fold32 hash < 2 ^ 32 := Nat.mod_lt _ (by norm_num)
    have e := fastmod_exact (fold32 hash) (size i) (invSizes32.getD i 0) hf h1 h2 h3 h4
    unfold fastModulo
    dsimp only
    rw [Nat.mod_eq_of_lt h1]
    have hfr : invSizes32.getD i 0 * fold32 hash % 2 ^ 64 < 2 ^ 64 := Nat.mod_lt _ (by norm_num)
    rw [getRemainder_portable _ _ hfr h1, ite_self, getRemainder, Nat.shiftRight_eq_div_pow, e]
    exact lt_of_le_of_lt (Nat.mod_le _ _) (Nat.mod_lt _ h2)
  · rw [if_neg h]
    have : 29 + (i - 29) = i := by omega
    rw [this]
    exact Nat.mod_lt _ (by
      have : ∀ i < 38, 0 < sizes.getD i 0 := by decide
      exact this i (by omega))

end PrimeFmod

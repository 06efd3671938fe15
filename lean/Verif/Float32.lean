/-
IEEE-754 binary floating point, round-to-nearest-even, non-negative finite values only.
Used for the load-factor arithmetic of
/repo/include/boost/unordered/detail/foa/core.hpp and /repo/include/boost/unordered/detail/implementation.hpp.

A finite non-negative binary32 value is `V / 2^149` for a natural number `V` (2^-149 is the least subnormal), so a value
is represented by `V`. Simplification: overflow to infinity and NaN are not represented (values here stay below 2^128).
-/
import Mathlib.Data.Nat.Basic
import Mathlib.Tactic.Ring
import Mathlib.Tactic.Linarith
import Mathlib.Algebra.Order.Ring.Nat

namespace F32

/-- Integer nearest to `p/q`, ties to even. -/
def rne (p q : Nat) : Nat :=
  let m := p / q
  let r := p % q
  if q < 2 * r ∨ (2 * r = q ∧ m % 2 = 1) then m + 1 else m

/-- `p/q` rounded to a multiple of a power of two so that at most `P` significant bits remain. -/
def rnd (P p q : Nat) : Nat :=
  let e := (Nat.log2 (p / q) + 1) - P
  rne p (q * 2 ^ e) * 2 ^ e

/-- Scale of the representation. -/
def SC : Nat := 2 ^ 149
/-- `float(n)` for an integer. -/
def ofNat (n : Nat) : Nat := rnd 24 (n * SC) 1
/-- `a*b` in binary32. -/
def mul (a b : Nat) : Nat := rnd 24 (a * b) SC
/-- `a/b` in binary32 (b ≠ 0). -/
def div (a b : Nat) : Nat := rnd 24 (a * SC) b
/-- `a+b` in binary32. -/
def add (a b : Nat) : Nat := rnd 24 (a + b) 1
/-- `size_t(std::ceil(a))`. -/
def ceilN (a : Nat) : Nat := (a + SC - 1) / SC
/-- `size_t(a)` (truncation). -/
def truncN (a : Nat) : Nat := a / SC

/-! ### Rounding lemmas -/

theorem rne_ge {p q c : Nat} (hq : 0 < q) (h : c * q ≤ p) : c ≤ rne p q := by
  have : c ≤ p / q := (Nat.le_div_iff_mul_le hq).mpr h
  unfold rne; dsimp only; split <;> omega

theorem rne_le {p q c : Nat} (hq : 0 < q) (h : p ≤ c * q) : rne p q ≤ c := by
  by_cases he : p = c * q
  · subst he
    unfold rne; dsimp only
    rw [Nat.mul_mod_left, Nat.mul_div_cancel _ hq]
    split
    · omega
    · omega
  · have : p / q < c := Nat.div_lt_of_lt_mul (by rw [Nat.mul_comm]; omega)
    unfold rne; dsimp only; split <;> omega

theorem rne_ge_even {p q c : Nat} (hq : 0 < q) (hc : c % 2 = 0) (h : 2 * c * q ≤ 2 * p + q) : c ≤ rne p q := by
  by_cases h1 : c * q ≤ p
  · exact rne_ge hq h1
  · have h2 : p < c * q := by omega
    obtain ⟨b, rfl⟩ : ∃ b, c = b + 1 := ⟨c - 1, by
      rcases Nat.eq_zero_or_pos c with rfl | h
      · simp at h2
      · omega⟩
    have e1 : 2 * (b + 1) * q = 2 * (b * q) + 2 * q := by ring
    have e2 : (b + 1) * q = b * q + q := by ring
    have hdiv : p / q = b := by
      apply Nat.div_eq_of_lt_le
      · omega
      · rw [e2]; omega
    have hmod := Nat.div_add_mod p q
    rw [hdiv, Nat.mul_comm q b] at hmod
    unfold rne; dsimp only
    rw [hdiv, if_pos]
    omega

theorem rnd_ge {P p q m f : Nat} (hP : 0 < P) (hq : 0 < q) (hm : m < 2 ^ P) (h : m * 2 ^ f * q ≤ p) :
    m * 2 ^ f ≤ rnd P p q := by
  unfold rnd; dsimp only
  generalize he : Nat.log2 (p / q) + 1 - P = e
  have hQ : 0 < q * 2 ^ e := Nat.mul_pos hq (Nat.two_pow_pos e)
  by_cases hef : e ≤ f
  · obtain ⟨d, rfl⟩ : ∃ d, f = e + d := ⟨f - e, by omega⟩
    have h2 : m * 2 ^ d ≤ rne p (q * 2 ^ e) := by
      apply rne_ge hQ
      calc m * 2 ^ d * (q * 2 ^ e) = m * 2 ^ (e + d) * q := by rw [pow_add]; ring
        _ ≤ p := h
    calc m * 2 ^ (e + d) = (m * 2 ^ d) * 2 ^ e := by rw [pow_add]; ring
      _ ≤ _ := Nat.mul_le_mul_right _ h2
  · have hs0 : p / q ≠ 0 := by
      intro h0; rw [h0] at he; simp at he; omega
    have hl := Nat.log2_self_le hs0
    have hle : Nat.log2 (p / q) = P - 1 + e := by omega
    rw [hle] at hl
    have h3 : 2 ^ (P - 1 + e) * q ≤ p := (Nat.le_div_iff_mul_le hq).mp hl
    have h2 : 2 ^ (P - 1) ≤ rne p (q * 2 ^ e) := by
      apply rne_ge hQ
      calc 2 ^ (P - 1) * (q * 2 ^ e) = 2 ^ (P - 1 + e) * q := by rw [pow_add]; ring
        _ ≤ p := h3
    calc m * 2 ^ f ≤ 2 ^ P * 2 ^ f := Nat.mul_le_mul_right _ hm.le
      _ = 2 ^ (P + f) := by rw [pow_add]
      _ ≤ 2 ^ (P - 1 + e) := Nat.pow_le_pow_right (by norm_num) (by omega)
      _ = 2 ^ (P - 1) * 2 ^ e := by rw [pow_add]
      _ ≤ _ := Nat.mul_le_mul_right _ h2

theorem rnd_le {P p q m f : Nat} (hP : 0 < P) (hq : 0 < q) (hm : m < 2 ^ P) (h : p ≤ m * 2 ^ f * q) :
    rnd P p q ≤ m * 2 ^ f := by
  unfold rnd; dsimp only
  generalize he : Nat.log2 (p / q) + 1 - P = e
  have hQ : 0 < q * 2 ^ e := Nat.mul_pos hq (Nat.two_pow_pos e)
  by_cases hef : e ≤ f
  · obtain ⟨d, rfl⟩ : ∃ d, f = e + d := ⟨f - e, by omega⟩
    have h2 : rne p (q * 2 ^ e) ≤ m * 2 ^ d := by
      apply rne_le hQ
      calc p ≤ m * 2 ^ (e + d) * q := h
        _ = m * 2 ^ d * (q * 2 ^ e) := by rw [pow_add]; ring
    calc _ ≤ (m * 2 ^ d) * 2 ^ e := Nat.mul_le_mul_right _ h2
      _ = m * 2 ^ (e + d) := by rw [pow_add]; ring
  · exfalso
    have hs0 : p / q ≠ 0 := by
      intro h0; rw [h0] at he; simp at he; omega
    have hl := Nat.log2_self_le hs0
    have h1 : p / q ≤ m * 2 ^ f := by
      apply Nat.div_le_of_le_mul; rw [Nat.mul_comm]; exact h
    have h2 : m * 2 ^ f < 2 ^ P * 2 ^ f := Nat.mul_lt_mul_of_pos_right hm (Nat.two_pow_pos f)
    rw [← pow_add] at h2
    have h3 : 2 ^ (P + f) ≤ 2 ^ (Nat.log2 (p / q)) := Nat.pow_le_pow_right (by norm_num) (by omega)
    omega

theorem rnd_exact {P m f : Nat} (hP : 0 < P) (hm : m < 2 ^ P) : rnd P (m * 2 ^ f) 1 = m * 2 ^ f :=
  Nat.le_antisymm (rnd_le hP Nat.one_pos hm (by omega)) (rnd_ge hP Nat.one_pos hm (by omega))

theorem SC_pos : 0 < SC := Nat.two_pow_pos 149

theorem ofNat_ge {n m f : Nat} (hm : m < 2 ^ 24) (h : m * 2 ^ f ≤ n) : m * 2 ^ f * SC ≤ ofNat n := by
  unfold ofNat
  have : m * 2 ^ f * SC = m * 2 ^ (f + 149) := by unfold SC; rw [pow_add]; ring
  rw [this]
  apply rnd_ge (by norm_num) Nat.one_pos hm
  rw [← this]; simpa using Nat.mul_le_mul_right SC h

theorem ofNat_le {n m f : Nat} (hm : m < 2 ^ 24) (h : n ≤ m * 2 ^ f) : ofNat n ≤ m * 2 ^ f * SC := by
  unfold ofNat
  have : m * 2 ^ f * SC = m * 2 ^ (f + 149) := by unfold SC; rw [pow_add]; ring
  rw [this]
  apply rnd_le (by norm_num) Nat.one_pos hm
  rw [← this]; simpa using Nat.mul_le_mul_right SC h

theorem ofNat_exact {m f : Nat} (hm : m < 2 ^ 24) : ofNat (m * 2 ^ f) = m * 2 ^ f * SC :=
  Nat.le_antisymm (ofNat_le hm le_rfl) (ofNat_ge hm le_rfl)

theorem ofNat_exact' {m : Nat} (hm : m < 2 ^ 24) : ofNat m = m * SC := by
  simpa using ofNat_exact (f := 0) hm

theorem le_ceilN {a c : Nat} (h : c * SC ≤ a) : c ≤ ceilN a := by
  unfold ceilN; have := SC_pos
  exact (Nat.le_div_iff_mul_le this).mpr (by omega)

theorem le_ceilN_mul (a : Nat) : a ≤ ceilN a * SC := by
  unfold ceilN
  have h := Nat.div_add_mod (a + SC - 1) SC
  have h2 := Nat.mod_lt (a + SC - 1) SC_pos
  have h3 := SC_pos
  rw [Nat.mul_comm SC] at h
  omega

end F32

/-
Models of the bit mixers `mulx64`, `mulx32`, `mulx` and `xmx`.
Source: /repo/include/boost/unordered/detail/mulx.hpp, /repo/include/boost/unordered/detail/xmx.hpp.
`uint64_t`/`uint32_t` are `BitVec 64`/`BitVec 32`.
-/
import Mathlib.Data.Nat.Basic
import Mathlib.Tactic.Ring
import Mathlib.Tactic.Linarith

namespace Mulx

/-- `mulx64`, versions with a 128-bit product (mulx.hpp:25-47): low half xor high half. -/
def mulx64 (x y : BitVec 64) : BitVec 64 :=
  let r : BitVec 128 := x.setWidth 128 * y.setWidth 128
  r.setWidth 64 ^^^ (r >>> 64).setWidth 64

/-- `(uint64_t)(uint32_t)x`. -/
def lo32 (x : BitVec 64) : BitVec 64 := (x.setWidth 32).setWidth 64

/-- `mulx64`, portable version (mulx.hpp:51-77). -/
def mulx64Portable (x y : BitVec 64) : BitVec 64 :=
  let x1 := lo32 x
  let x2 := x >>> 32
  let y1 := lo32 y
  let y2 := y >>> 32
  let r3 := x2 * y2
  let r2a := x1 * y2
  let r3 := r3 + (r2a >>> 32)
  let r2b := x2 * y1
  let r3 := r3 + (r2b >>> 32)
  let r1 := x1 * y1
  let r2 := (r1 >>> 32) + lo32 r2a + lo32 r2b
  let r1 := (r2 <<< 32) + lo32 r1
  let r3 := r3 + (r2 >>> 32)
  r1 ^^^ r3

/-- `mulx32` (mulx.hpp:81-94), both variants; the flag is `__MSVC_RUNTIME_CHECKS`. -/
def mulx32 (rtc : Bool) (x y : BitVec 32) : BitVec 32 :=
  let r : BitVec 64 := x.setWidth 64 * y.setWidth 64
  if rtc then (r &&& 0xFFFFFFFF#64).setWidth 32 ^^^ (r >>> 32).setWidth 32
  else r.setWidth 32 ^^^ (r >>> 32).setWidth 32

/-- `mulx(x)` with a 64-bit `size_t` (mulx.hpp:106-119); the flag selects the portable `mulx64`. -/
def mulx (portable : Bool) (x : BitVec 64) : BitVec 64 :=
  if portable then mulx64Portable x 0x9E3779B97F4A7C15#64 else mulx64 x 0x9E3779B97F4A7C15#64

/-- `xmx(x)` with a 64-bit `size_t` (xmx.hpp:45-55). -/
def xmx64 (x : BitVec 64) : BitVec 64 :=
  let z := x ^^^ (x >>> 23)
  let z := z * 0xff51afd7ed558ccd#64
  z ^^^ (z >>> 23)

/-- `xmx(x)` with a 32-bit `size_t` (xmx.hpp:57-63). -/
def xmx32 (x : BitVec 32) : BitVec 32 :=
  let x := x ^^^ (x >>> 18)
  let x := x * 0x56b5aaad#32
  x ^^^ (x >>> 16)

/-! ## Lemmas -/

theorem lo32_toNat (x : BitVec 64) : (lo32 x).toNat = x.toNat % 2 ^ 32 := by
  unfold lo32; simp only [BitVec.toNat_setWidth]; omega

theorem hi32_toNat (x : BitVec 64) : (x >>> 32).toNat = x.toNat / 2 ^ 32 := by
  rw [BitVec.toNat_ushiftRight, Nat.shiftRight_eq_div_pow]

theorem mulx64_toNat_lo (x y : BitVec 64) :
    ((x.setWidth 128 * y.setWidth 128).setWidth 64).toNat = (x.toNat * y.toNat) % 2 ^ 64 := by
  have hx := x.isLt; have hy := y.isLt
  simp only [BitVec.toNat_setWidth, BitVec.toNat_mul]
  rw [Nat.mod_eq_of_lt (show x.toNat < 2 ^ 128 by omega), Nat.mod_eq_of_lt (show y.toNat < 2 ^ 128 by omega)]
  omega

theorem mulx64_toNat_hi (x y : BitVec 64) :
    (((x.setWidth 128 * y.setWidth 128) >>> 64).setWidth 64).toNat = (x.toNat * y.toNat) / 2 ^ 64 := by
  have hx := x.isLt; have hy := y.isLt
  have hm : x.toNat * y.toNat ≤ (2 ^ 64 - 1) * (2 ^ 64 - 1) := Nat.mul_le_mul (by omega) (by omega)
  simp only [BitVec.toNat_setWidth, BitVec.toNat_mul, BitVec.toNat_ushiftRight, Nat.shiftRight_eq_div_pow]
  rw [Nat.mod_eq_of_lt (show x.toNat < 2 ^ 128 by omega), Nat.mod_eq_of_lt (show y.toNat < 2 ^ 128 by omega)]
  generalize x.toNat * y.toNat = p at *
  norm_num at *
  omega

/-- The arithmetic core of the portable multiplication. -/
theorem portable_arith (a b c d : Nat) (ha : a ≤ (2 ^ 32 - 1) * (2 ^ 32 - 1)) (hb : b ≤ (2 ^ 32 - 1) * (2 ^ 32 - 1))
    (hc : c ≤ (2 ^ 32 - 1) * (2 ^ 32 - 1)) (hd : d ≤ (2 ^ 32 - 1) * (2 ^ 32 - 1)) :
    let r2 := a / 2 ^ 32 + b % 2 ^ 32 + c % 2 ^ 32
    let P := a + 2 ^ 32 * (b + c) + 2 ^ 64 * d
    (r2 * 2 ^ 32 + a % 2 ^ 32) % 2 ^ 64 = P % 2 ^ 64 ∧
    (d + b / 2 ^ 32 + c / 2 ^ 32 + r2 / 2 ^ 32) = P / 2 ^ 64 := by
  have := ha; have := hb; have := hc; have := hd
  norm_num at *
  omega

theorem portable_lo (a b c : Nat) (ha : a ≤ (2 ^ 32 - 1) * (2 ^ 32 - 1)) (hb : b ≤ (2 ^ 32 - 1) * (2 ^ 32 - 1))
    (hc : c ≤ (2 ^ 32 - 1) * (2 ^ 32 - 1)) :
    ((((a % 2 ^ 64 / 2 ^ 32 + b % 2 ^ 64 % 2 ^ 32) % 2 ^ 64 + c % 2 ^ 64 % 2 ^ 32) % 2 ^ 64 * 2 ^ 32) % 2 ^ 64
      + a % 2 ^ 64 % 2 ^ 32) % 2 ^ 64 =
    ((a / 2 ^ 32 + b % 2 ^ 32 + c % 2 ^ 32) * 2 ^ 32 + a % 2 ^ 32) % 2 ^ 64 % 2 ^ 64 := by
  rw [Nat.mod_eq_of_lt (show a < 2 ^ 64 by omega), Nat.mod_eq_of_lt (show b < 2 ^ 64 by omega),
    Nat.mod_eq_of_lt (show c < 2 ^ 64 by omega)]
  rw [Nat.mod_eq_of_lt (show a / 2 ^ 32 + b % 2 ^ 32 < 2 ^ 64 by omega),
    Nat.mod_eq_of_lt (show a / 2 ^ 32 + b % 2 ^ 32 + c % 2 ^ 32 < 2 ^ 64 by omega)]
  rw [Nat.mod_mod, Nat.mod_add_mod]

theorem portable_hi (a b c d : Nat) (ha : a ≤ (2 ^ 32 - 1) * (2 ^ 32 - 1)) (hb : b ≤ (2 ^ 32 - 1) * (2 ^ 32 - 1))
    (hc : c ≤ (2 ^ 32 - 1) * (2 ^ 32 - 1)) (hd : d ≤ (2 ^ 32 - 1) * (2 ^ 32 - 1)) :
    (((d % 2 ^ 64 + b % 2 ^ 64 / 2 ^ 32) % 2 ^ 64 + c % 2 ^ 64 / 2 ^ 32) % 2 ^ 64
      + ((a % 2 ^ 64 / 2 ^ 32 + b % 2 ^ 64 % 2 ^ 32) % 2 ^ 64 + c % 2 ^ 64 % 2 ^ 32) % 2 ^ 64 / 2 ^ 32) % 2 ^ 64 =
    (d + b / 2 ^ 32 + c / 2 ^ 32 + (a / 2 ^ 32 + b % 2 ^ 32 + c % 2 ^ 32) / 2 ^ 32) % 2 ^ 64 := by
  rw [Nat.mod_eq_of_lt (show a < 2 ^ 64 by omega), Nat.mod_eq_of_lt (show b < 2 ^ 64 by omega),
    Nat.mod_eq_of_lt (show c < 2 ^ 64 by omega), Nat.mod_eq_of_lt (show d < 2 ^ 64 by omega)]
  rw [Nat.mod_eq_of_lt (show a / 2 ^ 32 + b % 2 ^ 32 < 2 ^ 64 by omega),
    Nat.mod_eq_of_lt (show a / 2 ^ 32 + b % 2 ^ 32 + c % 2 ^ 32 < 2 ^ 64 by omega)]
  rw [Nat.mod_add_mod, Nat.add_assoc, Nat.mod_add_mod]; congr 1; omega

end Mulx

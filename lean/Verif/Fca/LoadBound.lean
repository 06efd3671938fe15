/-
How far the load factor of a closed-addressing container can exceed the maximum load factor: rounding errors of the
single-precision arithmetic of `min_buckets`, `recalculate_max_load`.
-/
import Verif.Fca.LoadInv
import Mathlib.Tactic.Positivity

namespace F32

theorem rne_lo (p : Nat) {q : Nat} (hq : 0 < q) : 2 * p ≤ (2 * rne p q + 1) * q := by
  have hm := Nat.div_add_mod p q
  have hr := Nat.mod_lt p hq
  unfold rne; dsimp only
  generalize p / q = m at *
  generalize p % q = r at *
  split
  · have : (2 * (m + 1) + 1) * q = 2 * (q * m) + 3 * q := by ring
    omega
  · have : (2 * m + 1) * q = 2 * (q * m) + q := by ring
    omega

theorem rne_hi (p : Nat) {q : Nat} (hq : 0 < q) : 2 * rne p q * q ≤ 2 * p + q := by
  have hm := Nat.div_add_mod p q
  have hr := Nat.mod_lt p hq
  unfold rne; dsimp only
  generalize p / q = m at *
  generalize p % q = r at *
  split
  · have : 2 * (m + 1) * q = 2 * (q * m) + 2 * q := by ring
    omega
  · have : 2 * m * q = 2 * (q * m) := by ring
    omega

theorem exp_le {P p q : Nat} (hP : 0 < P) (hq : 0 < q) (hp : 2 ^ (P - 1) * q ≤ p) :
    q * 2 ^ (Nat.log2 (p / q) + 1 - P) * 2 ^ (P - 1) ≤ p := by
  have hs : 2 ^ (P - 1) ≤ p / q := (Nat.le_div_iff_mul_le hq).mpr hp
  have hs0 : p / q ≠ 0 := by have := Nat.two_pow_pos (P - 1); omega
  have hl : P - 1 ≤ Nat.log2 (p / q) := (Nat.le_log2 hs0).mpr hs
  have h1 := Nat.log2_self_le hs0
  have h2 : 2 ^ (Nat.log2 (p / q)) * q ≤ p := (Nat.le_div_iff_mul_le hq).mp h1
  calc q * 2 ^ (Nat.log2 (p / q) + 1 - P) * 2 ^ (P - 1) = 2 ^ (Nat.log2 (p / q) + 1 - P + (P - 1)) * q := by
        rw [pow_add]; ring
    _ = 2 ^ (Nat.log2 (p / q)) * q := by congr 2; omega
    _ ≤ p := h2

/-- rounding to `P` bits loses at most one part in `2^P` -/
theorem rnd_lo {P p q : Nat} (hP : 0 < P) (hq : 0 < q) (hp : 2 ^ (P - 1) * q ≤ p) :
    p * 2 ^ P ≤ q * rnd P p q * 2 ^ P + p := by
  have h1 := exp_le hP hq hp
  unfold rnd; dsimp only
  generalize Nat.log2 (p / q) + 1 - P = e at *
  have h2 := rne_lo p (q := q * 2 ^ e) (Nat.mul_pos hq (Nat.two_pow_pos e))
  obtain ⟨P', rfl⟩ : ∃ P', P = P' + 1 := ⟨P - 1, by omega⟩
  rw [Nat.add_sub_cancel] at *
  generalize rne p (q * 2 ^ e) = r at *
  calc p * 2 ^ (P' + 1) = 2 * p * 2 ^ P' := by rw [pow_succ]; ring
    _ ≤ (2 * r + 1) * (q * 2 ^ e) * 2 ^ P' := Nat.mul_le_mul_right _ h2
    _ = q * (r * 2 ^ e) * 2 ^ (P' + 1) + q * 2 ^ e * 2 ^ P' := by rw [pow_succ]; ring
    _ ≤ _ := by omega

theorem rnd_hi {P p q : Nat} (hP : 0 < P) (hq : 0 < q) (hp : 2 ^ (P - 1) * q ≤ p) :
    q * rnd P p q * 2 ^ P ≤ p * 2 ^ P + p := by
  have h1 := exp_le hP hq hp
  unfold rnd; dsimp only
  generalize Nat.log2 (p / q) + 1 - P = e at *
  have h2 := rne_hi p (q := q * 2 ^ e) (Nat.mul_pos hq (Nat.two_pow_pos e))
  obtain ⟨P', rfl⟩ : ∃ P', P = P' + 1 := ⟨P - 1, by omega⟩
  rw [Nat.add_sub_cancel] at *
  generalize rne p (q * 2 ^ e) = r at *
  calc q * (r * 2 ^ e) * 2 ^ (P' + 1) = 2 * r * (q * 2 ^ e) * 2 ^ P' := by rw [pow_succ]; ring
    _ ≤ (2 * p + q * 2 ^ e) * 2 ^ P' := Nat.mul_le_mul_right _ h2
    _ = p * 2 ^ (P' + 1) + q * 2 ^ e * 2 ^ P' := by rw [pow_succ]; ring
    _ ≤ _ := by omega

end F32

namespace Fca
open F32
variable {K V : Type}

theorem aux1 (z w : Nat) (h : z * 2 ^ 24 ≤ w * 2 ^ 24 + z) : z * (2 ^ 24 - 1) ≤ w * 2 ^ 24 := by
  norm_num at *; linarith
theorem aux2 (z w A : Nat) (h1 : z * 2 ^ 24 ≤ A * 2 ^ 24 + z) (h4 : A * (2 ^ 24 - 1) ≤ w * 2 ^ 24) :
    z * (2 ^ 23 - 1) ≤ w * 2 ^ 23 := by
  norm_num at *; linarith
theorem aux3 (r z y : Nat) (h1 : 1 * r * 2 ^ 53 ≤ z * 2 ^ 53 + z) (h : y ≤ r) : y * (2 ^ 23 - 1) ≤ z * 2 ^ 23 := by
  norm_num at *; linarith

theorem ofNat_lo (n : Nat) : n * SC * 2 ^ 24 ≤ F32.ofNat n * 2 ^ 24 + n * SC := by
  rcases Nat.eq_zero_or_pos n with rfl | hn
  · simp
  · unfold F32.ofNat
    have := rnd_lo (P := 24) (p := n * SC) (q := 1) (by norm_num) (by norm_num) (by
      unfold SC
      calc 2 ^ (24 - 1) * 1 ≤ 1 * 2 ^ 149 := by norm_num
        _ ≤ n * 2 ^ 149 := Nat.mul_le_mul_right _ hn)
    rw [Nat.one_mul] at this; exact this

theorem ofNat_hi (n : Nat) : F32.ofNat n ≤ 2 * (n * SC) := by
  rcases Nat.eq_zero_or_pos n with rfl | hn
  · have : F32.ofNat 0 = 0 := by decide +kernel
    rw [this]; omega
  · unfold F32.ofNat
    have := rnd_hi (P := 24) (p := n * SC) (q := 1) (by norm_num) (by norm_num) (by
      unfold SC
      calc 2 ^ (24 - 1) * 1 ≤ 1 * 2 ^ 149 := by norm_num
        _ ≤ n * 2 ^ 149 := Nat.mul_le_mul_right _ hn)
    rw [Nat.one_mul] at this
    generalize rnd 24 (n * SC) 1 = r at *
    generalize n * SC = z at *
    omega

/-- lower bound for `min_buckets`, before the conversion to an integer type -/
theorem ceil_div_lo {n m : Nat} (hm : 0 < m) (hbig : m < n * SC) :
    n * SC * (2 ^ 23 - 1) ≤ m * F32.ceilN (F32.div (F32.ofNat n) m) * 2 ^ 23 := by
  have h1 := ofNat_lo n
  have hA : n * SC ≤ 2 * F32.ofNat n := by
    generalize F32.ofNat n = A at *
    generalize n * SC = z at *
    omega
  have h2 := rnd_lo (P := 24) (p := F32.ofNat n * SC) (q := m) (by norm_num) hm (by
    have : m * 2 ^ 23 ≤ 2 * F32.ofNat n * 2 ^ 23 := Nat.mul_le_mul_right _ (by omega)
    calc 2 ^ (24 - 1) * m = m * 2 ^ 23 := by ring
      _ ≤ 2 * F32.ofNat n * 2 ^ 23 := this
      _ = F32.ofNat n * 2 ^ 24 := by ring
      _ ≤ F32.ofNat n * SC := Nat.mul_le_mul_left _ (by unfold SC; norm_num))
  have h3 := le_ceilN_mul (F32.div (F32.ofNat n) m)
  change _ ≤ m * F32.div (F32.ofNat n) m * 2 ^ 24 + _ at h2
  generalize F32.div (F32.ofNat n) m = D at *
  generalize F32.ceilN D = C at *
  generalize F32.ofNat n = A at *
  have hSC := SC_pos
  -- A*SC*(2^24-1) ≤ m*D*2^24 ≤ m*C*SC*2^24
  have h4 : A * (2 ^ 24 - 1) ≤ m * C * 2 ^ 24 := by
    have e1 : A * SC * (2 ^ 24 - 1) ≤ m * D * 2 ^ 24 := aux1 _ _ h2
    have e2 : m * D ≤ m * C * SC := by
      calc m * D ≤ m * (C * SC) := Nat.mul_le_mul_left _ h3
        _ = m * C * SC := by ring
    have e3 : A * (2 ^ 24 - 1) * SC ≤ m * C * 2 ^ 24 * SC := by
      calc A * (2 ^ 24 - 1) * SC = A * SC * (2 ^ 24 - 1) := by ring
        _ ≤ m * D * 2 ^ 24 := e1
        _ ≤ m * C * SC * 2 ^ 24 := Nat.mul_le_mul_right _ e2
        _ = m * C * 2 ^ 24 * SC := by ring
    exact Nat.le_of_mul_le_mul_right e3 hSC
  exact aux2 _ _ _ h1 h4

theorem ceil_div_hi {n m B : Nat} (hm : 0 < m) (hB : n * SC ≤ m * B) :
    F32.ceilN (F32.div (F32.ofNat n) m) ≤ 4 * B + 1 := by
  have h1 := ofNat_hi n
  have hSC := SC_pos
  have h2 : F32.div (F32.ofNat n) m ≤ 4 * B * SC ∨ F32.div (F32.ofNat n) m ≤ SC := by
    unfold F32.div
    by_cases hs : 2 ^ (24 - 1) * m ≤ F32.ofNat n * SC
    · left
      have := rnd_hi (P := 24) (by norm_num) hm hs
      have e1 : m * rnd 24 (F32.ofNat n * SC) m ≤ 2 * (F32.ofNat n * SC) := by
        generalize m * rnd 24 (F32.ofNat n * SC) m = w at *
        generalize F32.ofNat n * SC = z at *
        omega
      have e2 : m * rnd 24 (F32.ofNat n * SC) m ≤ m * (4 * B * SC) := by
        calc _ ≤ 2 * (F32.ofNat n * SC) := e1
          _ ≤ 2 * (2 * (n * SC) * SC) := Nat.mul_le_mul_left _ (Nat.mul_le_mul_right _ h1)
          _ ≤ 2 * (2 * (m * B) * SC) := Nat.mul_le_mul_left _ (Nat.mul_le_mul_right _ (Nat.mul_le_mul_left _ hB))
          _ = m * (4 * B * SC) := by ring
      exact Nat.le_of_mul_le_mul_left e2 hm
    · right
      have : rnd 24 (F32.ofNat n * SC) m ≤ 1 * 2 ^ 149 := by
        apply rnd_le (by norm_num) hm (by norm_num)
        calc F32.ofNat n * SC ≤ 2 ^ (24 - 1) * m := by omega
          _ ≤ 1 * 2 ^ 149 * m := Nat.mul_le_mul_right _ (by norm_num)
      have e : SC = 1 * 2 ^ 149 := by unfold SC; norm_num
      rw [← e] at this; exact this
  unfold F32.ceilN
  have h3 : F32.div (F32.ofNat n) m ≤ (4 * B + 1) * SC := by
    rw [Nat.add_mul, Nat.one_mul]
    rcases h2 with h2 | h2 <;> omega
  have : F32.div (F32.ofNat n) m + SC - 1 < (4 * B + 1 + 1) * SC := by
    rw [Nat.add_mul (4 * B + 1), Nat.one_mul]; omega
  have := Nat.div_lt_of_lt_mul (m := F32.div (F32.ofNat n) m + SC - 1) (n := SC) (k := 4 * B + 1 + 1) (by rwa [Nat.mul_comm])
  omega

theorem doubleToSize_int {C : Nat} (h : C < 2 ^ 64) : doubleToSize (C * SC) = C := by
  unfold doubleToSize
  have hSC := SC_pos
  rw [if_neg, Nat.mul_div_cancel _ hSC]
  intro hc
  have := Nat.le_of_mul_le_mul_right hc hSC
  omega

theorem ite_ge (q n : Nat) : q ≤ if q = 0 ∧ 0 < n then 1 else q := by split <;> omega
theorem ite_le (q n : Nat) : (if q = 0 ∧ 0 < n then 1 else q) ≤ q + 1 := by split <;> omega

theorem minBuckets_some (n m : Nat) : minBuckets n (some m) =
    if doubleToSize (F32.ceilN (F32.div (F32.ofNat n) m) * SC) = 0 ∧ 0 < n then 1
      else doubleToSize (F32.ceilN (F32.div (F32.ofNat n) m) * SC) := rfl

theorem minBuckets_bounds {n m : Nat} (hm : 0 < m) (hB : n * SC ≤ m * 2 ^ 38) :
    minBuckets n (some m) ≤ 2 ^ 40 + 2 ∧
      (0 < n → n * SC * (2 ^ 23 - 1) ≤ m * minBuckets n (some m) * 2 ^ 23) := by
  have h1 := ceil_div_hi (B := 2 ^ 38) hm hB
  rw [minBuckets_some, doubleToSize_int (by omega)]
  constructor
  · have := ite_le (F32.ceilN (F32.div (F32.ofNat n) m)) n
    omega
  · intro hn
    by_cases hbig : m < n * SC
    · have h2 := ceil_div_lo hm hbig
      refine h2.trans (Nat.mul_le_mul_right _ (Nat.mul_le_mul_left _ (ite_ge _ _)))
    · have h3 := ite_pos_aux (F32.ceilN (F32.div (F32.ofNat n) m)) n hn
      generalize (if F32.ceilN (F32.div (F32.ofNat n) m) = 0 ∧ 0 < n then 1 else F32.ceilN (F32.div (F32.ofNat n) m)) = w at *
      have h4 : m * 1 ≤ m * w := Nat.mul_le_mul_left _ h3
      generalize m * w = z at *
      generalize n * SC = y at *
      omega

theorem le_bucketCountFor {n : Nat} (h : n ≤ 1649267441651) : n ≤ Gba.bucketCountFor n := by
  unfold Gba.bucketCountFor
  split
  · omega
  · exact PrimeFmod.le_size_sizeIndex h

/-- growing for one more element: afterwards the new size is within the bound -/
theorem growForOne_load {t t1 : Table K V} (hs : SInv t) (hok : MlOk t) {m : Nat} (hmlf : t.mlf = some m) (hm : 0 < m)
    (hB : (t.size + 1) * SC ≤ m * 2 ^ 38) (h : t.growForOne = some t1) :
    (t.size + 1) * SC * (2 ^ 23 - 1) ≤ m * t1.b.size * 2 ^ 23 := by
  unfold Table.growForOne at h
  split at h
  · obtain ⟨t1', h1, h2, h3⟩ := rehash_spec hs (minBuckets (t.size + 1) t.mlf)
    have h1' : t.reserve (t.size + 1) = some t1' := h1
    rw [h] at h1'; cases h1'
    rw [h3, hmlf]
    have b1 := minBuckets_bounds hm hB
    have b2 := minBuckets_bounds (n := t.size) hm ((Nat.mul_le_mul_right _ (by omega)).trans hB)
    refine (b1.2 (by omega)).trans (Nat.mul_le_mul_right _ (Nat.mul_le_mul_left _ ?_))
    refine (Nat.le_max_right _ _).trans (le_bucketCountFor ?_)
    have := b1.1; have := b2.1
    omega
  · rename_i hle
    cases h
    have hle : t.size + 1 ≤ maxLoadFor t.mlf t.b.size := by rw [← hok]; omega
    unfold maxLoadFor at hle
    split at hle
    · omega
    · rw [hmlf] at hle
      dsimp only at hle
      have hd : (t.size + 1) * SC ≤ F32.rnd 53 (m * t.b.size) 1 := by
        unfold doubleToSize at hle
        split at hle
        · rename_i hc
          refine (Nat.mul_le_mul_right _ ?_).trans hc
          unfold sizeMax at hle; omega
        · exact (Nat.le_div_iff_mul_le SC_pos).mp hle
      have hge : 2 ^ (53 - 1) * 1 ≤ m * t.b.size := by
        by_contra hc
        have := rnd_le (P := 53) (p := m * t.b.size) (q := 1) (m := 1) (f := 52) (by norm_num) (by norm_num) (by norm_num)
          (by omega)
        have h2 : 1 * SC ≤ (t.size + 1) * SC := Nat.mul_le_mul_right _ (by omega)
        have : SC ≤ 1 * 2 ^ 52 := by omega
        unfold SC at this
        norm_num at this
      have := rnd_hi (P := 53) (by norm_num) Nat.one_pos hge
      exact aux3 _ _ _ this hd

/-- default maximum load factor: exact up to 2^24 elements -/
theorem growForOne_load_default {t t1 : Table K V} (hs : SInv t) (hok : MlOk t) (hmlf : t.mlf = some one)
    (hB : t.size + 1 ≤ 2 ^ 24) (h : t.growForOne = some t1) : t.size + 1 ≤ t1.b.size := by
  have hof : ∀ n, n ≤ 2 ^ 24 → F32.ofNat n = n * SC := by
    intro n hn
    by_cases he : n = 2 ^ 24
    · subst he
      have := F32.ofNat_exact (m := 1) (f := 24) (by norm_num)
      simpa using this
    · exact F32.ofNat_exact' (by omega)
  have hdiv : ∀ n, n ≤ 2 ^ 24 → F32.div (n * SC) one = n * SC := by
    intro n hn
    unfold F32.div one
    have hSC := SC_pos
    by_cases he : n = 2 ^ 24
    · subst he
      refine Nat.le_antisymm ?_ ?_
      · have := rnd_le (P := 24) (p := 2 ^ 24 * SC * SC) (q := SC) (m := 1) (f := 24 + 149) (by norm_num) hSC (by norm_num)
          (by unfold SC; norm_num)
        refine this.trans (by unfold SC; norm_num)
      · have := rnd_ge (P := 24) (p := 2 ^ 24 * SC * SC) (q := SC) (m := 1) (f := 24 + 149) (by norm_num) hSC (by norm_num)
          (by unfold SC; norm_num)
        refine le_trans (by unfold SC; norm_num) this
    · have hn' : n < 2 ^ 24 := by omega
      refine Nat.le_antisymm ?_ ?_
      · exact rnd_le (P := 24) (f := 149) (by norm_num) hSC hn' (le_refl _)
      · exact rnd_ge (P := 24) (f := 149) (by norm_num) hSC hn' (le_refl _)
  have hceil : ∀ n, F32.ceilN (n * SC) = n := by
    intro n
    unfold F32.ceilN
    have hSC := SC_pos
    apply Nat.div_eq_of_lt_le
    · omega
    · rw [Nat.succ_mul]; omega
  have hmb : ∀ n, n ≤ 2 ^ 24 → minBuckets n (some one) = n := by
    intro n hn
    rw [minBuckets_some, hof n hn, hdiv n hn, hceil, doubleToSize_int (by omega)]
    split <;> omega
  unfold Table.growForOne at h
  split at h
  · obtain ⟨t1', h1, h2, h3⟩ := rehash_spec hs (minBuckets (t.size + 1) t.mlf)
    have h1' : t.reserve (t.size + 1) = some t1' := h1
    rw [h] at h1'; cases h1'
    rw [h3, hmlf, hmb _ hB, hmb _ (by omega), Nat.max_eq_right (by omega)]
    exact le_bucketCountFor (by omega)
  · rename_i hle
    cases h
    have hle : t.size + 1 ≤ maxLoadFor t.mlf t.b.size := by rw [← hok]; omega
    unfold maxLoadFor at hle
    split at hle
    · omega
    · rw [hmlf] at hle
      dsimp only at hle
      have hSC := SC_pos
      by_contra hc
      have hlt : t.b.size ≤ t.size := by omega
      have : rnd 53 (one * t.b.size) 1 ≤ t.size * 2 ^ 149 := by
        apply rnd_le (by norm_num) (by norm_num) (by omega)
        unfold one SC
        rw [Nat.mul_one, Nat.mul_comm]
        exact Nat.mul_le_mul_right _ hlt
      have hd : doubleToSize (rnd 53 (one * t.b.size) 1) ≤ t.size := by
        unfold doubleToSize
        have h64 : ¬ 2 ^ 64 * SC ≤ rnd 53 (one * t.b.size) 1 := by
          intro hc2
          have := Nat.le_of_mul_le_mul_right (hc2.trans this) (show 0 < 2 ^ 149 by norm_num)
          omega
        rw [if_neg h64]
        have := Nat.div_le_div_right (c := SC) this
        rwa [show t.size * 2 ^ 149 / SC = t.size from Nat.mul_div_cancel _ hSC] at this
      omega

end Fca

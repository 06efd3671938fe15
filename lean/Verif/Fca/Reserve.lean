/-
`reserve(n)` and the later growth tests of a closed-addressing container: monotonicity of the rounded arithmetic.
-/
import Verif.Fca.LoadBound

namespace F32

theorem rne_mono {p p' q : Nat} (h : p ≤ p') : rne p q ≤ rne p' q := by
  rcases Nat.eq_zero_or_pos q with rfl | hq
  · unfold rne; dsimp only
    simp only [Nat.div_zero, Nat.mod_zero]
    split <;> split <;> omega
  · have h1 := Nat.div_le_div_right (c := q) h
    have e1 := Nat.div_add_mod p q
    have e2 := Nat.div_add_mod p' q
    unfold rne; dsimp only
    rcases Nat.lt_or_eq_of_le h1 with h2 | h2
    · split <;> split <;> omega
    · rw [← h2] at e2 ⊢
      have : p % q ≤ p' % q := by omega
      split
      · rename_i hc
        rw [if_pos]; omega
      · split <;> omega

theorem rnd_mono {P p p' q : Nat} (hP : 0 < P) (h : p ≤ p') : rnd P p q ≤ rnd P p' q := by
  rcases Nat.eq_zero_or_pos q with rfl | hq
  · unfold rnd; dsimp only
    simp only [Nat.div_zero]
    exact Nat.mul_le_mul_right _ (rne_mono h)
  · have hdiv := Nat.div_le_div_right (c := q) h
    by_cases he : Nat.log2 (p / q) + 1 - P = Nat.log2 (p' / q) + 1 - P
    · unfold rnd; dsimp only
      rw [he]
      exact Nat.mul_le_mul_right _ (rne_mono h)
    · -- different binades
      have hlt : Nat.log2 (p / q) < Nat.log2 (p' / q) := by
        by_contra hc
        rcases Nat.eq_zero_or_pos (p / q) with h0 | h0
        · rw [h0] at hc he
          have : Nat.log2 0 = 0 := rfl
          omega
        · have h1 := Nat.log2_self_le (n := p / q) (by omega)
          have h2 : Nat.log2 (p / q) ≤ Nat.log2 (p' / q) := (Nat.le_log2 (by omega)).mpr (h1.trans hdiv)
          omega
      have hp'0 : p' / q ≠ 0 := by
        intro h0; rw [h0] at hlt; simp at hlt
      have h1 : p / q < 2 ^ (Nat.log2 (p / q) + 1) := Nat.lt_log2_self
      have h2 := Nat.log2_self_le hp'0
      have h3 : p ≤ 1 * 2 ^ (Nat.log2 (p / q) + 1) * q := by
        rw [Nat.one_mul]
        exact le_of_lt (Nat.lt_mul_of_div_lt h1 hq)
      have h4 : 1 * 2 ^ (Nat.log2 (p' / q)) * q ≤ p' := by
        rw [Nat.one_mul]; exact (Nat.le_div_iff_mul_le hq).mp h2
      have one_lt : 1 < 2 ^ P := Nat.one_lt_two_pow (by omega)
      have r1 := rnd_le hP hq one_lt h3
      have r2 := rnd_ge hP hq one_lt h4
      refine r1.trans (le_trans ?_ r2)
      rw [Nat.one_mul, Nat.one_mul]
      exact Nat.pow_le_pow_right (by norm_num) hlt

theorem ofNat_mono {n n' : Nat} (h : n ≤ n') : ofNat n ≤ ofNat n' := rnd_mono (by norm_num) (Nat.mul_le_mul_right _ h)
theorem div_mono {a a' b : Nat} (h : a ≤ a') : div a b ≤ div a' b := rnd_mono (by norm_num) (Nat.mul_le_mul_right _ h)
theorem ceilN_mono {a a' : Nat} (h : a ≤ a') : ceilN a ≤ ceilN a' := Nat.div_le_div_right (by omega)

end F32

namespace Fca
open F32 (SC SC_pos)
variable {K V : Type}

theorem doubleToSize_mono {a b : Nat} (h : a ≤ b) : doubleToSize a ≤ doubleToSize b := by
  unfold doubleToSize
  have h1 := Nat.div_le_div_right (c := SC) h
  split
  · rw [if_pos (by omega)]
  · split
    · have : a / SC < 2 ^ 64 := Nat.div_lt_of_lt_mul (by rw [Nat.mul_comm]; omega)
      unfold sizeMax; omega
    · exact h1

theorem minBuckets_mono {n n' : Nat} (m : Option Nat) (h : n ≤ n') : minBuckets n m ≤ minBuckets n' m := by
  cases m with
  | none => unfold minBuckets; dsimp only; split <;> split <;> omega
  | some m =>
    rw [minBuckets_some, minBuckets_some]
    have := doubleToSize_mono (Nat.mul_le_mul_right SC (F32.ceilN_mono (F32.div_mono (b := m) (F32.ofNat_mono h))))
    generalize doubleToSize (F32.ceilN (F32.div (F32.ofNat n) m) * SC) = a at *
    generalize doubleToSize (F32.ceilN (F32.div (F32.ofNat n') m) * SC) = b at *
    split <;> split <;> omega

theorem size_ratio : ∀ i < 38, ∀ j < 38, i < j → 18 * PrimeFmod.size i ≤ 10 * PrimeFmod.size j := by decide +kernel
theorem size_inj : ∀ i < 38, ∀ j < 38, PrimeFmod.size i < PrimeFmod.size j → i < j := by decide +kernel
theorem size_le37 : ∀ i < 37, PrimeFmod.size i < 1649267441651 := by decide +kernel

/-- a smaller request with a different bucket count: not clamped, and well apart -/
theorem bucketCountFor_apart {a b : Nat} (ha : 0 < a) (h : Gba.bucketCountFor a < Gba.bucketCountFor b) :
    a ≤ Gba.bucketCountFor a ∧ 18 * Gba.bucketCountFor a ≤ 10 * Gba.bucketCountFor b := by
  unfold Gba.bucketCountFor at *
  rw [if_neg (by omega)] at *
  by_cases hb : b = 0
  · rw [if_pos hb] at h; omega
  · rw [if_neg hb] at *
    have l38 : PrimeFmod.sizes.length = 38 := by decide
    have ia := PrimeFmod.sizeIndex_lt a
    have ib := PrimeFmod.sizeIndex_lt b
    rw [l38] at ia ib
    have hij := size_inj _ ia _ ib h
    refine ⟨?_, size_ratio _ ia _ ib hij⟩
    obtain ⟨k, e, hk, _, h2⟩ := PrimeFmod.sizeIndexFrom_spec a PrimeFmod.sizes (by decide) 0
    have e' : PrimeFmod.sizeIndex a = k := by unfold PrimeFmod.sizeIndex; omega
    rw [e'] at hij ⊢
    rcases h2 with h2 | h2
    · exact h2
    · omega

theorem bucketCountFor_mono {a b : Nat} (h : a ≤ b) : Gba.bucketCountFor a ≤ Gba.bucketCountFor b := by
  rcases Nat.eq_zero_or_pos a with rfl | ha
  · rw [bucketCountFor_zero]; omega
  · by_contra hc
    have h1 : Gba.bucketCountFor b < Gba.bucketCountFor a := by omega
    obtain ⟨h2, _⟩ := bucketCountFor_apart (by omega : 0 < b) h1
    -- a ≤ b ≤ size (index b), so the index of a is at most that of b
    unfold Gba.bucketCountFor at h1 h2
    rw [if_neg (by omega)] at h1 h2
    rw [if_neg (by omega)] at h1
    have l38 : PrimeFmod.sizes.length = 38 := by decide
    have ia := PrimeFmod.sizeIndex_lt a
    have ib := PrimeFmod.sizeIndex_lt b
    rw [l38] at ia ib
    have hij := size_inj _ ib _ ia h1
    obtain ⟨k, e, hk, h3, _⟩ := PrimeFmod.sizeIndexFrom_spec a PrimeFmod.sizes (by decide) 0
    have e' : PrimeFmod.sizeIndex a = k := by unfold PrimeFmod.sizeIndex; omega
    rw [e'] at hij
    have := h3 _ hij
    unfold PrimeFmod.size at h2
    omega

theorem rnd_zero_den {x : Nat} (hx : 0 < x) : F32.rnd 24 x 0 = 1 := by
  unfold F32.rnd F32.rne
  simp only [Nat.div_zero, Nat.zero_mul, Nat.mod_zero]
  rw [if_pos (Or.inl (by omega))]
  decide

theorem ofNat_pos {n : Nat} (h : 0 < n) : 0 < F32.ofNat n := by
  have := F32.ofNat_mono (show 1 ≤ n from h)
  have h1 : F32.ofNat 1 = 1 * SC := F32.ofNat_exact' (by norm_num)
  have := SC_pos
  omega

theorem minBuckets_zero {n : Nat} (h : 0 < n) : minBuckets n (some 0) = 1 := by
  rw [minBuckets_some]
  have : F32.div (F32.ofNat n) 0 = 1 := rnd_zero_den (Nat.mul_pos (ofNat_pos h) SC_pos)
  rw [this]
  have : F32.ceilN 1 = 1 := by
    unfold F32.ceilN
    rw [Nat.add_comm, Nat.add_sub_cancel, Nat.div_self SC_pos]
  rw [this, doubleToSize_int (by norm_num)]
  simp

/-- a larger bucket count than the one wanted for `n` elements has a maximum load of at least `n` -/
theorem maxLoad_of_apart {n m bc : Nat} (hn : 0 < n) (hn2 : n ≤ sizeMax) (hm : 0 < m)
    (h1 : minBuckets n (some m) ≤ Gba.bucketCountFor (minBuckets n (some m)))
    (h2 : 18 * Gba.bucketCountFor (minBuckets n (some m)) ≤ 10 * bc) : n ≤ maxLoadFor (some m) bc := by
  have hpos := minBuckets_pos (some m) hn
  have hb13 : 0 < Gba.bucketCountFor (minBuckets n (some m)) := by omega
  have hbc : 0 < bc := by omega
  unfold maxLoadFor
  rw [if_neg (by omega)]
  dsimp only
  -- the exact product is at least 1.7 n
  have key : 17 * (n * SC) ≤ 10 * (m * bc) := by
    by_cases hbig : m < n * SC
    · have h3 := ceil_div_lo hm hbig
      have hle : F32.ceilN (F32.div (F32.ofNat n) m) ≤ minBuckets n (some m) := by
        by_cases hsat : F32.ceilN (F32.div (F32.ofNat n) m) < 2 ^ 64
        · rw [minBuckets_some, doubleToSize_int hsat]; exact ite_ge _ _
        · exfalso
          have h4 : sizeMax ≤ minBuckets n (some m) := by
            rw [minBuckets_some]
            refine le_trans ?_ (ite_ge _ _)
            unfold doubleToSize
            rw [if_pos (Nat.mul_le_mul_right _ (by omega))]
          have h5 : Gba.bucketCountFor (minBuckets n (some m)) ≤ 1649267441651 := by
            unfold Gba.bucketCountFor
            split
            · omega
            · exact size_le _
          unfold sizeMax at h4
          omega
      have h4 : m * F32.ceilN (F32.div (F32.ofNat n) m) ≤ m * Gba.bucketCountFor (minBuckets n (some m)) :=
        Nat.mul_le_mul_left _ (hle.trans h1)
      have h5 : 18 * (m * Gba.bucketCountFor (minBuckets n (some m))) ≤ 10 * (m * bc) := by
        calc 18 * (m * Gba.bucketCountFor (minBuckets n (some m))) = m * (18 * Gba.bucketCountFor (minBuckets n (some m))) := by ring
          _ ≤ m * (10 * bc) := Nat.mul_le_mul_left _ h2
          _ = 10 * (m * bc) := by ring
      generalize m * F32.ceilN (F32.div (F32.ofNat n) m) = X at *
      generalize m * Gba.bucketCountFor (minBuckets n (some m)) = Y at *
      generalize n * SC = z at *
      omega
    · have h3 : 13 ≤ Gba.bucketCountFor (minBuckets n (some m)) := by
        unfold Gba.bucketCountFor
        rw [if_neg (by omega)]
        exact le_size _ (PrimeFmod.sizeIndex_lt _)
      have h4 : m * 2 ≤ m * bc := Nat.mul_le_mul_left _ (by omega)
      omega
  have hSC := SC_pos
  have hnSC : SC ≤ n * SC := Nat.le_mul_of_pos_left _ hn
  have hge : 2 ^ (53 - 1) * 1 ≤ m * bc := by
    have : 2 ^ 149 ≤ n * SC := hnSC
    have h5 : (2 : Nat) ^ (53 - 1) * 1 ≤ 2 ^ 149 := by norm_num
    omega
  have hlo := F32.rnd_lo (P := 53) (by norm_num) Nat.one_pos hge
  have hfin : n * SC ≤ F32.rnd 53 (m * bc) 1 := by
    generalize F32.rnd 53 (m * bc) 1 = R at *
    generalize m * bc = X at *
    generalize n * SC = z at *
    omega
  unfold doubleToSize
  split
  · exact hn2
  · exact (Nat.le_div_iff_mul_le hSC).mpr hfin
where
  size_le (n : Nat) : PrimeFmod.size (PrimeFmod.sizeIndex n) ≤ 1649267441651 := by
    have : ∀ i < 38, PrimeFmod.size i ≤ 1649267441651 := by decide +kernel
    have l38 : PrimeFmod.sizes.length = 38 := by decide
    exact this _ (by have := PrimeFmod.sizeIndex_lt n; omega)
  le_size (i : Nat) (h : i < PrimeFmod.sizes.length) : 13 ≤ PrimeFmod.size i := by
    have : ∀ i < 38, 13 ≤ PrimeFmod.size i := by decide +kernel
    have l38 : PrimeFmod.sizes.length = 38 := by decide
    exact this _ (by omega)

/-- Once the bucket count is that for `N` elements, the growth test of an insertion that leads to at most `N` elements does not
change it. -/
theorem growForOne_stable {t t1 : Table K V} (hs : SInv t) (hok : MlOk t) {N : Nat} (hN : t.size + 1 ≤ N)
    (hN2 : N ≤ sizeMax) (hb : t.b.size = Gba.bucketCountFor (minBuckets N t.mlf)) (h : t.growForOne = some t1) :
    t1 = t := by
  unfold Table.growForOne at h
  split at h
  · rename_i hlt
    obtain ⟨t1', h1, h2, h3⟩ := rehash_spec hs (minBuckets (t.size + 1) t.mlf)
    have h1' : t.reserve (t.size + 1) = some t1' := h1
    rw [h] at h1'; cases h1'
    have hmax : max (minBuckets t.size t.mlf) (minBuckets (t.size + 1) t.mlf) = minBuckets (t.size + 1) t.mlf :=
      Nat.max_eq_right (minBuckets_mono _ (by omega))
    rw [hmax] at h3
    suffices hsz : t1.b.size = t.b.size by
      have h4 : t.rehash (minBuckets (t.size + 1) t.mlf) = some t1 := h
      unfold Table.rehash at h4
      rw [hmax, ← h3, hsz] at h4
      dsimp only at h4
      rw [if_neg (by intro hc; exact hc rfl)] at h4
      cases h4; rfl
    rw [h3, hb]
    have hmono := bucketCountFor_mono (minBuckets_mono t.mlf hN)
    by_contra hne
    have hlt' : Gba.bucketCountFor (minBuckets (t.size + 1) t.mlf) < Gba.bucketCountFor (minBuckets N t.mlf) := by omega
    obtain ⟨a1, a2⟩ := bucketCountFor_apart (minBuckets_pos t.mlf (by omega)) hlt'
    rw [← hb] at a2
    rw [show t.maxLoad = maxLoadFor t.mlf t.b.size from hok] at hlt
    cases hm : t.mlf with
    | none =>
      rw [hm] at hlt'
      have e1 : minBuckets (t.size + 1) none = 1 := by unfold minBuckets; simp
      have e2 : minBuckets N none = 1 := by unfold minBuckets; simp; omega
      rw [e1, e2] at hlt'; omega
    | some m =>
      rw [hm] at hlt hlt' a1 a2
      rcases Nat.eq_zero_or_pos m with rfl | hm0
      · rw [minBuckets_zero (by omega), minBuckets_zero (by omega)] at hlt'; omega
      · have := maxLoad_of_apart (by omega) (by omega) hm0 a1 a2
        omega
  · cases h; rfl

end Fca

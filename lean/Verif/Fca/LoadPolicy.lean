/-
What the bucket-count arithmetic of the closed-addressing containers guarantees, as a `Policy`: a relation "`n` elements are allowed in
`bc` buckets" that every way of choosing a bucket count (`min_buckets`, `reserve_for_insert`, `recalculate_max_load`) respects for up to
`N` elements. Two instances: with the rounding error of single precision, for any maximum load factor; exact, for maximum load factor 1.
-/
import Verif.Fca.LoadBound
import Verif.Fca.Reserve

namespace F32

/-- a rounded value is representable -/
theorem rnd_form (p q : Nat) : ∃ k f, rnd 24 p q = k * 2 ^ f ∧ (2 ^ 24 < k → False) ∨ q = 0 := by
  by_cases hq : q = 0
  · exact ⟨0, 0, Or.inr hq⟩
  have hq' : 0 < q := by omega
  refine ⟨rne p (q * 2 ^ (Nat.log2 (p / q) + 1 - 24)), Nat.log2 (p / q) + 1 - 24, Or.inl ⟨rfl, ?_⟩⟩
  intro h
  refine absurd h (Nat.not_lt.2 ?_)
  have hQ : 0 < q * 2 ^ (Nat.log2 (p / q) + 1 - 24) := Nat.mul_pos hq' (Nat.two_pow_pos _)
  apply rne_le hQ
  have h1 : p / q < 2 ^ (Nat.log2 (p / q) + 1) := Nat.lt_log2_self
  have h2 : p < 2 ^ (Nat.log2 (p / q) + 1) * q := by
    exact Nat.lt_mul_of_div_lt h1 hq'
  have h3 : 2 ^ (Nat.log2 (p / q) + 1) ≤ 2 ^ 24 * 2 ^ (Nat.log2 (p / q) + 1 - 24) := by
    rw [← pow_add]
    exact Nat.pow_le_pow_right (by norm_num) (by omega)
  calc p ≤ 2 ^ (Nat.log2 (p / q) + 1) * q := h2.le
    _ ≤ 2 ^ 24 * 2 ^ (Nat.log2 (p / q) + 1 - 24) * q := Nat.mul_le_mul_right _ h3
    _ = _ := by ring

/-- rounding does not go below a representable value -/
theorem rnd_ge_rnd {p q x : Nat} (hq : 0 < q) (h : rnd 24 p q ≤ x) : rnd 24 p q ≤ rnd 24 x 1 := by
  obtain ⟨k, f, ⟨h1, h2⟩ | h1⟩ := rnd_form p q
  · rw [h1] at h ⊢
    by_cases hk : k < 2 ^ 24
    · exact rnd_ge (by norm_num) Nat.one_pos hk (by omega)
    · have hk : k = 2 ^ 24 := by
        have : ¬ 2 ^ 24 < k := fun h => h2 h
        omega
      subst hk
      have e : 2 ^ 24 * 2 ^ f = 1 * 2 ^ (24 + f) := by rw [pow_add]; ring
      rw [e] at h ⊢
      exact rnd_ge (by norm_num) Nat.one_pos (by norm_num) (by omega)
  · omega

/-- a large rounded value is an integer -/
theorem rnd_int {x : Nat} (h : 2 ^ 24 * SC ≤ x) : SC ∣ rnd 24 x 1 := by
  unfold rnd; dsimp only
  rw [Nat.div_one]
  have h1 : 2 ^ 173 ≤ x := by
    have : (2 : Nat) ^ 24 * SC = 2 ^ 173 := by unfold SC; norm_num
    omega
  have h2 : 173 ≤ Nat.log2 x := by
    rw [Nat.le_log2 (by have := Nat.two_pow_pos 173; omega)]; exact h1
  have : SC ∣ 2 ^ (Nat.log2 x + 1 - 24) := by
    unfold SC
    exact pow_dvd_pow 2 (by omega)
  exact Dvd.dvd.mul_left this _

end F32

namespace Fca
open F32

/-- the number of buckets `1.0f+ceil(n/mlf)` of `reserve_for_insert` -/
theorem insert_request {D : Nat} (hD : ∃ p q, 0 < q ∧ D = rnd 24 p q) (hB : ceilN D ≤ 2 ^ 40 + 1) :
    ∃ w, doubleToSize (F32.add one (ceilN D * SC)) = w ∧ D ≤ w * SC ∧ w ≤ 5 * 2 ^ 38 ∧ (ceilN D ≤ 2 ^ 24 → ceilN D ≤ w) := by
  obtain ⟨p, q, hq, rfl⟩ := hD
  have hSC := SC_pos
  have hone : one = SC := rfl
  have hx : one + ceilN (rnd 24 p q) * SC = (ceilN (rnd 24 p q) + 1) * SC := by rw [hone]; ring
  have hle := le_ceilN_mul (rnd 24 p q)
  have hge : rnd 24 p q ≤ F32.add one (ceilN (rnd 24 p q) * SC) := by
    unfold F32.add
    apply rnd_ge_rnd hq
    rw [hone]; omega
  unfold F32.add at hge ⊢
  rw [hx] at hge ⊢
  generalize ceilN (rnd 24 p q) = C at *
  have hup : rnd 24 ((C + 1) * SC) 1 ≤ 5 * 2 ^ 38 * SC := by
    have := rnd_le (P := 24) (p := (C + 1) * SC) (q := 1) (m := 5) (f := 38 + 149) (by norm_num) Nat.one_pos (by norm_num) (by
      have e : 5 * 2 ^ (38 + 149) * 1 = 5 * 2 ^ 38 * SC := by unfold SC; norm_num
      rw [e]
      exact Nat.mul_le_mul_right _ (by omega))
    have e : 5 * 2 ^ (38 + 149) = 5 * 2 ^ 38 * SC := by unfold SC; norm_num
    rwa [e] at this
  have hd : doubleToSize (rnd 24 ((C + 1) * SC) 1) = rnd 24 ((C + 1) * SC) 1 / SC := by
    unfold doubleToSize
    rw [if_neg]
    intro hc
    have := Nat.le_of_mul_le_mul_right (hc.trans hup) hSC
    omega
  rw [hd]
  refine ⟨_, rfl, ?_, ?_, ?_⟩
  · by_cases hC : 2 ^ 24 ≤ C + 1
    · have := rnd_int (x := (C + 1) * SC) (Nat.mul_le_mul_right _ hC)
      rw [Nat.div_mul_cancel this]
      exact hge
    · have e : rnd 24 ((C + 1) * SC) 1 = (C + 1) * SC := F32.ofNat_exact' (by omega)
      rw [e, Nat.mul_div_cancel _ hSC]
      refine hle.trans (Nat.mul_le_mul_right _ (by omega))
  · exact (Nat.div_le_div_right hup).trans (by rw [Nat.mul_div_cancel _ hSC])
  · intro hC
    by_cases hC' : C + 1 < 2 ^ 24
    · have e : rnd 24 ((C + 1) * SC) 1 = (C + 1) * SC := F32.ofNat_exact' (by omega)
      rw [e, Nat.mul_div_cancel _ hSC]; omega
    · by_cases hC2 : C + 1 = 2 ^ 24
      · have e : rnd 24 ((C + 1) * SC) 1 = 1 * 2 ^ 24 * SC := by
          rw [hC2]; exact F32.ofNat_exact (m := 1) (f := 24) (by norm_num)
        rw [e, Nat.mul_div_cancel _ hSC]; omega
      · have hC3 : C = 2 ^ 24 := by omega
        rw [Nat.le_div_iff_mul_le hSC]
        have := rnd_ge (P := 24) (p := (C + 1) * SC) (q := 1) (m := 1) (f := 24 + 149) (by norm_num) Nat.one_pos (by norm_num) (by
          have e : 1 * 2 ^ (24 + 149) * 1 = 2 ^ 24 * SC := by unfold SC; norm_num
          rw [e]; exact Nat.mul_le_mul_right _ (by omega))
        have e : 1 * 2 ^ (24 + 149) = 2 ^ 24 * SC := by unfold SC; norm_num
        rw [e] at this
        rw [hC3] at this ⊢; exact this

/-- "`n` elements are allowed in `bc` buckets", respected by the code for maximum load factor `m` and up to `N` elements -/
structure Policy where
  m : Nat
  N : Nat
  ok : Nat → Nat → Prop
  zero : ∀ bc, ok 0 bc
  mono : ∀ {n n' bc bc'}, ok n bc → n' ≤ n → bc ≤ bc' → ok n' bc'
  minb : ∀ {n}, 0 < n → n ≤ N → ok n (Gba.bucketCountFor (minBuckets n (some m)))
  ins : ∀ {n bc}, 0 < n → n ≤ N → ok n (Gba.bucketCountFor (insertBuckets n (some m) bc))
  maxl : ∀ {n bc}, 0 < n → n ≤ N → n ≤ maxLoadFor (some m) bc → ok n bc

theorem maxLoadFor_load {n m bc : Nat} (hn : 0 < n) (hle : n ≤ maxLoadFor (some m) bc) (h38 : n ≤ 2 ^ 63) :
    n * SC * (2 ^ 23 - 1) ≤ m * bc * 2 ^ 23 := by
  unfold maxLoadFor at hle
  split at hle
  · omega
  · dsimp only at hle
    have hd : n * SC ≤ F32.rnd 53 (m * bc) 1 := by
      unfold doubleToSize at hle
      split at hle
      · rename_i hc
        refine (Nat.mul_le_mul_right _ ?_).trans hc
        omega
      · exact (Nat.le_div_iff_mul_le SC_pos).mp hle
    have hge : 2 ^ (53 - 1) * 1 ≤ m * bc := by
      by_contra hc
      have := rnd_le (P := 53) (p := m * bc) (q := 1) (m := 1) (f := 52) (by norm_num) (by norm_num) (by norm_num)
        (by omega)
      have h2 : 1 * SC ≤ n * SC := Nat.mul_le_mul_right _ (by omega)
      have : SC ≤ 1 * 2 ^ 52 := by omega
      unfold SC at this
      norm_num at this
    have := rnd_hi (P := 53) (by norm_num) Nat.one_pos hge
    exact aux3 _ _ _ this hd

theorem insertBuckets_some (n m bc : Nat) : insertBuckets n (some m) bc =
    max (doubleToSize (F32.add one (F32.ceilN (F32.div (F32.ofNat n) m) * F32.SC))) (bc + 1) := rfl

/-- the request of `reserve_for_insert` without rounding `1.0f+...` away -/
theorem request_lo {n m w : Nat} (hm : 0 < m) (hbig : m < n * SC) (hw : F32.div (F32.ofNat n) m ≤ w * SC) :
    n * SC * (2 ^ 23 - 1) ≤ m * w * 2 ^ 23 := by
  have h1 : n * SC * 2 ^ 24 ≤ F32.ofNat n * 2 ^ 24 + n * SC := ofNat_lo n
  have hA : n * SC ≤ 2 * F32.ofNat n := by
    generalize F32.ofNat n = A at *
    generalize n * SC = z at *
    omega
  have h2 := rnd_lo (P := 24) (p := F32.ofNat n * SC) (q := m) (by norm_num) hm (by
    have : m * 2 ^ 23 ≤ 2 * F32.ofNat n * 2 ^ 23 := Nat.mul_le_mul_right _ (by omega)
    calc 2 ^ (24 - 1) * m = m * 2 ^ 23 := by ring
      _ ≤ 2 * F32.ofNat n * 2 ^ 23 := this
      _ = F32.ofNat n * 2 ^ 24 := by ring
      _ ≤ F32.ofNat n * SC := Nat.mul_le_mul_left _ (by unfold SC; norm_num))
  change _ ≤ m * F32.div (F32.ofNat n) m * 2 ^ 24 + _ at h2
  generalize F32.div (F32.ofNat n) m = D at *
  generalize F32.ofNat n = A at *
  have hSC := SC_pos
  have h4 : A * (2 ^ 24 - 1) ≤ m * w * 2 ^ 24 := by
    have e1 : A * SC * (2 ^ 24 - 1) ≤ m * D * 2 ^ 24 := aux1 _ _ h2
    have e2 : m * D ≤ m * w * SC := by
      calc m * D ≤ m * (w * SC) := Nat.mul_le_mul_left _ hw
        _ = m * w * SC := by ring
    have e3 : A * (2 ^ 24 - 1) * SC ≤ m * w * 2 ^ 24 * SC := by
      calc A * (2 ^ 24 - 1) * SC = A * SC * (2 ^ 24 - 1) := by ring
        _ ≤ m * D * 2 ^ 24 := e1
        _ ≤ m * w * SC * 2 ^ 24 := Nat.mul_le_mul_right _ e2
        _ = m * w * 2 ^ 24 * SC := by ring
    exact Nat.le_of_mul_le_mul_right e3 hSC
  exact aux2 _ _ _ h1 h4

theorem capped {w b : Nat} (hw : w ≤ b) (hc : w ≤ 1649267441651) : w ≤ Gba.bucketCountFor b :=
  (le_bucketCountFor hc).trans (bucketCountFor_mono hw)

/-- any maximum load factor, with the relative error of single precision -/
def rounded (m N : Nat) (hm : 0 < m) (hB : N * SC ≤ m * 2 ^ 38) (hN : N ≤ 2 ^ 63) : Policy where
  m := m
  N := N
  ok n bc := n * SC * (2 ^ 23 - 1) ≤ m * bc * 2 ^ 23
  zero bc := by simp
  mono := by
    intro n n' bc bc' h h1 h2
    calc n' * SC * (2 ^ 23 - 1) ≤ n * SC * (2 ^ 23 - 1) := Nat.mul_le_mul_right _ (Nat.mul_le_mul_right _ h1)
      _ ≤ m * bc * 2 ^ 23 := h
      _ ≤ m * bc' * 2 ^ 23 := Nat.mul_le_mul_right _ (Nat.mul_le_mul_left _ h2)
  minb := by
    intro n hn hle
    have b1 := minBuckets_bounds (n := n) hm ((Nat.mul_le_mul_right _ hle).trans hB)
    refine (b1.2 hn).trans (Nat.mul_le_mul_right _ (Nat.mul_le_mul_left _ ?_))
    exact le_bucketCountFor (b1.1.trans (by norm_num))
  ins := by
    intro n bc hn hle
    have h1 := ceil_div_hi (n := n) (B := 2 ^ 38) hm ((Nat.mul_le_mul_right _ hle).trans hB)
    obtain ⟨w, e1, e2, e3, _⟩ := insert_request (D := F32.div (F32.ofNat n) m) ⟨_, _, hm, rfl⟩ (h1.trans (by norm_num))
    rw [insertBuckets_some, e1]
    by_cases hbig : m < n * SC
    · refine (request_lo hm hbig e2).trans (Nat.mul_le_mul_right _ (Nat.mul_le_mul_left _ ?_))
      exact capped (Nat.le_max_left _ _) (e3.trans (by norm_num))
    · have h3 : 1 ≤ Gba.bucketCountFor (max w (bc + 1)) := Gba.bucketCountFor_pos (by omega)
      generalize Gba.bucketCountFor (max w (bc + 1)) = W at *
      have h4 : m * 1 ≤ m * W := Nat.mul_le_mul_left _ h3
      generalize m * W = z at *
      generalize n * SC = y at *
      omega
  maxl := fun hn hle h => maxLoadFor_load hn h (hle.trans hN)

theorem ofNat_small {n : Nat} (hn : n ≤ 2 ^ 24) : F32.ofNat n = n * SC := by
  by_cases he : n = 2 ^ 24
  · subst he
    have := F32.ofNat_exact (m := 1) (f := 24) (by norm_num)
    simpa using this
  · exact F32.ofNat_exact' (by omega)

theorem div_one_small {n : Nat} (hn : n ≤ 2 ^ 24) : F32.div (n * SC) one = n * SC := by
  unfold F32.div one
  have hSC := SC_pos
  by_cases he : n = 2 ^ 24
  · subst he
    refine Nat.le_antisymm ?_ ?_
    · have := rnd_le (P := 24) (p := 2 ^ 24 * SC * SC) (q := SC) (m := 1) (f := 24 + 149) (by norm_num) hSC (by norm_num)
        (by unfold SC; norm_num)
      refine this.trans (by unfold SC; norm_num)
    · have := rnd_ge (P := 24) (p := 2 ^ 24 * SC * SC) (q := SC) (m := 1) (f := 24 + 149) (by norm_num) hSC (by norm_num)
        (by unfold SC; norm_num)
      refine le_trans (by unfold SC; norm_num) this
  · have hn' : n < 2 ^ 24 := by omega
    refine Nat.le_antisymm ?_ ?_
    · exact rnd_le (P := 24) (f := 149) (by norm_num) hSC hn' (le_refl _)
    · exact rnd_ge (P := 24) (f := 149) (by norm_num) hSC hn' (le_refl _)

theorem ceilN_int (n : Nat) : F32.ceilN (n * SC) = n := by
  unfold F32.ceilN
  have hSC := SC_pos
  apply Nat.div_eq_of_lt_le
  · omega
  · rw [Nat.succ_mul]; omega

theorem minBuckets_one {n : Nat} (hn : n ≤ 2 ^ 24) : minBuckets n (some one) = n := by
  rw [minBuckets_some, ofNat_small hn, div_one_small hn, ceilN_int, doubleToSize_int (by omega)]
  split <;> omega

theorem maxLoadFor_one {n bc : Nat} (hn : n ≤ 2 ^ 24) (hle : n ≤ maxLoadFor (some one) bc) : n ≤ bc := by
  unfold maxLoadFor at hle
  split at hle
  · omega
  · dsimp only at hle
    have hSC := SC_pos
    by_contra hc
    have : rnd 53 (one * bc) 1 ≤ bc * 2 ^ 149 := by
      apply rnd_le (by norm_num) (by norm_num) (by omega)
      unfold one SC
      rw [Nat.mul_one, Nat.mul_comm]
    have hd : doubleToSize (rnd 53 (one * bc) 1) ≤ bc := by
      unfold doubleToSize
      have h64 : ¬ 2 ^ 64 * SC ≤ rnd 53 (one * bc) 1 := by
        intro hc2
        have := Nat.le_of_mul_le_mul_right (hc2.trans this) (show 0 < 2 ^ 149 by norm_num)
        omega
      rw [if_neg h64]
      have := Nat.div_le_div_right (c := SC) this
      rwa [show bc * 2 ^ 149 / SC = bc from Nat.mul_div_cancel _ hSC] at this
    omega

/-- maximum load factor 1.0: exact up to 2^24 elements -/
def exact : Policy where
  m := one
  N := 2 ^ 24
  ok n bc := n ≤ bc
  zero bc := Nat.zero_le _
  mono := by intro n n' bc bc' h h1 h2; omega
  minb := by
    intro n hn hle
    rw [minBuckets_one hle]
    exact le_bucketCountFor (by omega)
  ins := by
    intro n bc hn hle
    have e : F32.ceilN (F32.div (F32.ofNat n) one) = n := by rw [ofNat_small hle, div_one_small hle, ceilN_int]
    obtain ⟨w, e1, _, e3, e4⟩ := insert_request (D := F32.div (F32.ofNat n) one) ⟨_, _, SC_pos, rfl⟩ (by rw [e]; omega)
    rw [e] at e1 e4
    rw [insertBuckets_some, e, e1]
    exact (e4 hle).trans (capped (Nat.le_max_left _ _) (e3.trans (by norm_num)))
  maxl := fun _ hle h => maxLoadFor_one hle h

end Fca

/-
Model of the open-addressing size policy and prober.
Source: /repo/include/boost/unordered/detail/foa/core.hpp
-/
import Mathlib.Data.Nat.Basic
import Mathlib.Data.List.Perm.Basic
import Mathlib.Data.List.Nodup
import Mathlib.Data.Nat.ModEq
import Mathlib.Data.Nat.Prime.Basic
import Mathlib.Tactic.Ring
import Mathlib.Tactic.Linarith

namespace Foa

/-- Number of element slots per group (core.hpp:222, `group15::N`). -/
abbrev N : Nat := 15

/-- `boost::core::bit_width` of an unsigned value (used in core.hpp:836-837): number of bits needed. -/
def bitWidth (n : Nat) : Nat := if n = 0 then 0 else Nat.log2 n + 1

/-- `pow2_size_policy::size_index` (core.hpp:831-838), for 64-bit `size_t`. -/
def sizeIndex (n : Nat) : Nat := 64 - (if n ≤ 2 then 1 else bitWidth (n - 1))

/-- `pow2_size_policy::size` (core.hpp:840-843). -/
def sizeOf' (idx : Nat) : Nat := 1 <<< (64 - idx)

/-- `pow2_size_policy::position` (core.hpp:847-850): the high bits of the hash. -/
def position (hash idx : Nat) : Nat := hash >>> idx

/-- `size_index_for` (core.hpp:855-860): group-array size index for an element capacity `n`. -/
def sizeIndexFor (n : Nat) : Nat := sizeIndex (n / N + 1)

/-- `pow2_quadratic_prober` (core.hpp:867-890): current position and step. -/
structure Prober where
  pos : Nat
  step : Nat
deriving DecidableEq, Repr

/-- Constructor `pow2_quadratic_prober(pos_)` (core.hpp:869,889). -/
def Prober.init (p : Nat) : Prober := ⟨p, 0⟩

/-- `pow2_quadratic_prober::next` (core.hpp:879-884): the advanced prober and the returned bool. -/
def Prober.next (pb : Prober) (mask : Nat) : Prober × Bool :=
  let s := pb.step + 1
  (⟨(pb.pos + s) &&& mask, s⟩, decide (s ≤ mask))

/-- Positions visited by `do{ ..get().. }while(pb.next(mask))` (core.hpp:1724-1748), at most `fuel` of them.
Simplification: the loop is turned into the list of positions it visits. -/
def Prober.run (mask : Nat) : Nat → Prober → List Nat
  | 0, _ => []
  | fuel + 1, pb => pb.pos :: (if (pb.next mask).2 then Prober.run mask fuel (pb.next mask).1 else [])

/-- The whole probe sequence of a group array of size `mask+1` starting at `pos0`. The fuel `mask+2` is never exhausted
(`Prober.run_fuel` below): the loop ends because `next` answers false. -/
def probeSeq (mask pos0 : Nat) : List Nat := Prober.run mask (mask + 2) (Prober.init pos0)

/-! ### Lemmas -/

theorem run_eq (mask : Nat) : ∀ (fuel : Nat) (p s : Nat), s ≤ mask → mask + 1 - s ≤ fuel →
    ∀ f', mask + 1 - s ≤ f' → Prober.run mask fuel ⟨p, s⟩ = Prober.run mask f' ⟨p, s⟩ := by
  intro fuel
  induction fuel with
  | zero => intro p s h1 h2; omega
  | succ n ih =>
    intro p s h1 h2 f' h3
    cases f' with
    | zero => omega
    | succ m =>
      simp only [Prober.run, Prober.next]
      by_cases hs : s + 1 ≤ mask
      · simp only [hs, decide_true, if_true]
        rw [ih _ _ hs (by omega) m (by omega)]
      · simp [hs]

/-- Any larger fuel gives the same sequence: the loop terminates by itself. -/
theorem Prober.run_fuel (mask pos0 f : Nat) (hf : mask + 1 ≤ f) :
    Prober.run mask f (Prober.init pos0) = probeSeq mask pos0 :=
  run_eq mask _ _ _ (Nat.zero_le _) (by omega) _ (by omega)

/-- closed form of the position after `i` steps from step `s` -/
def tri (i : Nat) : Nat := i * (i + 1) / 2

theorem two_tri (i : Nat) : 2 * tri i = i * (i + 1) := by
  unfold tri
  have : 2 ∣ i * (i + 1) := (Nat.even_mul_succ_self i).two_dvd
  omega

theorem tri_succ (i : Nat) : tri (i + 1) = tri i + (i + 1) := by
  have h1 := two_tri i; have h2 := two_tri (i + 1)
  have : (i + 1) * (i + 1 + 1) = i * (i + 1) + 2 * (i + 1) := by ring
  omega

theorem run_map (k : Nat) (p : Nat) : ∀ (fuel s : Nat), s ≤ 2 ^ k - 1 → 2 ^ k - s ≤ fuel →
    Prober.run (2 ^ k - 1) fuel ⟨(p + tri s) % 2 ^ k, s⟩ =
      (List.range' s (2 ^ k - s)).map (fun i => (p + tri i) % 2 ^ k) := by
  intro fuel
  induction fuel with
  | zero => intro s h1 h2; have := Nat.two_pow_pos k; omega
  | succ n ih =>
    intro s h1 h2
    have hk := Nat.two_pow_pos k
    obtain ⟨d, hd⟩ : ∃ d, 2 ^ k - s = d + 1 := ⟨2 ^ k - s - 1, by omega⟩
    rw [hd, List.range'_succ, List.map_cons]
    simp only [Prober.run, Prober.next]
    congr 1
    by_cases hs : s + 1 ≤ 2 ^ k - 1
    · simp only [hs, decide_true, if_true]
      have e : ((p + tri s) % 2 ^ k + (s + 1)) &&& (2 ^ k - 1) = (p + tri (s + 1)) % 2 ^ k := by
        rw [Nat.and_two_pow_sub_one_eq_mod, tri_succ, Nat.mod_add_mod, Nat.add_assoc]
      rw [e, ih (s + 1) hs (by omega)]
      congr 2
      omega
    · have : d = 0 := by omega
      simp [hs, this]

theorem probeSeq_eq (k pos0 : Nat) (hp : pos0 < 2 ^ k) :
    probeSeq (2 ^ k - 1) pos0 = (List.range (2 ^ k)).map (fun i => (pos0 + tri i) % 2 ^ k) := by
  have hk := Nat.two_pow_pos k
  have h := run_map k pos0 (2 ^ k - 1 + 2) 0 (by omega) (by omega)
  unfold probeSeq Prober.init
  have t0 : tri 0 = 0 := rfl
  rw [t0, show (pos0 + 0) % 2 ^ k = pos0 from Nat.mod_eq_of_lt hp] at h
  rw [h, List.range_eq_range']
  simp

theorem tri_inj_aux (k i j : Nat) (hij : i ≤ j) (hj : j < 2 ^ k)
    (h : tri i % 2 ^ k = tri j % 2 ^ k) : i = j := by
  by_contra hne
  have hlt : i < j := by omega
  have hm : tri i ≤ tri j := by
    have h1 := two_tri i; have h2 := two_tri j
    have : i * (i + 1) ≤ j * (j + 1) := Nat.mul_le_mul hij (by omega)
    omega
  have hd : 2 ^ k ∣ tri j - tri i := (Nat.modEq_iff_dvd' hm).mp h
  have h1 := two_tri i; have h2 := two_tri j
  obtain ⟨d, rfl⟩ : ∃ d, j = i + d := ⟨j - i, by omega⟩
  have e : 2 * (tri (i + d) - tri i) = d * (2 * i + d + 1) := by
    have : (i + d) * (i + d + 1) = i * (i + 1) + d * (2 * i + d + 1) := by ring
    omega
  have hd2 : 2 ^ (k + 1) ∣ d * (2 * i + d + 1) := by
    rw [← e, pow_succ, Nat.mul_comm]
    exact Nat.mul_dvd_mul_left 2 hd
  have hdpos : 0 < d := by omega
  rcases Nat.even_or_odd d with he | ho
  · have hodd : Odd (2 * i + d + 1) := by
      obtain ⟨c, rfl⟩ := he
      exact ⟨i + c, by ring⟩
    have hc : Nat.Coprime (2 ^ (k + 1)) (2 * i + d + 1) := by
      apply Nat.Coprime.pow_left
      exact (Nat.coprime_two_left).mpr hodd
    have := Nat.le_of_dvd hdpos (hc.dvd_of_dvd_mul_right hd2)
    have : 2 ^ (k + 1) = 2 * 2 ^ k := by ring
    omega
  · have hc : Nat.Coprime (2 ^ (k + 1)) d := by
      apply Nat.Coprime.pow_left
      exact (Nat.coprime_two_left).mpr ho
    have := Nat.le_of_dvd (by omega) (hc.dvd_of_dvd_mul_left hd2)
    have : 2 ^ (k + 1) = 2 * 2 ^ k := by ring
    omega

theorem tri_inj (k i j : Nat) (hi : i < 2 ^ k) (hj : j < 2 ^ k)
    (h : tri i % 2 ^ k = tri j % 2 ^ k) : i = j := by
  rcases Nat.le_total i j with hij | hij
  · exact tri_inj_aux k i j hij hj h
  · exact (tri_inj_aux k j i hij hi h.symm).symm

theorem probeSeq_nodup (k pos0 : Nat) (hp : pos0 < 2 ^ k) : (probeSeq (2 ^ k - 1) pos0).Nodup := by
  rw [probeSeq_eq k pos0 hp]
  refine (List.nodup_range).map_on ?_
  intro i hi j hj h
  have hi := List.mem_range.mp hi
  have hj := List.mem_range.mp hj
  apply tri_inj k i j hi hj
  exact Nat.ModEq.add_left_cancel' pos0 h

theorem probeSeq_lt (k pos0 : Nat) (hp : pos0 < 2 ^ k) : ∀ x ∈ probeSeq (2 ^ k - 1) pos0, x < 2 ^ k := by
  rw [probeSeq_eq k pos0 hp]
  intro x hx
  obtain ⟨i, _, rfl⟩ := List.mem_map.mp hx
  exact Nat.mod_lt _ (Nat.two_pow_pos k)

theorem probeSeq_length (k pos0 : Nat) (hp : pos0 < 2 ^ k) : (probeSeq (2 ^ k - 1) pos0).length = 2 ^ k := by
  rw [probeSeq_eq k pos0 hp]; simp

theorem probeSeq_perm (k pos0 : Nat) (hp : pos0 < 2 ^ k) :
    (probeSeq (2 ^ k - 1) pos0).Perm (List.range (2 ^ k)) := by
  have hnd := probeSeq_nodup k pos0 hp
  have hsub : (probeSeq (2 ^ k - 1) pos0) ⊆ List.range (2 ^ k) := fun x hx =>
    List.mem_range.mpr (probeSeq_lt k pos0 hp x hx)
  have hsp := List.subperm_of_subset hnd hsub
  exact hsp.perm_of_length_le (by rw [probeSeq_length k pos0 hp]; simp)

theorem mem_probeSeq (k pos0 g : Nat) (hp : pos0 < 2 ^ k) (hg : g < 2 ^ k) : g ∈ probeSeq (2 ^ k - 1) pos0 :=
  (probeSeq_perm k pos0 hp).mem_iff.mpr (List.mem_range.mpr hg)

theorem position_lt (hash k : Nat) (hh : hash < 2 ^ 64) : position hash (64 - k) < 2 ^ k := by
  unfold position
  rw [Nat.shiftRight_eq_div_pow]
  apply Nat.div_lt_of_lt_mul
  calc hash < 2 ^ 64 := hh
    _ ≤ 2 ^ (64 - k + k) := Nat.pow_le_pow_right (by norm_num) (by omega)
    _ = _ := by rw [pow_add]

end Foa

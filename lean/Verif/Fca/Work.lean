/-
Array work done by insertions of the closed-addressing containers: the model of `Verif/Fca/Table.lean` with counters for
everything whose amount depends on the size of the arrays.
Sources: /repo/include/boost/unordered/detail/implementation.hpp, /repo/include/boost/unordered/detail/fca.hpp.

Not counted: walking the bucket the key leads to (its length depends on the hash function), allocation of the node itself,
and the constant amount of work per call.
-/
import Verif.SpecCost
import Verif.Foa.Work
import Verif.Fca.Reserve

namespace Fca.Cost
open SpecCost (Work Call)
variable {K V : Type}

/-- The loop of `rehash_impl` (implementation.hpp:2766-2777) with the counter of nodes transferred (`transfer_node`,
implementation.hpp:1802-1809). -/
def fillFrontW (fns : Fns K) : List (K × V) → Gba (K × V) → Option (Gba (K × V) × Nat)
  | [], nb => some (nb, 0)
  | x :: xs, nb =>
    match nb.insertNode (nb.at_ (nb.position (fns.hash x.1))) x with
    | none => none
    | some nb' => (fillFrontW fns xs nb').map (fun r => (r.1, r.2 + 1))

/-- Constructing the bucket array (fca.hpp:546-594): two allocations, `size_+1` buckets and `size_/64+1` groups constructed;
nothing for no buckets. -/
def newWork (a : Gba (K × V)) : Work := if a.size = 0 then {} else { inited := (a.size + 1) + (a.size / 64 + 1), allocs := 2 }

/-- `rehash_impl` (implementation.hpp:2759-2801): every old bucket is visited. -/
def rehashImplW (t : Table K V) (n : Nat) : Option (Table K V × Work) :=
  match fillFrontW t.fns t.b.contents (Gba.new n t.al) with
  | none => none
  | some (nb, m) =>
    match t.b.dealloc t.al with
    | none => none
    | some _ => some ({ t with b := nb, maxLoad := maxLoadFor t.mlf nb.size },
        (newWork (Gba.new n t.al : Gba (K × V))).add { moved := m, scanned := t.b.size })

/-- `rehash` (implementation.hpp:2729-2737). -/
def rehashW (t : Table K V) (n : Nat) : Option (Table K V × Work) :=
  let nb := Gba.bucketCountFor (max (minBuckets t.size t.mlf) n)
  if nb ≠ t.bucketCount then rehashImplW t nb else some (t, {})

/-- `if(size_+1>max_load_) reserve(size_+1)` (implementation.hpp:1877-1880, 2457-2460, 2740-2744). -/
def growForOneW (t : Table K V) : Option (Table K V × Work) :=
  if t.maxLoad < t.size + 1 then rehashW t (minBuckets (t.size + 1) t.mlf) else some (t, {})

/-- `emplace_unique` (implementation.hpp:1866-1960). -/
def emplaceUniqueW (t : Table K V) (x : K × V) : Option (Table K V × Work) :=
  let h := t.fns.hash x.1
  match t.findImpl x.1 (t.bucketFor h) with
  | none => none
  | some (some _) => some (t, {})
  | some none =>
    match growForOneW t with
    | none => none
    | some (t1, w) =>
      match t1.b.insertNode (t1.bucketFor h) x with
      | none => none
      | some b' => some ({ t1 with b := b', size := t1.size + 1 }, w)

/-- `emplace_equiv` (implementation.hpp:2449-2465); the neighbour is found as in `Table.emplaceEquiv`. -/
def emplaceEquivW (t : Table K V) (x : K × V) : Option (Table K V × Work) :=
  let h := t.fns.hash x.1
  match t.findImpl x.1 (t.bucketFor h) with
  | none => none
  | some hint =>
    match growForOneW t with
    | none => none
    | some (t1, w) =>
      let itb1 := t1.bucketFor h
      match t1.b.get itb1 with
      | none => none
      | some l1 =>
        let hint1 : Option Nat := match hint with
          | none => none
          | some i =>
            if t.maxLoad < t.size + 1 ∧ t1.bucketCount ≠ t.bucketCount
            then (l1.reverse.findIdx? (fun e => t.fns.eq x.1 e.1)).map (fun j => l1.length - 1 - j)
            else some i
        match t1.b.insertNodeHint itb1 x hint1 with
        | none => none
        | some b' => some ({ t1 with b := b', size := t1.size + 1 }, w)

/-- insertion of one element: `u` tells unique-key containers from multi containers -/
def insertW (u : Bool) (t : Table K V) (x : K × V) : Option (Table K V × Work) :=
  if u then emplaceUniqueW t x else emplaceEquivW t x

/-- Insert/erase traffic on one container, with the total work. Erasure by key (implementation.hpp:2230-2243, 2626-2647)
touches only the bucket of the key. -/
def calls (u : Bool) : List (Call K V) → Table K V → Option (Table K V × Work)
  | [], t => some (t, {})
  | .insert x :: l, t =>
    match insertW u t x with
    | none => none
    | some (t', w) => (calls u l t').map (fun r => (r.1, w.add r.2))
  | .erase k :: l, t =>
    match (if u then t.eraseKeyUnique k else t.eraseKeyEquiv k) with
    | none => none
    | some (t', _) => calls u l t'

/-! ### The counters do not change the program -/

theorem fillFrontW_eq (f : Fns K) : ∀ (xs : List (K × V)) (nb : Gba (K × V)),
    fillFrontW f xs nb = (Table.fillFront f xs nb).map (fun a => (a, xs.length)) := by
  intro xs
  induction xs with
  | nil => intro nb; rfl
  | cons x xs ih =>
    intro nb
    simp only [fillFrontW, Table.fillFront]
    cases nb.insertNode (nb.at_ (nb.position (f.hash x.1))) x with
    | none => rfl
    | some b' => dsimp only; rw [ih]; simp [Option.map_map, Function.comp_def]

/-- work of a rehash of `t` to `n` buckets -/
def rehashWork (t : Table K V) (n : Nat) : Work :=
  (newWork (Gba.new n t.al : Gba (K × V))).add { moved := t.b.contents.length, scanned := t.b.size }

theorem rehashImplW_eq (t : Table K V) (n : Nat) :
    rehashImplW t n = (t.rehashImpl n).map (fun t' => (t', rehashWork t n)) := by
  unfold rehashImplW Table.rehashImpl
  rw [fillFrontW_eq]
  cases Table.fillFront t.fns t.b.contents (Gba.new n t.al) with
  | none => rfl
  | some nb => simp only [Option.map_some]; cases t.b.dealloc t.al <;> rfl

/-- work of the growth test -/
def growWork (t : Table K V) (t1 : Table K V) : Work :=
  if t1.b.size = t.b.size then {} else rehashWork t (Gba.bucketCountFor (minBuckets (t.size + 1) t.mlf))

theorem growWork_congr {t t1 t2 : Table K V} (h : t2.b.size = t1.b.size) : growWork t t2 = growWork t t1 := by
  unfold growWork; rw [h]

theorem new_size (n al : Nat) : (Gba.new n al : Gba (K × V)).size = Gba.bucketCountFor n := by
  unfold Gba.new Gba.bucketCountFor
  split <;> rfl

theorem rehashImpl_size {t t' : Table K V} {n : Nat} (h : t.rehashImpl n = some t') : t'.b.size = Gba.bucketCountFor n := by
  unfold Table.rehashImpl at h
  cases e : Table.fillFront t.fns t.b.contents (Gba.new n t.al) with
  | none => rw [e] at h; simp at h
  | some nb =>
    rw [e] at h
    dsimp only at h
    cases e2 : t.b.dealloc t.al with
    | none => rw [e2] at h; simp at h
    | some _ =>
      rw [e2] at h
      cases h
      show nb.size = _
      rw [fillFront_size e, new_size]

theorem growForOneW_eq (t : Table K V) : growForOneW t = t.growForOne.map (fun t1 => (t1, growWork t t1)) := by
  unfold growForOneW Table.growForOne Table.reserve
  split
  · unfold rehashW Table.rehash
    have hmax : max (minBuckets t.size t.mlf) (minBuckets (t.size + 1) t.mlf) = minBuckets (t.size + 1) t.mlf :=
      Nat.max_eq_right (minBuckets_mono _ (by omega))
    rw [hmax]
    dsimp only
    generalize hn : Gba.bucketCountFor (minBuckets (t.size + 1) t.mlf) = n
    by_cases hne : n ≠ t.bucketCount
    · rw [if_pos hne, if_pos hne, rehashImplW_eq]
      cases e : t.rehashImpl n with
      | none => rfl
      | some t1 =>
        simp only [Option.map_some]
        have := rehashImpl_size e
        rw [← hn, Gba.bucketCountFor_idem, hn] at this
        unfold growWork
        rw [if_neg (by rw [this]; exact hne), hn]
    · rw [if_neg hne, if_neg hne]
      simp [growWork]
  · simp [growWork]

theorem emplaceUniqueW_eq (t : Table K V) (x : K × V) :
    emplaceUniqueW t x = (t.emplaceUnique x).map (fun r => (r.1, growWork t r.1)) := by
  unfold emplaceUniqueW Table.emplaceUnique
  dsimp only
  cases t.findImpl x.1 (t.bucketFor (t.fns.hash x.1)) with
  | none => rfl
  | some o =>
    cases o with
    | some i => simp [growWork]
    | none =>
      dsimp only
      rw [growForOneW_eq]
      cases t.growForOne with
      | none => rfl
      | some t1 =>
        simp only [Option.map_some]
        cases e : t1.b.insertNode (t1.bucketFor (t.fns.hash x.1)) x with
        | none => rfl
        | some b' =>
          simp only [Option.map_some]
          rw [growWork_congr (t2 := { t1 with b := b', size := t1.size + 1 }) (Gba.insertNode_size e)]

theorem emplaceEquivW_eq (t : Table K V) (x : K × V) :
    emplaceEquivW t x = (t.emplaceEquiv x).map (fun r => (r.1, growWork t r.1)) := by
  unfold emplaceEquivW Table.emplaceEquiv
  dsimp only
  cases t.findImpl x.1 (t.bucketFor (t.fns.hash x.1)) with
  | none => rfl
  | some o =>
    dsimp only
    rw [growForOneW_eq]
    cases t.growForOne with
    | none => rfl
    | some t1 =>
      simp only [Option.map_some]
      cases t1.b.get (t1.bucketFor (t.fns.hash x.1)) with
      | none => rfl
      | some l1 =>
        dsimp only
        have key : ∀ hint1 : Option Nat, ∀ f : Option Nat → Nat,
            (match t1.b.insertNodeHint (t1.bucketFor (t.fns.hash x.1)) x hint1 with
              | none => none
              | some b' => some ({ t1 with b := b', size := t1.size + 1 }, growWork t t1)) =
            Option.map (fun r : Table K V × (BIt × Nat) => (r.1, growWork t r.1))
              (match t1.b.insertNodeHint (t1.bucketFor (t.fns.hash x.1)) x hint1 with
              | none => none
              | some b' => some ({ t1 with b := b', size := t1.size + 1 }, (t1.bucketFor (t.fns.hash x.1), f hint1))) := by
          intro hint1 f
          cases e : t1.b.insertNodeHint (t1.bucketFor (t.fns.hash x.1)) x hint1 with
          | none => rfl
          | some b' =>
            simp only [Option.map_some]
            rw [growWork_congr (t2 := { t1 with b := b', size := t1.size + 1 }) (Gba.insertNodeHint_size e)]
        exact key _ (fun h => match h with | none => 0 | some i => i + 1)

/-- the same traffic without counters -/
def plain (u : Bool) : List (Call K V) → Table K V → Option (Table K V)
  | [], t => some t
  | .insert x :: l, t =>
    ((if u then (t.emplaceUnique x).map Prod.fst else (t.emplaceEquiv x).map Prod.fst)).bind (plain u l)
  | .erase k :: l, t => (if u then t.eraseKeyUnique k else t.eraseKeyEquiv k).bind (fun r => plain u l r.1)

theorem calls_plain (u : Bool) : ∀ (l : List (Call K V)) (t : Table K V), (calls u l t).map Prod.fst = plain u l t := by
  intro l
  induction l with
  | nil => intro t; rfl
  | cons a l ih =>
    intro t
    cases a with
    | insert x =>
      simp only [calls, plain, insertW]
      cases u with
      | true =>
        simp only [if_true, emplaceUniqueW_eq]
        cases t.emplaceUnique x with
        | none => rfl
        | some r => simp only [Option.map_some, Option.map_map, Option.bind_some, ← ih]; rfl
      | false =>
        simp only [Bool.false_eq_true, if_false, emplaceEquivW_eq]
        cases t.emplaceEquiv x with
        | none => rfl
        | some r => simp only [Option.map_some, Option.map_map, Option.bind_some, ← ih]; rfl
    | erase k =>
      simp only [calls, plain]
      cases (if u then t.eraseKeyUnique k else t.eraseKeyEquiv k) with
      | none => rfl
      | some r => simp only [Option.bind_some, ← ih]

/-! ### Arithmetic -/

/-- the largest bucket count -/
def top : Nat := 1649267441651

theorem size_step : ∀ i < 37, 4 * PrimeFmod.size (i + 1) ≤ 9 * PrimeFmod.size i := by decide +kernel

theorem bucketCountFor_ub (n : Nat) : 4 * Gba.bucketCountFor n ≤ 9 * n + 52 := by
  unfold Gba.bucketCountFor
  split
  · omega
  · obtain ⟨k, e, hk, h1, _⟩ := PrimeFmod.sizeIndexFrom_spec n PrimeFmod.sizes (by decide) 0
    have e' : PrimeFmod.sizeIndex n = k := by unfold PrimeFmod.sizeIndex; omega
    rw [e']
    have l38 : PrimeFmod.sizes.length = 38 := by decide
    cases k with
    | zero => have : PrimeFmod.size 0 = 13 := rfl
              omega
    | succ j =>
      have h2 := h1 j (by omega)
      have h3 := size_step j (by omega)
      change PrimeFmod.size j < n at h2
      omega

theorem minBuckets_ub (n : Nat) : 100 * minBuckets n (some one) ≤ 101 * n + 200 := by
  have hu : minBuckets n (some one) ≤ F32.ceilN (F32.div (F32.ofNat n) one) + 1 := by
    rw [minBuckets_some]
    refine (ite_le _ _).trans ?_
    unfold doubleToSize
    split
    · rename_i h
      have := Nat.le_of_mul_le_mul_right h F32.SC_pos
      unfold sizeMax; omega
    · rw [Nat.mul_div_cancel _ F32.SC_pos]
  have h2 : F32.ofNat n ≤ n * F32.SC + n * F32.SC / 2 ^ 23 + 1 := by
    have := Foa.Cost.rnd_ub (n * F32.SC) 1
    simpa [F32.ofNat] using this
  have h3 : F32.div (F32.ofNat n) one ≤ F32.ofNat n + F32.ofNat n / 2 ^ 23 + 1 := by
    have := Foa.Cost.rnd_ub (F32.ofNat n * F32.SC) one
    unfold one at *
    rw [Nat.mul_div_cancel _ F32.SC_pos] at this
    exact this
  unfold F32.ceilN at hu
  generalize F32.div (F32.ofNat n) one = b at *
  generalize F32.ofNat n = a at *
  have hS : 1000 ≤ F32.SC := by unfold F32.SC; norm_num
  generalize F32.SC = S at *
  have h4 := Nat.div_mul_le_self (b + S - 1) S
  generalize (b + S - 1) / S = c at *
  generalize hX : n * S = X at *
  have hb : 100 * b ≤ 101 * X + S := by
    norm_num at h2 h3
    omega
  have h5 : (100 * c) * S < (101 * n + 101) * S := by
    calc (100 * c) * S = 100 * (c * S) := by ring
      _ < 101 * X + 101 * S := by omega
      _ = _ := by rw [← hX]; ring
  have := Nat.lt_of_mul_lt_mul_right h5
  omega

theorem maxLoad_one {bc : Nat} (h : bc ≤ top) : maxLoadFor (some one) bc = bc := by
  unfold maxLoadFor
  split
  · omega
  · dsimp only
    have : F32.rnd 53 (one * bc) 1 = bc * 2 ^ 149 := by
      have e : one * bc = bc * 2 ^ 149 := by unfold one F32.SC; ring
      rw [e]
      exact F32.rnd_exact (by norm_num) (by unfold top at h; omega)
    rw [this]
    unfold doubleToSize
    have hs : F32.SC = 2 ^ 149 := rfl
    rw [hs, if_neg, Nat.mul_div_cancel _ (by positivity)]
    unfold top at h
    have := Nat.mul_lt_mul_of_pos_right (show bc < 2 ^ 64 by omega) (show 0 < 2 ^ 149 by positivity)
    omega

theorem size_self : ∀ i < 38, PrimeFmod.size i ≤ Gba.bucketCountFor (minBuckets (PrimeFmod.size i) (some one)) := by
  decide +kernel

theorem bucketCountFor_le_top (n : Nat) : Gba.bucketCountFor n ≤ top := by
  unfold Gba.bucketCountFor
  split
  · omega
  · exact maxLoad_of_apart.size_le (n := 0) (m := 0) (bc := 0) n

theorem le_of_lt_top {n : Nat} (hn : 0 < n) (h : Gba.bucketCountFor n < top) : n ≤ Gba.bucketCountFor n := by
  by_contra hc
  have h1 : 1649267441651 < n := by
    by_contra h2
    exact hc (le_bucketCountFor (by omega))
  have := bucketCountFor_mono h1.le
  have e : Gba.bucketCountFor 1649267441651 = top := by decide +kernel
  omega

/-- what a growth of a container with maximum load factor 1 does to the bucket count -/
theorem growth_buckets {s bc : Nat} (hbc : bc = 0 ∨ ∃ i < 38, bc = PrimeFmod.size i) (hlt : bc < s + 1) :
    bc ≤ Gba.bucketCountFor (minBuckets (s + 1) (some one)) ∧
    (bc < Gba.bucketCountFor (minBuckets (s + 1) (some one)) →
      18 * bc ≤ 10 * Gba.bucketCountFor (minBuckets (s + 1) (some one))) ∧
    400 * Gba.bucketCountFor (minBuckets (s + 1) (some one)) ≤ 909 * (s + 1) + 7000 ∧
    (Gba.bucketCountFor (minBuckets (s + 1) (some one)) = top ∨
      (s + 1) * (2 ^ 23 - 1) ≤ Gba.bucketCountFor (minBuckets (s + 1) (some one)) * 2 ^ 23) := by
  have hpos := minBuckets_pos (some one) (show 0 < s + 1 by omega)
  refine ⟨?_, ?_, ?_, ?_⟩
  · rcases hbc with rfl | ⟨i, hi, rfl⟩
    · omega
    · exact (size_self i hi).trans (bucketCountFor_mono (minBuckets_mono _ (by omega)))
  · intro h
    rcases hbc with rfl | ⟨i, hi, rfl⟩
    · omega
    · have e : ∀ i < 38, Gba.bucketCountFor (PrimeFmod.size i) = PrimeFmod.size i := by decide +kernel
      have p : ∀ i < 38, 0 < PrimeFmod.size i := by decide +kernel
      have := (bucketCountFor_apart (a := PrimeFmod.size i) (b := minBuckets (s + 1) (some one)) (p i hi)
        (by rw [e i hi]; exact h)).2
      rwa [e i hi] at this
  · have h1 := bucketCountFor_ub (minBuckets (s + 1) (some one))
    have h2 := minBuckets_ub (s + 1)
    generalize minBuckets (s + 1) (some one) = q at *
    generalize Gba.bucketCountFor q = g at *
    omega
  · by_cases ht : Gba.bucketCountFor (minBuckets (s + 1) (some one)) = top
    · exact Or.inl ht
    · right
      have h0 := bucketCountFor_le_top (minBuckets (s + 1) (some one))
      have h1 := le_of_lt_top hpos (by omega)
      by_cases hs : s = 0
      · subst hs
        generalize Gba.bucketCountFor (minBuckets (0 + 1) (some one)) = g at *
        omega
      · have h2 := ceil_div_lo (n := s + 1) (m := one) F32.SC_pos (by
          have := F32.SC_pos
          unfold one
          calc F32.SC = 1 * F32.SC := (Nat.one_mul _).symm
            _ < (s + 1) * F32.SC := Nat.mul_lt_mul_of_pos_right (by omega) this)
        have h3 : F32.ceilN (F32.div (F32.ofNat (s + 1)) one) ≤ minBuckets (s + 1) (some one) := by
          by_cases hsat : F32.ceilN (F32.div (F32.ofNat (s + 1)) one) < 2 ^ 64
          · rw [minBuckets_some, doubleToSize_int hsat]; exact ite_ge _ _
          · exfalso
            have h4 : sizeMax ≤ minBuckets (s + 1) (some one) := by
              rw [minBuckets_some]
              refine le_trans ?_ (ite_ge _ _)
              unfold doubleToSize
              rw [if_pos (Nat.mul_le_mul_right _ (by omega))]
            unfold sizeMax at h4
            unfold top at h0
            omega
        have h4 : F32.SC * ((s + 1) * (2 ^ 23 - 1)) ≤
            F32.SC * (F32.ceilN (F32.div (F32.ofNat (s + 1)) one) * 2 ^ 23) := by
          calc F32.SC * ((s + 1) * (2 ^ 23 - 1)) = (s + 1) * F32.SC * (2 ^ 23 - 1) := by ring
            _ ≤ one * F32.ceilN (F32.div (F32.ofNat (s + 1)) one) * 2 ^ 23 := h2
            _ = _ := by unfold one; ring
        have h5 := Nat.le_of_mul_le_mul_left h4 F32.SC_pos
        generalize F32.ceilN (F32.div (F32.ofNat (s + 1)) one) = c at *
        generalize minBuckets (s + 1) (some one) = q at *
        generalize Gba.bucketCountFor q = g at *
        exact h5.trans (Nat.mul_le_mul_right _ (h3.trans h1))

/-- Stored work of a container with `s` elements in `bc` buckets at maximum load factor 1. -/
def pot (s bc : Nat) : Nat := if bc = top then 0 else 5 * s + min (6 * s) (30 * (s - bc)) - 7 * (bc - s)

theorem pot_le (s bc : Nat) : pot s bc ≤ 11 * s := by
  unfold pot; split <;> omega

theorem pot_mono {s s' : Nat} (bc : Nat) (h : s' ≤ s) : pot s' bc ≤ pot s bc := by
  unfold pot; split <;> omega

theorem pot_one (s bc : Nat) : pot (s + 1) bc ≤ pot s bc + 40 := by
  unfold pot; split <;> omega

theorem pot_growth {s bc nb : Nat} (hlt : bc < s + 1) (h1 : bc < nb) (h2 : 18 * bc ≤ 10 * nb)
    (h3 : 400 * nb ≤ 909 * (s + 1) + 7000) (h4 : nb = top ∨ (s + 1) * (2 ^ 23 - 1) ≤ nb * 2 ^ 23) (hb : nb ≤ top) :
    s + bc + ((nb + 1) + (nb / 64 + 1)) + pot (s + 1) nb ≤ pot s bc + 40 := by
  have hc : s + bc + ((nb + 1) + (nb / 64 + 1)) ≤ 5 * s + 25 := by omega
  unfold pot
  rw [if_neg (show bc ≠ top by omega)]
  split
  · omega
  · rename_i hn
    have h4 : (s + 1) * (2 ^ 23 - 1) ≤ nb * 2 ^ 23 := by
      rcases h4 with h | h
      · exact absurd h hn
      · exact h
    norm_num at h4
    omega

end Fca.Cost

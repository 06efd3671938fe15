/-
The closed-addressing containers compiled with assertions enabled: the functions that contain a `BOOST_ASSERT` on sizes,
loads or bucket counts, with the assertion evaluated.
Source: /repo/include/boost/unordered/detail/implementation.hpp.
-/
import Verif.Fca.LoadProg

namespace Fca
variable {K V : Type}

/-- Outcome in a build with assertions: the call returns, an assertion of the library fails, or undefined behaviour. -/
inductive Chk (α : Type) where
  | ok (a : α)
  | fails
  | bad

/-- a part without assertions -/
def Chk.of {α : Type} : Option α → Chk α
  | none => .bad
  | some a => .ok a

namespace Table

/-- `emplace_no_rehash_equiv` (implementation.hpp:2498-2509): `BOOST_ASSERT(size_ + 1 <= max_load_)`, then the insertion next
to the first equivalent node of the bucket. -/
def emplaceNoRehashA (t : Table K V) (x : K × V) : Chk (Table K V) :=
  if t.size + 1 ≤ t.maxLoad then
    let itb := t.b.at_ (t.b.position (t.fns.hash x.1))
    match t.b.get itb with
    | none => .bad
    | some l =>
      match t.b.insertNodeHint itb x (l.findIdx? (fun e => t.fns.eq x.1 e.1)) with
      | none => .bad
      | some b' => .ok { t with b := b', size := t.size + 1 }
  else .fails

/-- loop of `insert_range_equiv` (implementation.hpp:2592-2596). -/
def fillRangeA : List (K × V) → Table K V → Chk (Table K V)
  | [], t => .ok t
  | x :: xs, t =>
    match t.emplaceNoRehashA x with
    | .ok t' => fillRangeA xs t'
    | .fails => .fails
    | .bad => .bad

/-- `insert_range_equiv` for forward iterators (implementation.hpp:2572-2597). -/
def insertRangeEquivA (t : Table K V) (xs : List (K × V)) : Chk (Table K V) :=
  match xs with
  | [] => .ok t
  | [x] => Chk.of ((t.emplaceEquiv x).map Prod.fst)
  | _ =>
    match t.reserveForInsert (t.size + xs.length) with
    | none => .bad
    | some t1 => fillRangeA xs t1

/-- `copy_buckets` (implementation.hpp:2305-2324, 2657-2676): `BOOST_ASSERT(size_ == 0)`. -/
def copyBucketsA (uniq : Bool) (t src : Table K V) : Chk (Table K V) :=
  if t.size = 0 then Chk.of (t.copyBuckets uniq src) else .fails

/-- copy constructor with allocator (implementation.hpp:1406-1411; unordered_map.hpp:1439-1465). -/
def copyCtorA (uniq : Bool) (x : Table K V) (a : Nat) : Chk (Table K V) :=
  let t : Table K V := {
    fns := x.fns, al := a, size := 0, mlf := x.mlf,
    maxLoad := maxLoadFor x.mlf (Gba.new x.size a : Gba (K × V)).size, b := Gba.new x.size a }
  if x.size ≠ 0 then t.copyBucketsA uniq x else .ok t

/-- `assign` (implementation.hpp:1569-1629). -/
def assignA (pocca uniq : Bool) (t x : Table K V) : Chk (Table K V) :=
  if pocca = true ∧ t.al ≠ x.al then
    match ({ t with fns := x.fns } : Table K V).deleteBuckets with
    | none => .bad
    | some t1 =>
      match ({ t1 with al := x.al, b := Gba.new x.size x.al, mlf := x.mlf } : Table K V).reserve x.size with
      | none => .bad
      | some t2 => if x.size ≠ 0 then t2.copyBucketsA uniq x else .ok t2
  else
    match ({ t with mlf := x.mlf, maxLoad := maxLoadFor x.mlf t.bucketCount } : Table K V).reserveForInsert x.size with
    | none => .bad
    | some t1 =>
      match t1.clear with
      | none => .bad
      | some t2 => ({ t2 with fns := x.fns } : Table K V).copyBucketsA uniq x

/-- move constructor with allocator (implementation.hpp:1421-1427, 1502-1528):
`BOOST_ASSERT(buckets_.bucket_count() == src.buckets_.bucket_count())` on the element-wise path. -/
def moveCtorAllocA (mv : K × V → K × V) (x : Table K V) (a : Nat) : Chk (Table K V × Table K V) :=
  if a = x.al ∨ x.size = 0 then Chk.of (moveCtorAlloc mv x a)
  else if (Gba.new x.bucketCount a : Gba (K × V)).size = x.bucketCount then Chk.of (moveCtorAlloc mv x a)
  else .fails

/-- `move_assign` (implementation.hpp:1632-1704) with `move_assign_buckets` (2326-2347, 2678-2700):
`BOOST_ASSERT(size_ == 0); BOOST_ASSERT(max_load_ >= src.size_)` before the elements are moved. -/
def moveAssignA (pocma uniq : Bool) (mv : K × V → K × V) (t x : Table K V) : Chk (Table K V × Table K V) :=
  if pocma = true ∨ t.al = x.al then Chk.of (moveAssign pocma uniq mv t x)
  else
    let t0 := { t with mlf := x.mlf, maxLoad := maxLoadFor x.mlf t.bucketCount }
    match (if 0 < x.size then t0.reserveForInsert x.size else some t0) with
    | none => .bad
    | some t1 =>
      match t1.clear with
      | none => .bad
      | some t2 =>
        if t2.size = 0 ∧ x.size ≤ t2.maxLoad then
          match x.iterate with
          | none => .bad
          | some l =>
            match (if uniq then fillFront x.fns l t2.b else fillEquiv x.fns l t2.b) with
            | none => .bad
            | some b' => .ok ({ t2 with fns := x.fns, b := b', size := t2.size + l.length }, movedFrom mv x)
        else .fails

end Table

/-! ### room for `n` elements after `reserve_for_insert(n)` -/

open F32 in
/-- With fewer than 2^24 elements, and fewer than 2^24-1 buckets needed, the request is enough for `n` elements. -/
theorem insert_enough {n m bc : Nat} (hn : n < 2 ^ 24) (hm : 0 < m) (hB : n * SC ≤ m * (2 ^ 24 - 2)) :
    n ≤ maxLoadFor (some m) (Gba.bucketCountFor (insertBuckets n (some m) bc)) := by
  rw [insertBuckets_some, F32.ofNat_exact' hn]
  obtain ⟨D, hD⟩ : ∃ D, D = F32.div (n * SC) m := ⟨_, rfl⟩
  rw [← hD]
  have hup : D ≤ (2 ^ 24 - 2) * SC := by
    rw [hD]; unfold F32.div SC
    refine rnd_le (by norm_num) hm (by norm_num) ?_
    calc n * 2 ^ 149 * 2 ^ 149 ≤ m * (2 ^ 24 - 2) * 2 ^ 149 := Nat.mul_le_mul_right _ hB
      _ = _ := by ring
  have hC : F32.ceilN D ≤ 2 ^ 24 - 2 := by
    unfold F32.ceilN
    have := SC_pos
    rw [Nat.div_le_iff_le_mul_add_pred this]
    rw [Nat.mul_comm] at hup
    omega
  obtain ⟨C, hCe⟩ : ∃ C, C = F32.ceilN D := ⟨_, rfl⟩
  rw [← hCe] at hC ⊢
  have hadd : F32.add one (C * SC) = (C + 1) * SC := by
    unfold F32.add
    have e : one + C * SC = (C + 1) * 2 ^ 149 := by unfold one SC; ring
    rw [e, rnd_exact (by norm_num) (by omega)]; rfl
  rw [hadd, doubleToSize_int (by omega)]
  have hreq : C + 1 ≤ Gba.bucketCountFor (max (C + 1) (bc + 1)) :=
    capped (Nat.le_max_left _ _) (by omega)
  generalize Gba.bucketCountFor (max (C + 1) (bc + 1)) = B at hreq ⊢
  -- the product is large enough
  have hprod : n * SC ≤ m * B := by
    by_contra hlt
    have h1 : (C + 1) * SC * m ≤ n * SC * SC := by
      have : m * B * SC ≤ n * SC * SC := Nat.mul_le_mul_right _ (by omega)
      refine Nat.le_trans ?_ this
      have : m * (C + 1) * SC ≤ m * B * SC := Nat.mul_le_mul_right _ (Nat.mul_le_mul_left _ hreq)
      refine Nat.le_trans (Nat.le_of_eq ?_) this
      ring
    have h2 : (C + 1) * SC ≤ D := by
      rw [hD]; unfold F32.div
      exact rnd_ge (f := 149) (by norm_num) hm (by omega) h1
    have h3 := le_ceilN h2
    omega
  unfold maxLoadFor
  rw [if_neg (by omega)]
  dsimp only
  have h4 : n * SC ≤ rnd 53 (m * B) 1 := by
    refine rnd_ge (f := 149) (by norm_num) Nat.one_pos (by omega) ?_
    rw [Nat.mul_one]; exact hprod
  have h5 := doubleToSize_mono h4
  rwa [doubleToSize_int (by omega)] at h5

/-- bound under which the requests of `reserve_for_insert` are exact enough; always met with an infinite load factor -/
def Modest (n : Nat) : Option Nat → Prop
  | none => n ≤ sizeMax
  | some m => n < 2 ^ 24 ∧ 0 < m ∧ n * F32.SC ≤ m * (2 ^ 24 - 2)

theorem reserveForInsert_maxLoad {t t' : Table K V} (hs : SInv t) {n : Nat} (hn : Modest n t.mlf)
    (h : t.reserveForInsert n = some t') : n ≤ t'.maxLoad := by
  unfold Table.reserveForInsert at h
  split at h
  · have hb : insertBuckets n t.mlf t.bucketCount ≠ 0 := by unfold insertBuckets; omega
    have h' := h
    unfold Table.rehashImpl at h'
    obtain ⟨t1, e1, e2, e3, _⟩ := rehashImpl_spec hs (Or.inl hb)
    rw [h] at e1; cases e1
    have hm : t'.maxLoad = maxLoadFor t.mlf t'.b.size := by
      split at h' <;> try exact absurd h' (by simp)
      all_goals (try split at h') <;> first | (cases h'; rfl) | exact absurd h' (by simp)
    rw [hm, e3]
    cases hml : t.mlf with
    | none =>
      rw [hml] at hn
      unfold maxLoadFor
      have : Gba.bucketCountFor (insertBuckets n none t.bucketCount) ≠ 0 := by
        rw [← hml]; exact le_bucketCountFor_pos (by omega)
      rw [if_neg this]; exact hn
    | some m =>
      rw [hml] at hn
      exact insert_enough hn.1 hn.2.1 hn.2.2
  · cases h; omega

end Fca

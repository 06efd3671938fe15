/-
The load factor along whole programs over closed-addressing containers: what each call does to size and bucket count.
-/
import Verif.Fca.LoadPolicy

namespace Fca
open SpecC (Op LOp)
open Spec (Res)
variable {K V : Type} (P : Policy)

/-- the elements of `t` are allowed in its buckets, if its maximum load factor is the one of the policy -/
def Within (t : Table K V) : Prop := t.mlf = some P.m → P.ok t.size t.b.size

/-- no more elements in the same buckets -/
structure NoMore (t t' : Table K V) : Prop where
  size : t'.size ≤ t.size
  bs : t'.b.size = t.b.size
  mlf : t'.mlf = t.mlf

/-- what a call may do to the load: nothing worse, or whatever it did the result is allowed -/
def Load (t t' : Table K V) : Prop := NoMore t t' ∨ Within P t'

variable {P}

theorem NoMore.refl (t : Table K V) : NoMore t t := ⟨Nat.le_refl _, rfl, rfl⟩
theorem NoMore.trans {t t1 t2 : Table K V} (h : NoMore t t1) (h2 : NoMore t1 t2) : NoMore t t2 :=
  ⟨h2.size.trans h.size, h2.bs.trans h.bs, h2.mlf.trans h.mlf⟩
theorem NoMore.within {t t' : Table K V} (h : NoMore t t') (hw : Within P t) : Within P t' := fun hm =>
  P.mono (hw (h.mlf ▸ hm)) h.size (by rw [h.bs])
theorem Load.refl (t : Table K V) : Load P t t := Or.inl (.refl t)
theorem Load.within {t t' : Table K V} (h : Load P t t') (hw : Within P t) : Within P t' := h.elim (·.within hw) id
theorem Load.trans {t t1 t2 : Table K V} (h : Load P t t1) (h2 : Load P t1 t2) : Load P t t2 := by
  rcases h with h | h
  · rcases h2 with h2 | h2
    · exact Or.inl (h.trans h2)
    · exact Or.inr h2
  · exact Or.inr (h2.within h)
theorem within_empty {t : Table K V} (h : t.size = 0) : Within P t := fun _ => by rw [h]; exact P.zero _
theorem Removed.noMore {t t' : Table K V} {xs : List (K × V)} (h0 : SInv t) (h : Removed t xs t') : NoMore t t' :=
  ⟨by rw [h0.len, h.inv.len, h.perm.length_eq, List.length_append]; omega, h.bsize, h.mlf⟩

/-! ### choosing bucket counts -/

theorem rehash_within {t t' : Table K V} (hs : SInv t) (hN : t.size ≤ P.N) {n : Nat} (h : t.rehash n = some t') :
    Within P t' := by
  obtain ⟨t1, h1, h2, h3⟩ := rehash_spec hs n
  rw [h] at h1; cases h1
  intro hm
  rw [h2.mlf] at hm
  rw [h2.size, h3, hm]
  rcases Nat.eq_zero_or_pos t.size with h0 | h0
  · rw [h0]; exact P.zero _
  · exact P.mono (P.minb h0 hN) (Nat.le_refl _) (bucketCountFor_mono (Nat.le_max_left _ _))

/-- `reserve(n)`: room for `n` -/
theorem reserve_room {t t' : Table K V} (hs : SInv t) {n : Nat} (hn : 0 < n) (hN : n ≤ P.N) (h : t.reserve n = some t')
    (hm : t.mlf = some P.m) : P.ok n t'.b.size := by
  obtain ⟨t1, h1, h2, h3⟩ := rehash_spec hs (minBuckets n t.mlf)
  have h1' : t.reserve n = some t1 := h1
  rw [h] at h1'; cases h1'
  rw [h3, hm]
  exact P.mono (P.minb hn hN) (Nat.le_refl _) (bucketCountFor_mono (Nat.le_max_right _ _))

theorem growForOne_room {t t' : Table K V} (hs : SInv t) (hok : MlOk t) (hN : t.size + 1 ≤ P.N) (h : t.growForOne = some t')
    (hm : t.mlf = some P.m) : P.ok (t.size + 1) t'.b.size := by
  unfold Table.growForOne at h
  split at h
  · exact reserve_room hs (by omega) hN h hm
  · rename_i hle
    cases h
    refine P.maxl (by omega) hN ?_
    rw [← hm, ← hok]; omega

theorem reserveForInsert_room {t t' : Table K V} (hs : SInv t) (hok : MlOk t) {n : Nat} (hn : 0 < n) (hN : n ≤ P.N)
    (h : t.reserveForInsert n = some t') (hm : t.mlf = some P.m) : P.ok n t'.b.size := by
  unfold Table.reserveForInsert at h
  split at h
  · have hb : insertBuckets n t.mlf t.bucketCount ≠ 0 := by unfold insertBuckets; omega
    obtain ⟨t1, e1, e2, e3, _⟩ := rehashImpl_spec hs (Or.inl hb)
    rw [h] at e1; cases e1
    rw [e3, hm]
    exact P.ins hn hN
  · rename_i hle
    cases h
    refine P.maxl hn hN ?_
    rw [← hm, ← hok]; omega

theorem reserveForInsert_kept {t t' : Table K V} (hs : SInv t) {n : Nat} (h : t.reserveForInsert n = some t') : Kept t t' := by
  obtain ⟨t1, e1, e2, _⟩ := reserveForInsert_spec hs n
  rw [h] at e1; cases e1; exact e2

/-! ### insertions -/

theorem emplaceUnique_load {t t' : Table K V} {x : K × V} {q : BIt × Nat} {b : Bool} (hs : SInv t) (hok : MlOk t)
    (hN : t.size + 1 ≤ P.N) (h : t.emplaceUnique x = some (t', q, b)) : Load P t t' := by
  unfold Table.emplaceUnique at h
  dsimp only at h
  split at h
  · cases h
  · cases h; exact .refl _
  · split at h
    · cases h
    · rename_i t1 hg
      split at h
      · cases h
      · rename_i b' hb
        cases h
        refine Or.inr (fun hm => ?_)
        obtain ⟨t2, g1, g2, _⟩ := growForOne_spec hs
        rw [hg] at g1; cases g1
        have := growForOne_room (P := P) hs hok hN hg (g2.mlf ▸ hm)
        show P.ok (t1.size + 1) b'.size
        rw [Gba.insertNode_size hb, g2.size]; exact this

theorem emplaceEquiv_load {t t' : Table K V} {x : K × V} {q : BIt × Nat} (hs : SInv t) (hok : MlOk t)
    (hN : t.size + 1 ≤ P.N) (h : t.emplaceEquiv x = some (t', q)) : Load P t t' := by
  unfold Table.emplaceEquiv at h
  dsimp only at h
  split at h
  · cases h
  · split at h
    · cases h
    · rename_i t1 hg
      split at h
      · cases h
      · split at h
        · cases h
        · rename_i b' hb
          cases h
          refine Or.inr (fun hm => ?_)
          obtain ⟨t2, g1, g2, _⟩ := growForOne_spec hs
          rw [hg] at g1; cases g1
          have := growForOne_room (P := P) hs hok hN hg (g2.mlf ▸ hm)
          show P.ok (t1.size + 1) b'.size
          rw [Gba.insertNodeHint_size hb, g2.size]; exact this

theorem insertNodeUnique_load {t t' : Table K V} {x : K × V} {q : BIt × Nat} {b : Bool} (hs : SInv t) (hok : MlOk t)
    (hN : t.size + 1 ≤ P.N) (h : t.insertNodeUnique x = some (t', q, b)) : Load P t t' := by
  unfold Table.insertNodeUnique at h
  dsimp only at h
  split at h
  · cases h
  · cases h; exact .refl _
  · split at h
    · cases h
    · rename_i t1 hg
      split at h
      · cases h
      · rename_i b' hb
        cases h
        refine Or.inr (fun hm => ?_)
        have g2 := reserveForInsert_kept hs hg
        have := reserveForInsert_room (P := P) hs hok (by omega) hN hg (g2.mlf ▸ hm)
        show P.ok (t1.size + 1) b'.size
        rw [Gba.insertNode_size hb, g2.size]; exact this

theorem insertNodeEquiv_load {t t' : Table K V} {x : K × V} {q : BIt × Nat} (hs : SInv t) (hok : MlOk t)
    (hN : t.size + 1 ≤ P.N) (h : t.insertNodeEquiv x = some (t', q)) : Load P t t' := by
  unfold Table.insertNodeEquiv at h
  dsimp only at h
  split at h
  · cases h
  · rename_i t1 hg
    split at h
    · cases h
    · split at h
      · cases h
      · rename_i b' hb
        cases h
        refine Or.inr (fun hm => ?_)
        have g2 := reserveForInsert_kept hs hg
        have := reserveForInsert_room (P := P) hs hok (by omega) hN hg (g2.mlf ▸ hm)
        show P.ok (t1.size + 1) b'.size
        rw [Gba.insertNodeHint_size hb, g2.size]; exact this

end Fca

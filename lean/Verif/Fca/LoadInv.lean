/-
`max_load_` bookkeeping of the closed-addressing table: it equals what `recalculate_max_load` computes from the current
bucket count and maximum load factor, in every state reached without a copy assignment that propagates an unequal allocator.
-/
import Verif.Fca.Refine

namespace Fca
variable {K V : Type}

namespace Gba
variable {α : Type} {a a' : Gba α}

theorem append_size {it : BIt} (h : a.append it = some a') : a'.size = a.size := by
  unfold append at h; grind

theorem insertNode_size {it : BIt} {x : α} (h : a.insertNode it x = some a') : a'.size = a.size := by
  unfold insertNode at h
  have := @append_size α a
  grind

theorem insertNodeHint_size {it : BIt} {x : α} {o : Option Nat} (h : a.insertNodeHint it x o = some a') : a'.size = a.size := by
  unfold insertNodeHint at h
  have := @append_size α a
  grind

theorem unlinkGroup_size {g : Nat} (h : a.unlinkGroup g = some a') : a'.size = a.size := by
  unfold unlinkGroup at h; grind

theorem unlinkBucket_size {it : BIt} (h : a.unlinkBucket it = some a') : a'.size = a.size := by
  unfold unlinkBucket at h
  split at h
  · cases h
  · split at h
    · cases h
    · dsimp only at h
      split at h
      · have := unlinkGroup_size h; exact this
      · cases h; rfl

theorem extractNode_size {it : BIt} {i : Nat} (h : a.extractNode it i = some a') : a'.size = a.size := by
  unfold extractNode at h
  split at h
  · cases h
  · split at h
    · dsimp only at h
      split at h
      · have := unlinkBucket_size h; exact this
      · cases h; rfl
    · cases h

theorem extractIt_size {it : BIt × Nat} {r : α × It} (h : a.extractIt it = some (a', r)) : a'.size = a.size := by
  unfold extractIt at h
  have := @extractNode_size α a
  grind

end Gba

/-- `max_load_` is up to date -/
def MlOk (t : Table K V) : Prop := t.maxLoad = maxLoadFor t.mlf t.b.size

/-- same bucket count and load data -/
structure SameLoad (t t' : Table K V) : Prop where
  mlf : t'.mlf = t.mlf
  ml : t'.maxLoad = t.maxLoad
  bs : t'.b.size = t.b.size

theorem SameLoad.refl (t : Table K V) : SameLoad t t := ⟨rfl, rfl, rfl⟩
theorem SameLoad.trans {t t1 t2 : Table K V} (h1 : SameLoad t t1) (h2 : SameLoad t1 t2) : SameLoad t t2 :=
  ⟨h2.mlf.trans h1.mlf, h2.ml.trans h1.ml, h2.bs.trans h1.bs⟩
theorem SameLoad.ok {t t' : Table K V} (h : SameLoad t t') (h0 : MlOk t) : MlOk t' := by
  unfold MlOk at *; rw [h.mlf, h.ml, h.bs]; exact h0

theorem Removed.sameLoad {t t' : Table K V} {xs : List (K × V)} (h : Removed t xs t') : SameLoad t t' :=
  ⟨h.mlf, h.maxLoad, h.bsize⟩

theorem fillFront_size {f : Fns K} : ∀ {xs : List (K × V)} {a a' : Gba (K × V)}, Table.fillFront f xs a = some a' → a'.size = a.size := by
  intro xs
  induction xs with
  | nil => intro a a' h; cases h; rfl
  | cons x xs ih =>
    intro a a' h
    unfold Table.fillFront at h
    split at h
    · cases h
    · rename_i e; exact (ih h).trans (Gba.insertNode_size e)

theorem fillEquiv_size {f : Fns K} : ∀ {xs : List (K × V)} {a a' : Gba (K × V)}, Table.fillEquiv f xs a = some a' → a'.size = a.size := by
  intro xs
  induction xs with
  | nil => intro a a' h; cases h; rfl
  | cons x xs ih =>
    intro a a' h
    unfold Table.fillEquiv at h
    dsimp only at h
    split at h
    · cases h
    · split at h
      · cases h
      · rename_i e; exact (ih h).trans (Gba.insertNodeHint_size e)

theorem rehashImpl_ok {t t' : Table K V} {n : Nat} (h : t.rehashImpl n = some t') : MlOk t' := by
  unfold Table.rehashImpl at h
  split at h
  · cases h
  · split at h
    · cases h
    · cases h; rfl

theorem rehash_ok {t t' : Table K V} {n : Nat} (h : t.rehash n = some t') (h0 : MlOk t) : MlOk t' := by
  unfold Table.rehash at h
  dsimp only at h
  split at h
  · exact rehashImpl_ok h
  · cases h; exact h0

theorem reserve_ok {t t' : Table K V} {n : Nat} (h : t.reserve n = some t') (h0 : MlOk t) : MlOk t' := rehash_ok h h0

theorem reserveForInsert_ok {t t' : Table K V} {n : Nat} (h : t.reserveForInsert n = some t') (h0 : MlOk t) : MlOk t' := by
  unfold Table.reserveForInsert at h
  split at h
  · exact rehashImpl_ok h
  · cases h; exact h0

theorem growForOne_ok {t t' : Table K V} (h : t.growForOne = some t') (h0 : MlOk t) : MlOk t' := by
  unfold Table.growForOne at h
  split at h
  · exact reserve_ok h h0
  · cases h; exact h0

theorem withNode_ok {t : Table K V} {b' : Gba (K × V)} {n : Nat} (h : b'.size = t.b.size) (h0 : MlOk t) :
    MlOk { t with b := b', size := n } := by
  unfold MlOk at *; show t.maxLoad = maxLoadFor t.mlf b'.size; rw [h]; exact h0

theorem emplaceUnique_ok {t t' : Table K V} {x : K × V} {q : BIt × Nat} {b : Bool} (h : t.emplaceUnique x = some (t', q, b))
    (h0 : MlOk t) : MlOk t' := by
  unfold Table.emplaceUnique at h
  dsimp only at h
  split at h
  · cases h
  · cases h; exact h0
  · split at h
    · cases h
    · rename_i t1 e1
      split at h
      · cases h
      · rename_i b' e2
        cases h
        exact withNode_ok (Gba.insertNode_size e2) (growForOne_ok e1 h0)

theorem insertNodeUnique_ok {t t' : Table K V} {x : K × V} {q : BIt × Nat} {b : Bool} (h : t.insertNodeUnique x = some (t', q, b))
    (h0 : MlOk t) : MlOk t' := by
  unfold Table.insertNodeUnique at h
  dsimp only at h
  split at h
  · cases h
  · cases h; exact h0
  · split at h
    · cases h
    · rename_i t1 e1
      split at h
      · cases h
      · rename_i b' e2
        cases h
        exact withNode_ok (Gba.insertNode_size e2) (reserveForInsert_ok e1 h0)

theorem emplaceEquiv_ok {t t' : Table K V} {x : K × V} {q : BIt × Nat} (h : t.emplaceEquiv x = some (t', q))
    (h0 : MlOk t) : MlOk t' := by
  unfold Table.emplaceEquiv at h
  dsimp only at h
  split at h
  · cases h
  · split at h
    · cases h
    · rename_i t1 e1
      split at h
      · cases h
      · split at h
        · cases h
        · rename_i b' e2
          cases h
          exact withNode_ok (Gba.insertNodeHint_size e2) (growForOne_ok e1 h0)

theorem insertNodeEquiv_ok {t t' : Table K V} {x : K × V} {q : BIt × Nat} (h : t.insertNodeEquiv x = some (t', q))
    (h0 : MlOk t) : MlOk t' := by
  unfold Table.insertNodeEquiv at h
  dsimp only at h
  split at h
  · cases h
  · rename_i t1 e1
    split at h
    · cases h
    · split at h
      · cases h
      · rename_i b' e2
        cases h
        exact withNode_ok (Gba.insertNodeHint_size e2) (reserveForInsert_ok e1 h0)

theorem emplaceHintUnique_ok {t t' : Table K V} {x : K × V} {hint : It} {q : BIt × Nat}
    (h : t.emplaceHintUnique hint x = some (t', q)) (h0 : MlOk t) : MlOk t' := by
  have base : ∀ {r}, (t.emplaceUnique x).map (fun r => (r.1, r.2.1)) = some r → MlOk r.1 := by
    intro r hr
    rw [Option.map_eq_some_iff] at hr
    obtain ⟨⟨a, b, c⟩, h1, rfl⟩ := hr
    exact emplaceUnique_ok h1 h0
  unfold Table.emplaceHintUnique at h
  split at h
  · exact base h
  · split at h
    · cases h
    · split at h
      · cases h; exact h0
      · exact base h

theorem emplaceHintEquiv_ok {t t' : Table K V} {x : K × V} {hint : It} {q : BIt × Nat}
    (h : t.emplaceHintEquiv hint x = some (t', q)) (h0 : MlOk t) : MlOk t' := by
  unfold Table.emplaceHintEquiv at h
  split at h
  · exact emplaceEquiv_ok h h0
  · split at h
    · cases h
    · split at h
      · split at h
        · cases h
        · rename_i t1 e1
          split at h
          · dsimp only at h
            split at h
            · split at h
              · split at h
                · cases h
                · rename_i b' e2
                  cases h
                  exact withNode_ok (Gba.insertNodeHint_size e2) (growForOne_ok e1 h0)
              · cases h
            · cases h
          · split at h
            · cases h
            · rename_i b' e2
              cases h
              exact withNode_ok (Gba.insertNodeHint_size e2) (growForOne_ok e1 h0)
      · exact emplaceEquiv_ok h h0

theorem insertRangeUnique_ok : ∀ {xs : List (K × V)} {t t' : Table K V}, Table.insertRangeUnique xs t = some t' → MlOk t → MlOk t' := by
  intro xs
  induction xs with
  | nil => intro t t' h h0; cases h; exact h0
  | cons x xs ih =>
    intro t t' h h0
    unfold Table.insertRangeUnique at h
    split at h
    · cases h
    · rename_i e; exact ih h (emplaceUnique_ok e h0)

theorem insertRangeEquiv1_ok : ∀ {xs : List (K × V)} {t t' : Table K V}, Table.insertRangeEquiv1 xs t = some t' → MlOk t → MlOk t' := by
  intro xs
  induction xs with
  | nil => intro t t' h h0; cases h; exact h0
  | cons x xs ih =>
    intro t t' h h0
    unfold Table.insertRangeEquiv1 at h
    split at h
    · cases h
    · rename_i e; exact ih h (emplaceEquiv_ok e h0)

theorem insertRangeEquiv_ok {xs : List (K × V)} {t t' : Table K V} (h : Table.insertRangeEquiv t xs = some t') (h0 : MlOk t) :
    MlOk t' := by
  unfold Table.insertRangeEquiv at h
  split at h
  · cases h; exact h0
  · rw [Option.map_eq_some_iff] at h
    obtain ⟨⟨a, b⟩, h1, rfl⟩ := h
    exact emplaceEquiv_ok h1 h0
  · split at h
    · cases h
    · rename_i t1 e1
      rw [Option.map_eq_some_iff] at h
      obtain ⟨b', h1, rfl⟩ := h
      exact withNode_ok (fillEquiv_size h1) (reserveForInsert_ok e1 h0)

theorem assignAt_ok {t t' : Table K V} {q : BIt × Nat} {v : V} (h : t.assignAt q v = some t') (h0 : MlOk t) : MlOk t' := by
  unfold Table.assignAt at h
  split at h
  · cases h
  · cases h; exact h0

theorem insertOrAssign_ok {t t' : Table K V} {k : K} {v : V} {r : (BIt × Nat) × Bool}
    (h : t.insertOrAssign k v = some (t', r)) (h0 : MlOk t) : MlOk t' := by
  unfold Table.insertOrAssign at h
  split at h
  · cases h
  · rename_i e; cases h; exact emplaceUnique_ok e h0
  · rename_i e
    rw [Option.map_eq_some_iff] at h
    obtain ⟨t'', h1, h2⟩ := h
    cases h2
    exact assignAt_ok h1 (emplaceUnique_ok e h0)

theorem eraseNode_ok {t t' : Table K V} {q : BIt × Nat} {nx : It} (h : t.eraseNode q = some (t', nx)) (h0 : MlOk t) : MlOk t' := by
  unfold Table.eraseNode at h
  split at h
  · cases h
  · rename_i e
    split at h
    · cases h
    · split at h
      · cases h
      · cases h; exact withNode_ok (Gba.extractIt_size e) h0

theorem extractAt_ok {t t' : Table K V} {q : BIt × Nat} {x : K × V} (h : t.extractAt q = some (t', x)) (h0 : MlOk t) : MlOk t' := by
  unfold Table.extractAt at h
  split at h
  · cases h
  · split at h
    · cases h
    · rename_i e
      split at h
      · cases h
      · cases h; exact withNode_ok (Gba.extractNode_size e) h0

theorem mergeLoop_ok : ∀ {f : Nat} {t o t' o' : Table K V} {it : It}, Table.mergeLoop f t o it = some (t', o') → MlOk t → MlOk o →
    MlOk t' ∧ MlOk o' := by
  intro f
  induction f with
  | zero =>
    intro t o t' o' it h h1 h2
    cases it with
    | none => cases h; exact ⟨h1, h2⟩
    | some p => cases h
  | succ f ih =>
    intro t o t' o' it h h1 h2
    cases it with
    | none => cases h; exact ⟨h1, h2⟩
    | some p =>
      unfold Table.mergeLoop at h
      split at h
      · cases h
      · dsimp only at h
        split at h
        · cases h
        · split at h
          · cases h
          · exact ih h h1 h2
        · split at h
          · cases h
          · rename_i e1
            split at h
            · cases h
            · rename_i e2
              exact ih h (withNode_ok (Gba.insertNode_size e2) h1) (withNode_ok (Gba.extractIt_size e1) h2)

theorem mergeUnique_ok {t o t' o' : Table K V} (h : t.mergeUnique o = some (t', o')) (h1 : MlOk t) (h2 : MlOk o) :
    MlOk t' ∧ MlOk o' := by
  unfold Table.mergeUnique at h
  split at h
  · cases h
  · split at h
    · cases h; exact ⟨h1, h2⟩
    · split at h
      · cases h
      · rename_i e1
        split at h
        · cases h
        · exact mergeLoop_ok h (reserveForInsert_ok e1 h1) h2

theorem mergeEquivLoop_ok : ∀ {f : Nat} {t o t' o' : Table K V}, Table.mergeEquivLoop f t o = some (t', o') → MlOk t → MlOk o →
    MlOk t' ∧ MlOk o' := by
  intro f
  induction f with
  | zero =>
    intro t o t' o' h h1 h2
    unfold Table.mergeEquivLoop at h
    split at h
    · cases h; exact ⟨h1, h2⟩
    · cases h
  | succ f ih =>
    intro t o t' o' h h1 h2
    unfold Table.mergeEquivLoop at h
    split at h
    · cases h; exact ⟨h1, h2⟩
    · split at h
      · cases h
      · cases h
      · split at h
        · cases h
        · rename_i e1
          split at h
          · cases h
          · rename_i e2
            exact ih h (insertNodeEquiv_ok e2 h1) (extractAt_ok e1 h2)

theorem mergeEquiv_ok {t o t' o' : Table K V} (h : t.mergeEquiv o = some (t', o')) (h1 : MlOk t) (h2 : MlOk o) :
    MlOk t' ∧ MlOk o' := by
  unfold Table.mergeEquiv at h
  split at h
  · cases h
  · exact mergeEquivLoop_ok h h1 h2

theorem mergeSelf_ok {t t' : Table K V} (h : t.mergeSelf = some t') (h1 : MlOk t) : MlOk t' := by
  unfold Table.mergeSelf at h
  split at h
  · cases h; exact h1
  · split at h
    · cases h
    · rename_i e1
      split at h
      · cases h
      · split at h
        · cases h; exact reserveForInsert_ok e1 h1
        · cases h

theorem copyBuckets_ok {u : Bool} {t x t' : Table K V} (h : t.copyBuckets u x = some t') (h0 : MlOk t) : MlOk t' := by
  unfold Table.copyBuckets at h
  split at h
  · rename_i t1 l e1 e2
    have : ∀ {b'}, (if u = true then Table.fillFront t1.fns l t1.b else Table.fillEquiv t1.fns l t1.b) = some b' →
        b'.size = t1.b.size := by
      intro b' hb
      split at hb
      · exact fillFront_size hb
      · exact fillEquiv_size hb
    split at h
    · cases h
    · rename_i b' e3
      cases h
      exact withNode_ok (this e3) (reserveForInsert_ok e1 h0)
  · cases h

theorem copyCtor_ok {u : Bool} {x t' : Table K V} {a : Nat} (h : x.copyCtor u a = some t') : MlOk t' := by
  unfold Table.copyCtor at h
  dsimp only at h
  split at h
  · exact copyBuckets_ok h rfl
  · cases h; rfl

theorem moveBucketsFrom_ok {t x t' x' : Table K V} (h : t.moveBucketsFrom x = some (t', x')) (hm : t.mlf = x.mlf) (hx : MlOk x) :
    MlOk t' ∧ MlOk x' := by
  unfold Table.moveBucketsFrom at h
  split at h
  · cases h
  · cases h
    refine ⟨?_, (maxLoadFor_zero _).symm⟩
    show x.maxLoad = maxLoadFor t.mlf x.b.size
    rw [hm]; exact hx

theorem moveCtorAlloc_ok {mv : K × V → K × V} {x t' x' : Table K V} {a : Nat} (h : Table.moveCtorAlloc mv x a = some (t', x'))
    (hx : MlOk x) : MlOk t' ∧ MlOk x' := by
  unfold Table.moveCtorAlloc at h
  dsimp only at h
  split at h
  · exact moveBucketsFrom_ok h rfl hx
  · split at h
    · cases h; exact ⟨rfl, hx⟩
    · split at h
      · rename_i e1 e2
        split at h
        · cases h
        · rename_i e3
          cases h
          exact ⟨withNode_ok (fillFront_size e3) (reserve_ok e1 rfl), hx⟩
      · cases h

theorem moveAssign_ok {p u : Bool} {mv : K × V → K × V} {t x t' x' : Table K V} (hs : SInv t)
    (h : Table.moveAssign p u mv t x = some (t', x')) (hx : MlOk x) : MlOk t' ∧ MlOk x' := by
  unfold Table.moveAssign at h
  split at h
  · split at h
    · cases h
    · exact moveBucketsFrom_ok h rfl hx
  · dsimp only at h
    split at h
    · cases h
    · rename_i t1 e1
      have h1 : MlOk t1 ∧ SInv t1 := by
        split at e1
        · refine ⟨reserveForInsert_ok e1 rfl, ?_⟩
          obtain ⟨t1', g1, g2, _⟩ := reserveForInsert_spec (setMaxLoad_sinv hs x.mlf) x.size
          rw [e1] at g1; cases g1; exact g2.inv
        · cases e1; exact ⟨rfl, setMaxLoad_sinv hs x.mlf⟩
      split at h
      · rename_i t2 l e2 e3
        obtain ⟨t2', xs, g1, g2, g3⟩ := clear_spec h1.2
        rw [e2] at g1; cases g1
        have h2 := g2.sameLoad.ok h1.1
        have : ∀ {b'}, (if u = true then Table.fillFront x.fns l t2.b else Table.fillEquiv x.fns l t2.b) = some b' →
            b'.size = t2.b.size := by
          intro b' hb
          split at hb
          · exact fillFront_size hb
          · exact fillEquiv_size hb
        split at h
        · cases h
        · rename_i b' e4
          cases h
          exact ⟨withNode_ok (n := t2.size + l.length) (this e4) h2, hx⟩
      · cases h

theorem assignSame_ok {u : Bool} {t x t' : Table K V} (hs : SInv t) (h : t.assignSame u x = some t') : MlOk t' := by
  unfold Table.assignSame at h
  dsimp only at h
  split at h
  · cases h
  · rename_i t1 e1
    obtain ⟨t1', g1, g2, _⟩ := reserveForInsert_spec (setMaxLoad_sinv hs x.mlf) x.size
    rw [e1] at g1; cases g1
    have h1 : MlOk t1 := reserveForInsert_ok e1 rfl
    obtain ⟨t2, xs, f1, f2, f3⟩ := clear_spec g2.inv
    rw [f1] at h
    exact copyBuckets_ok h (f2.sameLoad.ok h1)

/-- calls on one container -/
theorem lstep_ok {u : Bool} {t t' : Table K V} {op : SpecC.LOp K V} {res : Spec.Res K V} (hs : SInv t)
    (hsh : u = false → FLawful t.fns ∧ Shape u t.fns t.b ∨ ∀ k, op ≠ .erase k)
    (h : t.lstep u op = some (t', res)) (h0 : MlOk t) : MlOk t' := by
  cases op with
  | insert x =>
    simp only [Table.lstep, Table.opInsert] at h
    split at h
    · split at h
      · cases h
      · rename_i e
        rw [Option.map_eq_some_iff] at h
        obtain ⟨y, _, h2⟩ := h; cases h2
        exact emplaceUnique_ok e h0
    · split at h
      · cases h
      · rename_i e
        rw [Option.map_eq_some_iff] at h
        obtain ⟨y, _, h2⟩ := h; cases h2
        exact emplaceEquiv_ok e h0
  | insertHint i x =>
    simp only [Table.lstep, Table.opInsertHint] at h
    split at h
    · cases h
    · split at h
      · cases h
      · rename_i e
        rw [Option.map_eq_some_iff] at h
        obtain ⟨y, _, h2⟩ := h; cases h2
        split at e
        · exact emplaceHintUnique_ok e h0
        · exact emplaceHintEquiv_ok e h0
  | insertRange fwd xs =>
    simp only [Table.lstep, Table.opInsertRange] at h
    rw [Option.map_eq_some_iff] at h
    obtain ⟨y, h1, h2⟩ := h; cases h2
    split at h1
    · exact insertRangeUnique_ok h1 h0
    · split at h1
      · exact insertRangeEquiv_ok h1 h0
      · exact insertRangeEquiv1_ok h1 h0
  | insertOrAssign k v =>
    simp only [Table.lstep, Table.opInsertOrAssign] at h
    split at h
    · cases h
    · rename_i e
      rw [Option.map_eq_some_iff] at h
      obtain ⟨y, _, h2⟩ := h; cases h2
      exact insertOrAssign_ok e h0
  | index k d =>
    simp only [Table.lstep, Table.opIndex] at h
    split at h
    · cases h
    · rename_i e
      rw [Option.map_eq_some_iff] at h
      obtain ⟨y, _, h2⟩ := h; cases h2
      exact emplaceUnique_ok e h0
  | «at» k => simp only [Table.lstep] at h; rw [Option.map_eq_some_iff] at h; obtain ⟨y, _, h2⟩ := h; cases h2; exact h0
  | find k => simp only [Table.lstep] at h; rw [Option.map_eq_some_iff] at h; obtain ⟨y, _, h2⟩ := h; cases h2; exact h0
  | count k => simp only [Table.lstep] at h; rw [Option.map_eq_some_iff] at h; obtain ⟨y, _, h2⟩ := h; cases h2; exact h0
  | contains k => simp only [Table.lstep] at h; rw [Option.map_eq_some_iff] at h; obtain ⟨y, _, h2⟩ := h; cases h2; exact h0
  | equalRange k => simp only [Table.lstep] at h; rw [Option.map_eq_some_iff] at h; obtain ⟨y, _, h2⟩ := h; cases h2; exact h0
  | erase k =>
    simp only [Table.lstep, Table.opErase] at h
    rw [Option.map_eq_some_iff] at h
    obtain ⟨⟨y, n⟩, h1, h2⟩ := h; cases h2
    split at h1
    · unfold Table.eraseKeyUnique at h1
      dsimp only at h1
      split at h1
      · split at h1
        · cases h1
        · split at h1
          · cases h1; exact h0
          · split at h1
            · rename_i e _
              cases h1
              exact withNode_ok (Gba.extractNode_size e) h0
            · cases h1
      · cases h1; exact h0
    · rename_i hu
      rcases hsh (by simpa using hu) with ⟨g1, g2⟩ | g
      · obtain ⟨t2, gone, f1, f2, _⟩ := eraseKeyEquiv_spec hs g1 (by
          have : u = false := by simpa using hu
          rw [this] at g2; exact g2) k
        rw [h1] at f1; cases f1
        exact f2.sameLoad.ok h0
      · exact absurd rfl (g k)
  | eraseAt i =>
    simp only [Table.lstep, Table.opEraseAt] at h
    split at h
    · cases h
    · cases h
    · split at h
      · rename_i e _ _ _ e2
        cases h
        exact eraseNode_ok e2 h0
      · cases h
  | eraseRange i n =>
    simp only [Table.lstep, Table.opEraseRange] at h
    rw [Option.map_eq_some_iff] at h
    obtain ⟨y, h1, h2⟩ := h; cases h2
    have key : ∀ (rem : Nat) (t t' : Table K V) (b : BIt) (i : Nat), Table.eraseRangeLoop rem t b i = some t' → MlOk t → MlOk t' := by
      intro rem
      induction rem with
      | zero => intro t t' b i h h0; cases h; exact h0
      | succ rem ih =>
        intro t t' b i h h0
        unfold Table.eraseRangeLoop at h
        split at h
        · cases h
        · split at h
          · cases h
          · split at h
            · cases h
            · dsimp only at h
              split at h
              · split at h
                · cases h
                · split at h
                  · cases h
                  · rename_i b'' e
                    refine ih _ _ _ _ h ?_
                    have : b''.size = t.b.size := by
                      split at e
                      · have := Gba.unlinkBucket_size e; exact this
                      · cases e; rfl
                    exact withNode_ok (t := t) (n := t.size - 1) this h0
              · exact ih _ _ _ _ h h0
    split at h1
    · cases h1
    · unfold Table.eraseRange at h1
      split at h1
      · split at h1
        · cases h1; exact h0
        · cases h1
      · exact key _ _ _ _ _ h1 h0
  | extract k =>
    simp only [Table.lstep, Table.opExtract] at h
    rw [Option.map_eq_some_iff] at h
    obtain ⟨⟨y, n⟩, h1, h2⟩ := h; cases h2
    split at h1
    · cases h1
    · cases h1; exact h0
    · rw [Option.map_eq_some_iff] at h1
      obtain ⟨⟨y', n'⟩, h1, h2⟩ := h1; cases h2
      exact extractAt_ok h1 h0
  | eraseIf pr =>
    obtain ⟨t2, xs, ys, f1, f2, _⟩ := eraseIf_spec pr hs
    simp only [Table.lstep, f1] at h
    cases h; exact f2.sameLoad.ok h0
  | clear =>
    obtain ⟨t2, xs, f1, f2, _⟩ := clear_spec hs
    simp only [Table.lstep, f1] at h
    cases h; exact f2.sameLoad.ok h0
  | rehash n =>
    simp only [Table.lstep] at h; rw [Option.map_eq_some_iff] at h; obtain ⟨y, h1, h2⟩ := h; cases h2; exact rehash_ok h1 h0
  | reserve n =>
    simp only [Table.lstep] at h; rw [Option.map_eq_some_iff] at h; obtain ⟨y, h1, h2⟩ := h; cases h2; exact reserve_ok h1 h0
  | maxLoadFactor z => cases h; rfl
  | size => cases h; exact h0
  | isEmpty => cases h; exact h0
  | iterate =>
    simp only [Table.lstep] at h; rw [Option.map_eq_some_iff] at h; obtain ⟨y, h1, h2⟩ := h; cases h2; exact h0

theorem MlOk.upd {s : Nat → Table K V} (h : ∀ r, MlOk (s r)) {r : Nat} {t : Table K V} (ht : MlOk t) :
    ∀ q, MlOk (Spec.upd s r t q) := by
  intro q; unfold Spec.upd; split
  · exact ht
  · exact h q

/-- the call is not a copy assignment that propagates an unequal allocator -/
def NoPocca (tr : Spec.Traits) (s : Nat → SpecC.Obj K V) : SpecC.Op K V → Prop
  | .copyAssign r q => r = q ∨ tr.pocca = false ∨ (s r).al = (s q).al
  | _ => True

theorem step_ok (c : MCfg K V) {s s' : Nat → Table K V} {a : Nat → SpecC.Obj K V} (hr : RS c.u s a) {op : SpecC.Op K V}
    {res : Spec.Res K V} (hp : SpecC.Pre c.u c.tr c.veq a op) (hn : NoPocca c.tr a op) (h : step c s op = some (s', res))
    (h0 : ∀ r, MlOk (s r)) : ∀ r, MlOk (s' r) := by
  cases op with
  | on r o =>
    simp only [step] at h
    rw [Option.map_eq_some_iff] at h
    obtain ⟨⟨t', res'⟩, h1, h2⟩ := h; cases h2
    refine MlOk.upd h0 (lstep_ok (hr r).inv ?_ h1 (h0 r))
    intro _
    by_cases he : ∃ k, o = .erase k
    · obtain ⟨k, rfl⟩ := he
      exact Or.inl ⟨(hr r).law, (hr r).shape hp⟩
    · exact Or.inr (fun k hk => he ⟨k, hk⟩)
  | construct r hf e al n =>
    simp only [step] at h
    rw [Option.map_eq_some_iff] at h
    obtain ⟨_, h1, h2⟩ := h; cases h2
    exact MlOk.upd h0 rfl
  | copyConstruct r q al =>
    simp only [step] at h
    split at h
    · rename_i e; cases h; exact MlOk.upd h0 (copyCtor_ok e)
    · cases h
  | moveConstruct r q =>
    simp only [step] at h
    rw [Option.map_eq_some_iff] at h
    obtain ⟨_, h1, h2⟩ := h; cases h2
    exact MlOk.upd (MlOk.upd h0 (h0 q)) (maxLoadFor_zero _).symm
  | moveConstructAlloc r q al =>
    simp only [step] at h
    split at h
    · rename_i e
      cases h
      have := moveCtorAlloc_ok e (h0 q)
      exact MlOk.upd (MlOk.upd h0 this.1) this.2
    · cases h
  | copyAssign r q =>
    simp only [step] at h
    split at h
    · cases h; exact h0
    · rename_i hrq
      rw [Option.map_eq_some_iff] at h
      obtain ⟨t', h1, h2⟩ := h; cases h2
      refine MlOk.upd h0 ?_
      unfold Table.assign at h1
      split at h1
      · rename_i g
        rcases hn with hn | hn | hn
        · exact absurd hn hrq
        · rw [hn] at g; exact absurd g.1 (by simp)
        · exact absurd (((hr r).al.trans hn).trans (hr q).al.symm) g.2
      · exact assignSame_ok (hr r).inv h1
  | moveAssign r q =>
    simp only [step] at h
    split at h
    · cases h; exact h0
    · rw [Option.map_eq_some_iff] at h
      obtain ⟨⟨t', x'⟩, h1, h2⟩ := h; cases h2
      have := moveAssign_ok (hr r).inv h1 (h0 q)
      exact MlOk.upd (MlOk.upd h0 this.1) this.2
  | swap r q =>
    simp only [step] at h
    split at h
    · cases h; exact h0
    · rw [Option.map_eq_some_iff] at h
      obtain ⟨⟨t', x'⟩, h1, h2⟩ := h; cases h2
      unfold Table.swap at h1
      split at h1
      · cases h1
      · cases h1
        refine MlOk.upd (MlOk.upd h0 ?_) ?_
        · exact h0 q
        · exact h0 r
  | merge r q =>
    simp only [step] at h
    split at h
    · split at h
      · rw [Option.map_eq_some_iff] at h
        obtain ⟨t', h1, h2⟩ := h; cases h2
        exact MlOk.upd h0 (mergeSelf_ok h1 (h0 r))
      · rw [Option.map_eq_some_iff] at h
        obtain ⟨⟨t', x'⟩, h1, h2⟩ := h; cases h2
        have := mergeUnique_ok h1 (h0 r) (h0 q)
        exact MlOk.upd (MlOk.upd h0 this.1) this.2
    · split at h
      · cases h
      · rw [Option.map_eq_some_iff] at h
        obtain ⟨⟨t', x'⟩, h1, h2⟩ := h; cases h2
        have := mergeEquiv_ok h1 (h0 r) (h0 q)
        exact MlOk.upd (MlOk.upd h0 this.1) this.2
  | transfer r q k =>
    simp only [step] at h
    split at h
    · cases h
    · cases h; exact h0
    · rename_i x e hex
      have hx : MlOk x := by
        unfold Table.opExtract at hex
        split at hex
        · cases hex
        · cases hex
        · rw [Option.map_eq_some_iff] at hex
          obtain ⟨⟨y', n'⟩, g1, g2⟩ := hex; cases g2
          exact extractAt_ok g1 (h0 q)
      split at h
      · cases h
      · rw [Option.map_eq_some_iff] at h
        obtain ⟨⟨t', b⟩, h1, h2⟩ := h; cases h2
        refine MlOk.upd (MlOk.upd h0 ?_) hx
        split at h1
        · rw [Option.map_eq_some_iff] at h1
          obtain ⟨⟨y', n', n2⟩, g1, g2⟩ := h1; cases g2
          exact insertNodeUnique_ok g1 (h0 r)
        · rw [Option.map_eq_some_iff] at h1
          obtain ⟨⟨y', n'⟩, g1, g2⟩ := h1; cases g2
          exact insertNodeEquiv_ok g1 (h0 r)
  | equal r q =>
    simp only [step] at h
    rw [Option.map_eq_some_iff] at h
    obtain ⟨b, h1, h2⟩ := h; cases h2
    exact h0

theorem start_ok (hf : K → Nat) (e : K → K → Bool) : ∀ r, MlOk ((start hf e : Nat → Table K V) r) := fun _ => rfl

end Fca

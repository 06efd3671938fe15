/-
Property theorems C23 for whole programs: range insertion, merging, node insertion, copies and moves included.
-/
import Verif.Props.FcaLoad
import Verif.Fca.LoadProg

namespace Props.Closed
open Fca
open Spec (Res Traits upd)
open SpecC (Op LOp Obj LPre)
open Props (sampleHash natEq pairEq sample_lawful)
variable {K V : Type} {P : Policy}

/-- the calls that only remove elements -/
def Erasing : LOp K V → Prop
  | .erase _ => True
  | .eraseAt _ => True
  | .eraseRange _ _ => True
  | .extract _ => True
  | .eraseIf _ => True
  | .clear => True
  | _ => False

/-- the calls that only look -/
def Looking : LOp K V → Prop
  | .at _ => True
  | .find _ => True
  | .count _ => True
  | .contains _ => True
  | .equalRange _ => True
  | .size => True
  | .isEmpty => True
  | .iterate => True
  | _ => False

theorem looking_same {u : Bool} {t t' : Table K V} {op : LOp K V} {res : Res K V} (ho : Looking op)
    (h : t.lstep u op = some (t', res)) : t' = t := by
  cases op <;> simp only [Looking] at ho <;> simp only [Table.lstep] at h
  all_goals first
    | (cases h; rfl)
    | (rw [Option.map_eq_some_iff] at h; obtain ⟨y, _, h2⟩ := h; cases h2; rfl)

theorem erasing_removed {u : Bool} {t t' : Table K V} {o : Obj K V} {op : LOp K V} {res : Res K V} (h : R u t o)
    (hp : LPre u o op) (ho : Erasing op) (he : t.lstep u op = some (t', res)) : ∃ xs, Removed t xs t' := by
  cases op <;> simp only [Erasing] at ho
  case erase k =>
    have hd : o.defined = true := hp
    simp only [Table.lstep, Table.opErase] at he
    cases u with
    | true =>
      rw [if_pos rfl] at he
      rcases eraseKeyUnique_spec h.inv h.law (h.shape hd).1 k with ⟨h1, h2⟩ | ⟨t2, x, h1, h2, h3⟩
      · rw [h1] at he; cases he; exact ⟨_, Removed.nil h.inv⟩
      · rw [h1] at he; cases he; exact ⟨_, h2⟩
    | false =>
      rw [if_neg (by simp)] at he
      obtain ⟨t2, gone, h1, h2, h3, h4⟩ := eraseKeyEquiv_spec h.inv h.law (h.shape hd) k
      rw [h1] at he; cases he; exact ⟨_, h2⟩
  case eraseAt i =>
    obtain ⟨hd, hi⟩ := hp
    have hsz := h.size hd
    simp only [Table.lstep, Table.opEraseAt] at he
    rcases advance_begin h.inv (i := i) (by omega) with ⟨_, h0⟩ | ⟨L, it, pre, post, hg, h1, h2, h3⟩
    · omega
    · have hlen := At.length h.inv hg h2
      cases post with
      | nil => simp at hlen; omega
      | cons x post =>
        obtain ⟨q, rfl⟩ := h2.some_of_cons
        obtain ⟨t2, L', it', e1, e2, e3, e4⟩ := eraseNode_at h.inv hg h2
        simp only [h1, h2.deref hg, e1] at he
        cases he; exact ⟨_, e2⟩
  case eraseRange i n =>
    obtain ⟨hd, hi⟩ := hp
    have hsz := h.size hd
    simp only [Table.lstep, Table.opEraseRange] at he
    rcases advance_begin h.inv (i := i) (by omega) with ⟨h1, h0⟩ | ⟨L, it, pre, post, hg, h1, h2, h3⟩
    · have : n = 0 := by omega
      subst this
      simp only [h1, Table.eraseRange, if_true, Option.map_some] at he
      cases he; exact ⟨_, Removed.nil h.inv⟩
    · have hlen := At.length h.inv hg h2
      have hl : (post.take n).length = n := by rw [List.length_take]; omega
      obtain ⟨t2, L', e1, e2, e3, e4⟩ := eraseRange_at h.inv hg (mid := post.take n) (post := post.drop n)
        (by rw [List.take_append_drop]; exact h2)
      rw [hl] at e1
      simp only [h1, e1, Option.map_some] at he
      cases he; exact ⟨_, e2⟩
  case extract k =>
    have hd : o.defined = true := hp
    simp only [Table.lstep, Table.opExtract] at he
    rcases find_spec h.inv h.law (h.shape hd).1 k with ⟨h1, h2⟩ | ⟨i, x, h1, _, _, h2, h3⟩
    · simp only [h1, Option.map_some] at he
      cases he; exact ⟨_, Removed.nil h.inv⟩
    · obtain ⟨L, hg⟩ := h.inv.ginv_of_mem (h2.mem h.inv)
      obtain ⟨pre, post, hat⟩ := h2.at_ hg
      obtain ⟨t2, L', e1, e2, e3, e4⟩ := extractAt_at h.inv hg hat
      simp only [h1, e1, Option.map_some] at he
      cases he; exact ⟨_, e2⟩
  case eraseIf pr =>
    obtain ⟨t2, xs, ys, h1, h2, h3, h4, h5, h6⟩ := eraseIf_spec pr h.inv
    simp only [Table.lstep] at he
    rw [h1] at he; cases he; exact ⟨_, h2⟩
  case clear =>
    obtain ⟨t2, xs, h1, h2, h3⟩ := clear_spec h.inv
    simp only [Table.lstep] at he
    rw [h1] at he; cases he; exact ⟨_, h2⟩

theorem grown_load {t t' : Table K V} (hs : SInv t) (hok : MlOk t) (hN : t.size + 1 ≤ P.N) (h : Grown t t') : Load P t t' := by
  obtain ⟨t1, g1, g2, g3, g4⟩ := h
  obtain ⟨t2, f1, f2, _⟩ := growForOne_spec hs
  rw [g1] at f1; cases f1
  refine Or.inr (fun hm => ?_)
  have := growForOne_room (P := P) hs hok hN g1 (by rw [← f2.mlf, ← g4]; exact hm)
  rw [g2, g3, f2.size]; exact this

theorem insertRangeUnique_load : ∀ (xs : List (K × V)) {t t' : Table K V}, Good true t → MlOk t → t.size + xs.length ≤ P.N →
    Table.insertRangeUnique xs t = some t' → Load P t t'
  | [], t, t', _, _, _, h => by cases h; exact .refl _
  | x :: xs, t, t', hg, hok, hN, h => by
    simp only [List.length_cons] at hN
    simp only [Table.insertRangeUnique] at h
    rcases emplaceUnique_spec hg.inv hg.law hg.shape x with ⟨q, e, h1, _⟩ | ⟨t1, q, h1, _, h2, h3, _⟩
    · rw [h1] at h
      exact insertRangeUnique_load xs hg hok (by omega) h
    · rw [h1] at h
      have hg1 : Good true t1 := ⟨h2.inv, by rw [h2.fns]; exact hg.law, by rw [h2.fns]; exact h3⟩
      exact (emplaceUnique_load hg.inv hok (by omega) h1).trans
        (insertRangeUnique_load xs hg1 (emplaceUnique_ok h1 hok) (by rw [h2.size]; omega) h)

theorem insertRangeEquiv1_load : ∀ (xs : List (K × V)) {t t' : Table K V}, Good false t → MlOk t → t.size + xs.length ≤ P.N →
    Table.insertRangeEquiv1 xs t = some t' → Load P t t'
  | [], t, t', _, _, _, h => by cases h; exact .refl _
  | x :: xs, t, t', hg, hok, hN, h => by
    simp only [List.length_cons] at hN
    simp only [Table.insertRangeEquiv1] at h
    obtain ⟨t1, q, h1, h2, h3, _⟩ := emplaceEquiv_spec hg.inv hg.law hg.shape x
    rw [h1] at h
    have hg1 : Good false t1 := ⟨h2.inv, by rw [h2.fns]; exact hg.law, by rw [h2.fns]; exact h3⟩
    exact (emplaceEquiv_load hg.inv hok (by omega) h1).trans
      (insertRangeEquiv1_load xs hg1 (emplaceEquiv_ok h1 hok) (by rw [h2.size]; omega) h)

theorem insertRangeEquiv_load {xs : List (K × V)} {t t' : Table K V} (hg : Good false t) (hok : MlOk t)
    (hN : t.size + xs.length ≤ P.N) (h : Table.insertRangeEquiv t xs = some t') : Load P t t' := by
  unfold Table.insertRangeEquiv at h
  split at h
  · cases h; exact .refl _
  · rw [Option.map_eq_some_iff] at h
    obtain ⟨⟨a, b⟩, h1, rfl⟩ := h
    exact emplaceEquiv_load hg.inv hok hN h1
  · rename_i h0 _
    split at h
    · cases h
    · rename_i t1 e1
      rw [Option.map_eq_some_iff] at h
      obtain ⟨b', h1, rfl⟩ := h
      have g2 := reserveForInsert_kept hg.inv e1
      have hx : 0 < xs.length := List.length_pos_iff.2 (fun e => h0 e)
      refine Or.inr (fun hm => ?_)
      have := reserveForInsert_room (P := P) hg.inv hok (by omega) hN e1 (g2.mlf ▸ hm)
      show P.ok (t1.size + xs.length) b'.size
      rw [fillEquiv_size h1, g2.size]; exact this

/-- how many elements a call on one container may add -/
def cnt : LOp K V → Nat
  | .insertRange _ xs => xs.length
  | _ => 1

theorem lstep_load {u : Bool} {t t' : Table K V} {o : Obj K V} {op : LOp K V} {res : Res K V} (h : R u t o) (hok : MlOk t)
    (hp : LPre u o op) (hN : t.size + cnt op ≤ P.N) (hz : ∀ z, op ≠ .maxLoadFactor z)
    (he : t.lstep u op = some (t', res)) : Load P t t' := by
  have erase : Erasing op → Load P t t' := fun ho => by
    obtain ⟨xs, hr⟩ := erasing_removed h hp ho he
    exact Or.inl (hr.noMore h.inv)
  have look : Looking op → Load P t t' := fun ho => by rw [looking_same ho he]; exact .refl _
  have single : SingleInsert op → t.size + 1 ≤ P.N → Load P t t' := fun ho hN => by
    rcases single_cases ho he with ⟨h1, h2, h3⟩ | hg
    · exact Or.inl ⟨h2.le, h1, h3⟩
    · exact grown_load h.inv hok hN hg
  cases op with
  | insert x => exact single trivial hN
  | insertHint i x => exact single trivial hN
  | insertOrAssign k v => exact single trivial hN
  | index k d => exact single trivial hN
  | insertRange fwd xs =>
    have hg : o.defined = true → Good u t := fun hd => ⟨h.inv, h.law, h.shape hd⟩
    have hg : Good u t := hg hp
    simp only [Table.lstep, Table.opInsertRange] at he
    rw [Option.map_eq_some_iff] at he
    obtain ⟨y, h1, h2⟩ := he; cases h2
    split at h1
    · rename_i hu; subst hu; exact insertRangeUnique_load xs hg hok hN h1
    · rename_i hu
      have hu : u = false := by simpa using hu
      subst hu
      split at h1
      · exact insertRangeEquiv_load hg hok hN h1
      · exact insertRangeEquiv1_load xs hg hok hN h1
  | rehash n =>
    simp only [Table.lstep] at he; rw [Option.map_eq_some_iff] at he; obtain ⟨y, h1, h2⟩ := he; cases h2
    exact Or.inr (rehash_within h.inv (by omega) h1)
  | reserve n =>
    simp only [Table.lstep] at he; rw [Option.map_eq_some_iff] at he; obtain ⟨y, h1, h2⟩ := he; cases h2
    exact Or.inr (rehash_within h.inv (by omega) h1)
  | maxLoadFactor z => exact absurd rfl (hz z)
  | _ => first | exact erase trivial | exact look trivial

/-! ### calls on two containers -/

theorem mergeLoop_bsize : ∀ {f : Nat} {t o t' o' : Table K V} {it : It}, Table.mergeLoop f t o it = some (t', o') →
    t'.b.size = t.b.size := by
  intro f
  induction f with
  | zero =>
    intro t o t' o' it h
    cases it with
    | none => cases h; rfl
    | some p => cases h
  | succ f ih =>
    intro t o t' o' it h
    cases it with
    | none => cases h; rfl
    | some p =>
      unfold Table.mergeLoop at h
      split at h
      · cases h
      · dsimp only at h
        split at h
        · cases h
        · split at h
          · cases h
          · exact ih h
        · split at h
          · cases h
          · split at h
            · cases h
            · rename_i e2
              exact (ih h).trans (Gba.insertNode_size e2)

theorem AddedAll.size {t t' : Table K V} {xs : List (K × V)} (hs : SInv t) (h : AddedAll t xs t') :
    t'.size = t.size + xs.length := by
  rw [h.inv.len, h.perm.length_eq, List.length_append, ← hs.len]; omega

theorem mergeUnique_load {t o t' o' : Table K V} (hg : Good true t) (hok : MlOk t) (hso : SInv o) (hal : t.al = o.al)
    (hN : t.size + o.size ≤ P.N) (h : t.mergeUnique o = some (t', o')) : Load P t t' ∧ NoMore o o' := by
  obtain ⟨t2, o2, took, kept, e1, _, e3, e4, _, e5⟩ := mergeUnique_spec hg.inv hg.law hg.shape hso hal
  rw [h] at e1; cases e1
  refine ⟨?_, e5.noMore hso⟩
  unfold Table.mergeUnique at h
  rw [if_neg (by simp [hal])] at h
  split at h
  · cases h; exact .refl _
  · rename_i h0
    split at h
    · cases h
    · rename_i t1 g1
      split at h
      · cases h
      · refine Or.inr (fun hm => ?_)
        have hs := AddedAll.size hg.inv e4
        have hl := e3.length_eq
        rw [List.length_append, ← hso.len] at hl
        rw [e4.mlf] at hm
        have := reserveForInsert_room (P := P) hg.inv hok (by omega) hN g1 hm
        rw [mergeLoop_bsize h]
        exact P.mono this (by omega) (Nat.le_refl _)

theorem mergeSelf_load {t t' : Table K V} (hg : Good true t) (hok : MlOk t) (hN : t.size + t.size ≤ P.N)
    (h : t.mergeSelf = some t') : Load P t t' := by
  obtain ⟨t2, e1, e2⟩ := mergeSelf_spec hg.inv hg.law hg.shape
  rw [h] at e1; cases e1
  unfold Table.mergeSelf at h
  split at h
  · cases h; exact .refl _
  · split at h
    · cases h
    · rename_i t1 g1
      split at h
      · cases h
      · split at h
        · cases h
          refine Or.inr (fun hm => ?_)
          have := reserveForInsert_room (P := P) hg.inv hok (by omega) hN g1 (e2.mlf ▸ hm)
          exact P.mono this (by rw [e2.size]; omega) (Nat.le_refl _)
        · cases h

theorem mergeEquivLoop_load : ∀ (n f : Nat) {t o t' o' : Table K V}, Good false t → MlOk t → SInv o → o.size = n → n ≤ f →
    t.size + n ≤ P.N → Table.mergeEquivLoop f t o = some (t', o') → Load P t t' := by
  intro n
  induction n with
  | zero =>
    intro f t o t' o' hg hok hso h0 _ hN h
    cases f <;> (unfold Table.mergeEquivLoop at h; rw [if_pos h0] at h; cases h; exact .refl _)
  | succ n ih =>
    intro f t o t' o' hg hok hso hn hf hN h
    cases f with
    | zero => omega
    | succ f =>
      unfold Table.mergeEquivLoop at h
      rw [if_neg (by omega)] at h
      rcases begin_spec hso with ⟨h1, h2⟩ | ⟨L, it, h1, h2, h3, h4, h5⟩
      · have := hso.len; rw [h2] at this; simp at this; omega
      · rw [h2] at h
        cases hel : o.b.elems L with
        | nil => rw [hel] at h5; simp at h5; omega
        | cons x post =>
          rw [hel] at h3
          obtain ⟨q, rfl⟩ := h3.some_of_cons
          dsimp only at h
          obtain ⟨o1, L1, e1, e2, e3, e4⟩ := extractAt_at hso h1 h3
          rw [e1] at h; dsimp only at h
          obtain ⟨t1, q1, i1, i2, i3, i4⟩ := insertNodeEquiv_spec hg.inv hg.law hg.shape x
          rw [i1] at h; dsimp only at h
          have hn1 := e2.size
          simp at hn1
          have hg1 : Good false t1 := ⟨i2.inv, by rw [i2.fns]; exact hg.law, by rw [i2.fns]; exact i3⟩
          exact (insertNodeEquiv_load hg.inv hok (by omega) i1).trans
            (ih f hg1 (insertNodeEquiv_ok i1 hok) e2.inv (by omega) (by omega) (by rw [i2.size]; omega) h)

theorem mergeEquiv_load {t o t' o' : Table K V} (hg : Good false t) (hok : MlOk t) (hso : SInv o) (hal : t.al = o.al)
    (hN : t.size + o.size ≤ P.N) (h : t.mergeEquiv o = some (t', o')) : Load P t t' ∧ NoMore o o' := by
  obtain ⟨t2, o2, took, e1, _, e4, _, e5, _⟩ := mergeEquiv_spec hg.inv hg.law hg.shape hso hal
  rw [h] at e1; cases e1
  refine ⟨?_, e5.noMore hso⟩
  unfold Table.mergeEquiv at h
  rw [if_neg (by simp [hal])] at h
  exact mergeEquivLoop_load _ _ hg hok hso rfl (Nat.le_refl _) hN h

theorem copyBuckets_within {u : Bool} {t x t' : Table K V} (hs : SInv t) (hok : MlOk t) (h0 : t.size = 0) (hx : SInv x)
    (hN : x.size ≤ P.N) (h : t.copyBuckets u x = some t') : Within P t' := by
  unfold Table.copyBuckets at h
  obtain ⟨l, e1, _, e3, _⟩ := iterate_spec hx
  rw [e1] at h
  split at h
  · rename_i t1 l' g1 g2
    cases g2
    have hb : ∀ {b'}, (if u = true then Table.fillFront t1.fns l t1.b else Table.fillEquiv t1.fns l t1.b) = some b' →
        b'.size = t1.b.size := by
      intro b' hb
      split at hb
      · exact fillFront_size hb
      · exact fillEquiv_size hb
    split at h
    · cases h
    · rename_i b' e4
      cases h
      have g2 := reserveForInsert_kept hs g1
      intro hm
      show P.ok (t1.size + l.length) b'.size
      rw [hb e4, g2.size, h0, e3]
      rcases Nat.eq_zero_or_pos x.size with hx0 | hx0
      · rw [hx0]; exact P.zero _
      · rw [Nat.zero_add]
        exact reserveForInsert_room (P := P) hs hok hx0 hN g1 (g2.mlf ▸ hm)
  · cases h

theorem copyCtor_within {u : Bool} {x t' : Table K V} {a : Nat} (hx : SInv x) (hN : x.size ≤ P.N) (h : x.copyCtor u a = some t') :
    Within P t' := by
  unfold Table.copyCtor at h
  dsimp only at h
  split at h
  · exact copyBuckets_within (fresh_sinv _ _ _ _) rfl rfl hx hN h
  · cases h; exact within_empty rfl

theorem assignSame_within {u : Bool} {t x t' : Table K V} (hs : SInv t) (hx : SInv x) (hN : x.size ≤ P.N)
    (h : t.assignSame u x = some t') : Within P t' := by
  unfold Table.assignSame at h
  dsimp only at h
  split at h
  · cases h
  · rename_i t1 e1
    obtain ⟨t1', g1, g2, _⟩ := reserveForInsert_spec (setMaxLoad_sinv hs x.mlf) x.size
    rw [e1] at g1; cases g1
    have h1 : MlOk t1 := reserveForInsert_ok e1 rfl
    obtain ⟨t2, xs, f1, f2, f3⟩ := clear_spec g2.inv
    rw [f1] at h
    have hs2 : SInv ({ t2 with fns := x.fns } : Table K V) := ⟨f2.inv.wf, f2.inv.mal, f2.inv.len, f2.inv.ml⟩
    refine copyBuckets_within hs2 (f2.sameLoad.ok h1) ?_ hx hN h
    show t2.size = 0
    rw [f2.inv.len, f3]; rfl

theorem movedFrom_noMore (mv : K × V → K × V) (x : Table K V) : NoMore x (Table.movedFrom mv x) := ⟨Nat.le_refl _, rfl, rfl⟩

theorem moveBucketsFrom_load {t x t' x' : Table K V} (h : t.moveBucketsFrom x = some (t', x')) (hm : t.mlf = x.mlf)
    (hx : Within P x) : Within P t' ∧ Within P x' := by
  unfold Table.moveBucketsFrom at h
  split at h
  · cases h
  · cases h
    refine ⟨fun h => hx (by rw [← hm]; exact h), within_empty rfl⟩

theorem moveCtorAlloc_load {mv : K × V → K × V} {x t' x' : Table K V} {a : Nat} (hx : SInv x) (hN : x.size ≤ P.N)
    (h : Table.moveCtorAlloc mv x a = some (t', x')) (hw : Within P x) : Within P t' ∧ Within P x' := by
  unfold Table.moveCtorAlloc at h
  dsimp only at h
  split at h
  · exact moveBucketsFrom_load h rfl hw
  · split at h
    · cases h; exact ⟨within_empty rfl, hw⟩
    · rename_i h0
      split at h
      · rename_i t1 l e1 e2
        split at h
        · cases h
        · rename_i b' e3
          cases h
          refine ⟨fun hm => ?_, (movedFrom_noMore mv x).within hw⟩
          have hs := fresh_sinv (K := K) (V := V) x.fns a x.bucketCount x.mlf
          obtain ⟨t1', g1, g2, _⟩ := reserve_spec hs x.size
          have g3 := g1.symm.trans e1
          cases g3
          obtain ⟨l', f1, _, f3, _⟩ := iterate_spec hx
          rw [e2] at f1; cases f1
          show P.ok (t1.size + l.length) b'.size
          rw [fillFront_size e3, g2.size, f3]
          show P.ok (0 + x.size) _
          rw [Nat.zero_add]
          exact reserve_room hs (by omega) hN e1 (g2.mlf ▸ hm)
      · cases h

theorem moveAssign_load {p u : Bool} {mv : K × V → K × V} {t x t' x' : Table K V} (hs : SInv t) (hx : SInv x) (hN : x.size ≤ P.N)
    (h : Table.moveAssign p u mv t x = some (t', x')) (hw : Within P x) : Within P t' ∧ Within P x' := by
  unfold Table.moveAssign at h
  split at h
  · split at h
    · cases h
    · exact moveBucketsFrom_load h rfl hw
  · dsimp only at h
    split at h
    · cases h
    · rename_i t1 e1
      have hs0 := setMaxLoad_sinv hs x.mlf
      have h1 : SInv t1 ∧ t1.mlf = x.mlf ∧ (0 < x.size → t1.mlf = some P.m → P.ok x.size t1.b.size) := by
        split at e1
        · rename_i h0
          have g2 := reserveForInsert_kept hs0 e1
          refine ⟨g2.inv, g2.mlf, fun _ hm => reserveForInsert_room (P := P) hs0 rfl h0 hN e1 (g2.mlf ▸ hm)⟩
        · rename_i h0
          cases e1; exact ⟨hs0, rfl, fun h => absurd h h0⟩
      split at h
      · rename_i t2 l e2 e3
        obtain ⟨t2', xs, g1, g2, g3⟩ := clear_spec h1.1
        rw [e2] at g1; cases g1
        have hb : ∀ {b'}, (if u = true then Table.fillFront x.fns l t2.b else Table.fillEquiv x.fns l t2.b) = some b' →
            b'.size = t2.b.size := by
          intro b' hb
          split at hb
          · exact fillFront_size hb
          · exact fillEquiv_size hb
        split at h
        · cases h
        · rename_i b' e4
          cases h
          refine ⟨fun hm => ?_, (movedFrom_noMore mv x).within hw⟩
          obtain ⟨l', f1, _, f3, _⟩ := iterate_spec hx
          rw [e3] at f1; cases f1
          have h20 : t2.size = 0 := by rw [g2.inv.len, g3]; rfl
          show P.ok (t2.size + l.length) b'.size
          rw [hb e4, h20, f3, Nat.zero_add, g2.bsize]
          rcases Nat.eq_zero_or_pos x.size with hx0 | hx0
          · rw [hx0]; exact P.zero _
          · exact h1.2.2 hx0 (g2.mlf ▸ hm)
      · cases h

/-! ### calls of a program -/

/-- the calls that may make a container larger by adding elements one by one -/
def Adding : Op K V → Prop
  | .on _ (.maxLoadFactor _) => False
  | .on _ _ => True
  | .merge _ _ => True
  | .transfer _ _ _ => True
  | _ => False

/-- how many elements a call brings along itself -/
def opCnt : Op K V → Nat
  | .on _ o => cnt o
  | _ => 1

theorem load_upd {s : Nat → Table K V} {r : Nat} {t : Table K V} (h : Load P (s r) t) : ∀ i, Load P (s i) (upd s r t i) := by
  intro i
  unfold upd
  split
  · subst_vars; exact h
  · exact .refl _

theorem load_upd2 {s : Nat → Table K V} {r q : Nat} {t x : Table K V} (h : Load P (s r) t) (hx : Load P (s q) x) :
    ∀ i, Load P (s i) (upd (upd s r t) q x i) := by
  intro i
  by_cases hi : i = q
  · subst hi; simp only [upd, if_pos]; exact hx
  · simp only [upd, if_neg hi]; exact load_upd h i

theorem step_adding (c : MCfg K V) {s s' : Nat → Table K V} {a : Nat → Obj K V} (hr : RS c.u s a) {op : Op K V}
    {res : Res K V} (hp : SpecC.Pre c.u c.tr c.veq a op) (h0 : ∀ r, MlOk (s r))
    (hN : ∀ r q, (s r).size + (s q).size + opCnt op ≤ P.N) (ha : Adding op) (h : step c s op = some (s', res)) :
    ∀ r, Load P (s r) (s' r) := by
  cases op <;> simp only [Adding] at ha
  case on r o =>
    simp only [step] at h
    rw [Option.map_eq_some_iff] at h
    obtain ⟨⟨t', res'⟩, h1, h2⟩ := h; cases h2
    refine load_upd (lstep_load (hr r) (h0 r) hp ?_ ?_ h1)
    · have := hN r r; simp only [opCnt] at this; omega
    · intro z hz; subst hz; exact ha
  case merge r q =>
    obtain ⟨hd1, hd2, hal, hself⟩ := hp
    have g : ∀ i, (a i).defined = true → Good c.u (s i) := fun i hi => ⟨(hr i).inv, (hr i).law, (hr i).shape hi⟩
    have hal' : (s r).al = (s q).al := ((hr r).al.trans hal).trans (hr q).al.symm
    have hN' := hN r q
    have hN2 := hN r r
    simp only [step] at h
    split at h
    · rename_i hu
      rw [hu] at g
      split at h
      · rename_i hrq
        rw [Option.map_eq_some_iff] at h
        obtain ⟨t', h1, h2⟩ := h; cases h2
        exact load_upd (mergeSelf_load (g r hd1) (h0 r) (by omega) h1)
      · rw [Option.map_eq_some_iff] at h
        obtain ⟨⟨t', x'⟩, h1, h2⟩ := h; cases h2
        have := mergeUnique_load (P := P) (g r hd1) (h0 r) (hr q).inv hal' (by omega) h1
        exact load_upd2 this.1 (Or.inl this.2)
    · rename_i hu
      rw [Bool.not_eq_true] at hu
      rw [hu] at g
      split at h
      · cases h
      · rw [Option.map_eq_some_iff] at h
        obtain ⟨⟨t', x'⟩, h1, h2⟩ := h; cases h2
        have := mergeEquiv_load (P := P) (g r hd1) (h0 r) (hr q).inv hal' (by omega) h1
        exact load_upd2 this.1 (Or.inl this.2)
  case transfer r q k =>
    obtain ⟨hd1, hd2, hal, hrq⟩ := hp
    have hN' := hN r q
    simp only [opCnt] at hN'
    simp only [step] at h
    split at h
    · cases h
    · cases h; exact fun i => .refl _
    · rename_i x e e1
      have hx : ∃ xs, Removed (s q) xs x := by
        refine erasing_removed (op := .extract k) (res := .elem (some e)) (hr q) hd2 trivial ?_
        simp only [Table.lstep, e1, Option.map_some]
      obtain ⟨xs, hx⟩ := hx
      split at h
      · cases h
      · rw [Option.map_eq_some_iff] at h
        obtain ⟨⟨t', b⟩, h1, h2⟩ := h; cases h2
        refine load_upd2 ?_ (Or.inl (hx.noMore (hr q).inv))
        split at h1
        · rw [Option.map_eq_some_iff] at h1
          obtain ⟨⟨t'', p, b'⟩, h3, h4⟩ := h1; cases h4
          exact insertNodeUnique_load (hr r).inv (h0 r) (by omega) h3
        · rw [Option.map_eq_some_iff] at h1
          obtain ⟨⟨t'', p⟩, h3, h4⟩ := h1; cases h4
          exact insertNodeEquiv_load (hr r).inv (h0 r) (by omega) h3

/-- the call does not change the maximum load factor of a container that has elements -/
def Calm (s : Nat → Table K V) : Op K V → Prop
  | .on r (.maxLoadFactor _) => (s r).size = 0
  | _ => True

theorem within_upd {s : Nat → Table K V} (hw : ∀ i, Within P (s i)) {r : Nat} {t : Table K V} (h : Within P t) :
    ∀ i, Within P (upd s r t i) := by
  intro i
  unfold upd
  split
  · exact h
  · exact hw i

theorem step_within (c : MCfg K V) {s s' : Nat → Table K V} {a : Nat → Obj K V} (hr : RS c.u s a) {op : Op K V}
    {res : Res K V} (hp : SpecC.Pre c.u c.tr c.veq a op) (hn : NoPocca c.tr a op) (h0 : ∀ r, MlOk (s r))
    (hN : ∀ r q, (s r).size + (s q).size + opCnt op ≤ P.N) (hc : Calm s op) (h : step c s op = some (s', res))
    (hw : ∀ r, Within P (s r)) : ∀ r, Within P (s' r) := by
  by_cases ha : Adding op
  · exact fun r => (step_adding c hr hp h0 hN ha h r).within (hw r)
  have hN1 : ∀ r, (s r).size ≤ P.N := fun r => by have := hN r r; omega
  cases op
  case on r o =>
    cases o <;> simp only [Adding, not_true] at ha
    simp only [step, Table.lstep, Option.map_some, Option.some.injEq, Prod.mk.injEq] at h
    rw [← h.1]
    exact within_upd hw (within_empty hc)
  case construct r hf e al n =>
    simp only [step] at h
    rw [Option.map_eq_some_iff] at h
    obtain ⟨_, h1, h2⟩ := h; cases h2
    exact within_upd hw (within_empty rfl)
  case copyConstruct r q al =>
    simp only [step] at h
    split at h
    · rename_i e; cases h; exact within_upd hw (copyCtor_within (hr q).inv (hN1 q) e)
    · cases h
  case moveConstruct r q =>
    simp only [step] at h
    rw [Option.map_eq_some_iff] at h
    obtain ⟨_, h1, h2⟩ := h; cases h2
    exact within_upd (within_upd hw (hw q)) (within_empty rfl)
  case moveConstructAlloc r q al =>
    simp only [step] at h
    split at h
    · rename_i e
      cases h
      have := moveCtorAlloc_load (hr q).inv (hN1 q) e (hw q)
      exact within_upd (within_upd hw this.1) this.2
    · cases h
  case copyAssign r q =>
    simp only [step] at h
    split at h
    · cases h; exact hw
    · rename_i hrq
      rw [Option.map_eq_some_iff] at h
      obtain ⟨t', h1, h2⟩ := h; cases h2
      refine within_upd hw ?_
      unfold Table.assign at h1
      split at h1
      · rename_i g
        rcases hn with hn | hn | hn
        · exact absurd hn hrq
        · rw [hn] at g; exact absurd g.1 (by simp)
        · exact absurd (((hr r).al.trans hn).trans (hr q).al.symm) g.2
      · exact assignSame_within (hr r).inv (hr q).inv (hN1 q) h1
  case moveAssign r q =>
    simp only [step] at h
    split at h
    · cases h; exact hw
    · rw [Option.map_eq_some_iff] at h
      obtain ⟨⟨t', x'⟩, h1, h2⟩ := h; cases h2
      have := moveAssign_load (hr r).inv (hr q).inv (hN1 q) h1 (hw q)
      exact within_upd (within_upd hw this.1) this.2
  case swap r q =>
    simp only [step] at h
    split at h
    · cases h; exact hw
    · rw [Option.map_eq_some_iff] at h
      obtain ⟨⟨t', x'⟩, h1, h2⟩ := h; cases h2
      unfold Table.swap at h1
      split at h1
      · cases h1
      · cases h1
        exact within_upd (within_upd hw (t := { s q with al := if c.tr.pocs then (s q).al else (s r).al }) (fun hm => hw q hm))
          (t := { s r with al := if c.tr.pocs then (s r).al else (s q).al }) (fun hm => hw r hm)
  case merge => exact absurd trivial ha
  case transfer => exact absurd trivial ha
  case equal r q =>
    simp only [step] at h
    rw [Option.map_eq_some_iff] at h
    obtain ⟨_, h1, h2⟩ := h; cases h2
    exact hw

/-- The program never has more than `N` elements in two containers together with those the next call brings along, and sets the
maximum load factor of empty containers only. -/
def Roomy (c : MCfg K V) (N : Nat) : List (Op K V) → (Nat → Table K V) → Prop
  | [], _ => True
  | op :: ops, s => (∀ r q, (s r).size + (s q).size + opCnt op ≤ N) ∧ Calm s op ∧
      ∀ s' res, step c s op = some (s', res) → Roomy c N ops s'

theorem run_within (c : MCfg K V) : ∀ (ops : List (Op K V)) (s s' : Nat → Table K V) (a : Nat → Obj K V)
    (outs : List (Res K V)), RS c.u s a → SpecC.Safe c.u c.tr c.veq ops a → NoPoccaAll c.u c.tr c.veq ops a →
    (∀ r, MlOk (s r)) → Roomy c P.N ops s → Fca.run c ops s = some (s', outs) → (∀ r, Within P (s r)) → ∀ r, Within P (s' r)
  | [], s, s', a, outs, _, _, _, _, _, h, hw => by
    simp only [Fca.run] at h; cases h; exact hw
  | op :: ops, s, s', a, outs, hr, hs, hn, h0, hN, h, hw => by
    obtain ⟨s1, res, a1, e1, e2, e3⟩ := step_refines c hr op hs.1
    simp only [Fca.run, e1] at h
    rw [Option.map_eq_some_iff] at h
    obtain ⟨⟨s2, o2⟩, h1, h2⟩ := h
    cases h2
    exact run_within c ops s1 s2 a1 o2 e3 (hs.2 _ _ e2) (hn.2 _ _ e2) (step_ok c hr hs.1 hn.1 e1 h0) (hN.2.2 _ _ e1) h1
      (step_within c hr hs.1 hn.1 h0 hN.1 hN.2.1 e1 hw)

/-- after a program, the next call is legal in a state that the specification allows -/
theorem reach_pre (c : MCfg K V) : ∀ (ops : List (Op K V)) (op : Op K V) (s s' : Nat → Table K V) (a : Nat → Obj K V)
    (outs : List (Res K V)), RS c.u s a → SpecC.Safe c.u c.tr c.veq (ops ++ [op]) a →
    NoPoccaAll c.u c.tr c.veq (ops ++ [op]) a → (∀ r, MlOk (s r)) → Fca.run c ops s = some (s', outs) →
    ∃ a', RS c.u s' a' ∧ SpecC.Pre c.u c.tr c.veq a' op ∧ NoPocca c.tr a' op ∧ ∀ r, MlOk (s' r)
  | [], op, s, s', a, outs, hr, hs, hn, h0, h => by
    simp only [Fca.run] at h; cases h; exact ⟨a, hr, hs.1, hn.1, h0⟩
  | o :: ops, op, s, s', a, outs, hr, hs, hn, h0, h => by
    obtain ⟨s1, res, a1, e1, e2, e3⟩ := step_refines c hr o hs.1
    simp only [Fca.run, e1] at h
    rw [Option.map_eq_some_iff] at h
    obtain ⟨⟨s2, o2⟩, h1, h2⟩ := h
    cases h2
    exact reach_pre c ops op s1 s2 a1 o2 e3 (hs.2 _ _ e2) (hn.2 _ _ e2) (step_ok c hr hs.1 hn.1 e1 h0) h1

theorem load_grew {t t' : Table K V} (h : Load P t t') (hlt : t.size < t'.size) : Within P t' := by
  rcases h with h | h
  · exact absurd h.size (by omega)
  · exact h

/-- common part of the two theorems about insertions -/
theorem insertions (c : MCfg K V) {h : K → Nat} {e : K → K → Bool} (hl : Spec.Lawful h e) {ops : List (Op K V)} {op : Op K V}
    (hs : SpecC.Safe c.u c.tr c.veq (ops ++ [op]) (SpecC.start e)) (hn : NoPoccaAll c.u c.tr c.veq (ops ++ [op]) (SpecC.start e))
    {s s' : Nat → Table K V} {outs : List (Res K V)} {res : Res K V} (h1 : Fca.run c ops (Fca.start h e) = some (s, outs))
    (ha : Adding op) (hN : ∀ r q, (s r).size + (s q).size + opCnt op ≤ P.N) (h2 : step c s op = some (s', res)) (r : Nat)
    (hlt : (s r).size < (s' r).size) : Within P (s' r) := by
  obtain ⟨a', g1, g2, _, g4⟩ := reach_pre c ops op _ _ _ _ (start_rs c.u hl) hs hn (start_ok h e) h1
  exact load_grew (step_adding c g1 g2 g4 hN ha h2 r) hlt

/-- C23 (partial). Whatever a program did before, when a call on a container (single or range insertion, with or without hint),
a merge or an insertion of an extracted node makes container `r` larger, afterwards
`size()/bucket_count() <= max_load_factor() * (1+1/(2^23-1))`, as long as the call handles at most `2^38*max_load_factor()` and `2^63`
elements. Missing for C23: the bound without the rounding error is false (`C23_load_factor_exceeded_by_rounding`), and after a copy
assignment that propagates an unequal allocator no bound holds (`C23_load_factor_exceeded_after_copy_assignment`). -/
theorem C23_insertions_partial (c : MCfg K V) (h : K → Nat) (e : K → K → Bool) (hl : Spec.Lawful h e) (ops : List (Op K V))
    (op : Op K V) (hs : SpecC.Safe c.u c.tr c.veq (ops ++ [op]) (SpecC.start e))
    (hn : NoPoccaAll c.u c.tr c.veq (ops ++ [op]) (SpecC.start e)) (s s' : Nat → Table K V) (outs : List (Res K V))
    (res : Res K V) (h1 : Fca.run c ops (Fca.start h e) = some (s, outs)) (h2 : step c s op = some (s', res)) (ha : Adding op)
    (r m N : Nat) (hm : (s' r).mlf = some m) (hm0 : 0 < m) (hB : N * F32.SC ≤ m * 2 ^ 38) (hN : N ≤ 2 ^ 63)
    (hd : ∀ i j, (s i).size + (s j).size + opCnt op ≤ N) (hlt : (s r).size < (s' r).size) :
    (s' r).size * F32.SC * (2 ^ 23 - 1) ≤ m * (s' r).bucketCount * 2 ^ 23 :=
  insertions (P := rounded m N hm0 hB hN) c hl hs hn h1 ha hd h2 r hlt hm

/-- C23 for the default maximum load factor 1.0, all insertions: up to 2^24 elements the bound is exact. -/
theorem C23_insertions_default_partial (c : MCfg K V) (h : K → Nat) (e : K → K → Bool) (hl : Spec.Lawful h e)
    (ops : List (Op K V)) (op : Op K V) (hs : SpecC.Safe c.u c.tr c.veq (ops ++ [op]) (SpecC.start e))
    (hn : NoPoccaAll c.u c.tr c.veq (ops ++ [op]) (SpecC.start e)) (s s' : Nat → Table K V) (outs : List (Res K V))
    (res : Res K V) (h1 : Fca.run c ops (Fca.start h e) = some (s, outs)) (h2 : step c s op = some (s', res)) (ha : Adding op)
    (r : Nat) (hm : (s' r).mlf = some one) (hd : ∀ i j, (s i).size + (s j).size + opCnt op ≤ 2 ^ 24)
    (hlt : (s r).size < (s' r).size) : (s' r).size ≤ (s' r).bucketCount :=
  insertions (P := exact) c hl hs hn h1 ha hd h2 r hlt hm

/-- C23 (partial): a program that sets maximum load factors on empty containers only keeps every container with maximum load
factor `m/2^149` within `size() <= max_load_factor()*bucket_count()*(1+1/(2^23-1))` at all times (each prefix of a program being a
program): through single and range insertion, erasure, `rehash` and `reserve` to any request, copies, moves, swaps, merges and node
transfers. Missing: as for `C23_insertions_partial`. -/
theorem C23_program_partial (c : MCfg K V) (h : K → Nat) (e : K → K → Bool) (hl : Spec.Lawful h e) (ops : List (Op K V))
    (hs : SpecC.Safe c.u c.tr c.veq ops (SpecC.start e)) (hn : NoPoccaAll c.u c.tr c.veq ops (SpecC.start e))
    (m N : Nat) (hm0 : 0 < m) (hB : N * F32.SC ≤ m * 2 ^ 38) (hN : N ≤ 2 ^ 63) (hd : Roomy c N ops (Fca.start h e))
    (s : Nat → Table K V) (outs : List (Res K V)) (h1 : Fca.run c ops (Fca.start h e) = some (s, outs)) (r : Nat)
    (hm : (s r).mlf = some m) : (s r).size * F32.SC * (2 ^ 23 - 1) ≤ m * (s r).bucketCount * 2 ^ 23 :=
  run_within (P := rounded m N hm0 hB hN) c ops _ _ _ _ (start_rs c.u hl) hs hn (start_ok h e) hd h1
    (fun _ => within_empty rfl) r hm

/-- The same with the default maximum load factor 1.0: up to 2^24 elements exactly `size() <= bucket_count()` at all times. -/
theorem C23_program_default_partial (c : MCfg K V) (h : K → Nat) (e : K → K → Bool) (hl : Spec.Lawful h e) (ops : List (Op K V))
    (hs : SpecC.Safe c.u c.tr c.veq ops (SpecC.start e)) (hn : NoPoccaAll c.u c.tr c.veq ops (SpecC.start e))
    (hd : Roomy c (2 ^ 24) ops (Fca.start h e))
    (s : Nat → Table K V) (outs : List (Res K V)) (h1 : Fca.run c ops (Fca.start h e) = some (s, outs)) (r : Nat)
    (hm : (s r).mlf = some one) : (s r).size ≤ (s r).bucketCount :=
  run_within (P := exact) c ops _ _ _ _ (start_rs c.u hl) hs hn (start_ok h e) hd h1 (fun _ => within_empty rfl) r hm

/-! ### concrete programs -/

/-- containers a call concerns -/
def vars : Op K V → List Nat
  | .on r _ => [r]
  | .construct r _ _ _ _ => [r]
  | .copyConstruct r q _ => [r, q]
  | .moveConstruct r q => [r, q]
  | .moveConstructAlloc r q _ => [r, q]
  | .copyAssign r q => [r, q]
  | .moveAssign r q => [r, q]
  | .swap r q => [r, q]
  | .merge r q => [r, q]
  | .transfer r q _ => [r, q]
  | .equal _ _ => []

/-- a call leaves the other containers alone -/
theorem step_frame (c : MCfg K V) {s s' : Nat → Table K V} {op : Op K V} {res : Res K V} (h : step c s op = some (s', res))
    {i : Nat} (hi : i ∉ vars op) : s' i = s i := by
  have e1 : ∀ {r : Nat} {t : Table K V}, i ≠ r → upd s r t i = s i := fun hr => by simp only [upd, if_neg hr]
  have e2 : ∀ {r q : Nat} {t x : Table K V}, i ≠ r → i ≠ q → upd (upd s r t) q x i = s i := fun hr hq => by
    simp only [upd, if_neg hr, if_neg hq]
  cases op <;> simp only [vars, List.mem_cons, List.not_mem_nil, or_false, not_or] at hi <;> simp only [step] at h
  case on => rw [Option.map_eq_some_iff] at h; obtain ⟨_, _, h2⟩ := h; cases h2; exact e1 hi
  case construct => rw [Option.map_eq_some_iff] at h; obtain ⟨_, _, h2⟩ := h; cases h2; exact e1 hi
  case copyConstruct =>
    split at h
    · cases h; exact e1 hi.1
    · cases h
  case moveConstruct => rw [Option.map_eq_some_iff] at h; obtain ⟨_, _, h2⟩ := h; cases h2; exact e2 hi.1 hi.2
  case moveConstructAlloc =>
    split at h
    · cases h; exact e2 hi.1 hi.2
    · cases h
  case copyAssign =>
    split at h
    · cases h; rfl
    · rw [Option.map_eq_some_iff] at h; obtain ⟨_, _, h2⟩ := h; cases h2; exact e1 hi.1
  case moveAssign =>
    split at h
    · cases h; rfl
    · rw [Option.map_eq_some_iff] at h; obtain ⟨_, _, h2⟩ := h; cases h2; exact e2 hi.1 hi.2
  case swap =>
    split at h
    · cases h; rfl
    · rw [Option.map_eq_some_iff] at h; obtain ⟨_, _, h2⟩ := h; cases h2; exact e2 hi.1 hi.2
  case merge =>
    split at h
    · split at h
      · rw [Option.map_eq_some_iff] at h; obtain ⟨_, _, h2⟩ := h; cases h2; exact e1 hi.1
      · rw [Option.map_eq_some_iff] at h; obtain ⟨_, _, h2⟩ := h; cases h2; exact e2 hi.1 hi.2
    · split at h
      · cases h
      · rw [Option.map_eq_some_iff] at h; obtain ⟨_, _, h2⟩ := h; cases h2; exact e2 hi.1 hi.2
  case transfer =>
    split at h
    · cases h
    · cases h; rfl
    · split at h
      · cases h
      · rw [Option.map_eq_some_iff] at h; obtain ⟨_, _, h2⟩ := h; cases h2; exact e2 hi.1 hi.2
  case equal => rw [Option.map_eq_some_iff] at h; obtain ⟨_, _, h2⟩ := h; cases h2; rfl

/-- the size checks of `Roomy` for a program over the containers 0, 1, 2 -/
def roomyB (c : MCfg K V) (N : Nat) : List (Op K V) → (Nat → Table K V) → Bool
  | [], _ => true
  | op :: ops, s => (vars op).all (· < 3) &&
      decide ((s 0).size + (s 1).size + (s 2).size ≤ N ∧ 2 * max (s 0).size (max (s 1).size (s 2).size) + opCnt op ≤ N) &&
      (match op with | .on r (.maxLoadFactor _) => decide ((s r).size = 0) | _ => true) &&
      (match step c s op with | none => true | some (s', _) => roomyB c N ops s')

theorem roomyB_sound (c : MCfg K V) (N : Nat) : ∀ (ops : List (Op K V)) (s : Nat → Table K V), (∀ i, 3 ≤ i → (s i).size = 0) →
    roomyB c N ops s = true → Roomy c N ops s
  | [], _, _, _ => trivial
  | op :: ops, s, h0, h => by
    simp only [roomyB, Bool.and_eq_true, decide_eq_true_eq] at h
    obtain ⟨⟨⟨h1, h2⟩, h3⟩, h4⟩ := h
    have hb : ∀ r, (s r).size ≤ max (s 0).size (max (s 1).size (s 2).size) := by
      intro r
      match r with
      | 0 => omega
      | 1 => omega
      | 2 => omega
      | n + 3 => rw [h0 (n + 3) (by omega)]; omega
    refine ⟨fun r q => ?_, ?_, fun s' res e => ?_⟩
    · have := hb r; have := hb q; omega
    · cases op <;> first | trivial | skip
      rename_i r o
      cases o <;> first | trivial | (simp only [decide_eq_true_eq] at h3; exact h3)
    · rw [e] at h4
      refine roomyB_sound c N ops s' (fun i hi => ?_) h4
      rw [step_frame c e, h0 i hi]
      intro hm
      have := of_decide_eq_true (List.all_eq_true.1 h1 i hm)
      omega

/-- 13 elements in container 0, 30 in container 1 (8 of them common), copy to 2, merge 1 into 0, move a node, change 2's maximum
load factor after clearing it and fill it again -/
def busy : List (Op Nat Nat) :=
  [.on 0 (.insertRange true ((List.range 13).map (fun i => (i, i)))),
   .on 1 (.insertRange true ((List.range 30).map (fun i => (i + 5, i)))), .copyConstruct 2 1 0, .merge 0 1, .transfer 1 2 20,
   .on 2 .clear, .on 2 (.maxLoadFactor (some (one / 2))), .on 2 (.insertRange true ((List.range 20).map (fun i => (i, 0))))]

theorem busy_easy (u : Bool) : ∀ op ∈ busy, Easy u op := by
  intro op h
  simp only [busy, List.mem_cons, List.not_mem_nil, or_false] at h
  rcases h with rfl | rfl | rfl | rfl | rfl | rfl | rfl | rfl <;> simp [Easy, EasyL]

theorem noPocca_all (c : MCfg K V) (hc : c.tr.pocca = false) : ∀ (ops : List (Op K V)) (a : Nat → Obj K V),
    NoPoccaAll c.u c.tr c.veq ops a
  | [], _ => trivial
  | op :: ops, a => by
    refine ⟨?_, fun _ _ _ => noPocca_all c hc ops _⟩
    cases op <;> first | trivial | exact Or.inr (Or.inl hc)

set_option maxRecDepth 100000 in
/-- the hypotheses of the program theorems are met by `busy`, which leaves 35, 9 and 20 elements in 53 buckets each -/
example : Spec.Lawful sampleHash natEq ∧ SpecC.Safe uniq.u uniq.tr uniq.veq busy (SpecC.start natEq) ∧
    NoPoccaAll uniq.u uniq.tr uniq.veq busy (SpecC.start natEq) ∧ Roomy uniq (2 ^ 24) busy (Fca.start sampleHash natEq) ∧
    ((Fca.run uniq busy (Fca.start sampleHash natEq)).map (fun p => (List.range 3).map (fun i =>
      ((p.1 i).size, (p.1 i).bucketCount, (p.1 i).mlf)))) = some [(35, 53, some one), (9, 53, some one), (20, 53, some (one / 2))] :=
  ⟨sample_lawful, easy_safe _ _ (busy_easy _) (start_plain _), noPocca_all uniq rfl _ _,
    roomyB_sound _ _ _ _ (fun _ _ => rfl) (by decide +kernel), by decide +kernel⟩

set_option maxRecDepth 100000 in
/-- and those of the insertion theorems: the merge makes container 0 grow from 13 elements in 13 buckets to 35 in 53, in a map; in a
multimap from 13 in 29 (range insertion asks for one bucket more) to 43 in 53 -/
example : ((Fca.run uniq (busy.take 3) (Fca.start sampleHash natEq)).bind (fun p => (step uniq p.1 (.merge 0 1)).map (fun p' =>
      ((p.1 0).size, (p.1 0).bucketCount, (p'.1 0).size, (p'.1 0).bucketCount)))) = some (13, 13, 35, 53) ∧
    ((Fca.run multi (busy.take 3) (Fca.start sampleHash natEq)).bind (fun p => (step multi p.1 (.merge 0 1)).map (fun p' =>
      ((p.1 0).size, (p.1 0).bucketCount, (p'.1 0).size, (p'.1 0).bucketCount)))) = some (13, 29, 43, 53) ∧
    Adding (.merge 0 1 : Op Nat Nat) ∧ SpecC.Safe multi.u multi.tr multi.veq (busy.take 3 ++ [.merge 0 1]) (SpecC.start natEq) :=
  ⟨by decide +kernel, by decide +kernel, trivial,
    easy_safe (u := false) (tr := multi.tr) (veq := multi.veq) _ _ (fun op h => busy_easy _ op (List.mem_of_mem_take (i := 4) h)) (start_plain _)⟩

end Props.Closed

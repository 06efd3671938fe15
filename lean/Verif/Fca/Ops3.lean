/-
Specification lemmas: erasure by key, assignment through an iterator, merging of unique tables, copying, moving, assigning.
-/
import Verif.Fca.Ops2

namespace Fca
open SpecC (Contig)
variable {K V : Type}

/-! ### Erase by key -/

theorem eraseKeyUnique_spec {t : Table K V} (hs : SInv t) (hl : FLawful t.fns) (hp : Placed t.fns t.b) (k : K) :
    (t.eraseKeyUnique k = some (t, 0) ∧ ∀ e ∈ t.contents, t.fns.eq k e.1 = false) ∨
    (∃ t' x, t.eraseKeyUnique k = some (t', 1) ∧ Removed t [x] t' ∧ t.fns.eq k x.1 = true) := by
  unfold Table.eraseKeyUnique
  dsimp only
  by_cases h0 : 0 < t.size
  · rw [if_pos h0]
    have hb := hs.pos (Nat.pos_iff_ne_zero.mp h0)
    obtain ⟨L, hg⟩ := hs.wf.ginv hb
    have hlt : t.pos k < t.b.size := Gba.position_lt hg _
    rw [bucketFor_eq hb, Gba.get_of_le hg (Nat.le_of_lt hlt)]
    dsimp only
    cases hf : (t.b.chain (t.pos k)).findIdx? (fun e => t.fns.eq k e.1) with
    | none =>
      left
      refine ⟨rfl, (absent_iff hs hl hp k).mpr ?_⟩
      intro e he
      simpa using List.findIdx?_eq_none_iff.mp hf e he
    | some i =>
      right
      obtain ⟨hi, h1, _⟩ := findIdx_some hf
      have hn : Node t.b (⟨t.pos k, some (t.pos k / 64)⟩, i) _ := ⟨rfl, List.getElem?_eq_getElem hi⟩
      obtain ⟨pre, post, hc⟩ := hn.at_ hg
      obtain ⟨b', L1, e1, e2, e3, e4, e5, e6, e7, e8⟩ := Gba.extractNode_elems hg hc
      dsimp only
      rw [e1, hs.deleteNode (by omega)]
      dsimp only
      exact ⟨_, _, rfl, removed_of_extract hs hg hc e2 e3 e4 e5 e6, h1⟩
  · left
    rw [if_neg h0]
    refine ⟨rfl, ?_⟩
    rw [hs.contents_nil (by omega)]; simp

/-! ### Assignment through an iterator -/

theorem Gba.Ginv.congr_chain {α : Type} {a : Gba α} {L : List Nat} (h : a.Ginv L) {c : Nat → List α}
    (hc : ∀ b, c b = [] ↔ a.chain b = []) : ({ a with chain := c } : Gba α).Ginv L := by
  obtain ⟨h1, h2, h3, h4, h5, h6, h7, h8, h9, h10⟩ := h
  refine ⟨h1, h2, h3, ?_, ?_, ?_, ?_, ?_, h9, ?_⟩
  · exact h4
  · exact h5
  · exact h6
  · exact h7
  · intro g n hn
    have := h8 g n hn
    simpa [hc] using this
  · intro b hb; exact (hc b).mpr (h10 b hb)

theorem contig_congr {eq : K → K → Bool} : ∀ {l l' : List (K × V)}, l.map Prod.fst = l'.map Prod.fst → Contig eq l →
    Contig eq l' := by
  intro l
  induction l with
  | nil =>
    intro l' h _
    cases l' with
    | nil => trivial
    | cons _ _ => simp at h
  | cons a l ih =>
    intro l' h hc
    cases l' with
    | nil => simp at h
    | cons a' l' =>
      simp only [List.map_cons, List.cons.injEq] at h
      refine ⟨?_, ih h.2 hc.2⟩
      intro c hc' hac
      have h1 : c.1 ∈ l.map Prod.fst := by rw [h.2]; exact List.mem_map_of_mem hc'
      obtain ⟨d, hd, hd2⟩ := List.mem_map.mp h1
      obtain ⟨b, hb, hb2⟩ := hc.1 d hd (by rw [hd2, h.1]; exact hac)
      cases l with
      | nil => simp at hd
      | cons y l =>
        cases l' with
        | nil => simp at h
        | cons y' l' =>
          simp only [List.head?_cons, Option.some.injEq] at hb
          subst hb
          simp only [List.map_cons, List.cons.injEq] at h
          exact ⟨y', rfl, by rw [← h.1, ← h.2.1]; exact hb2⟩

theorem arranged_congr {u : Bool} {eq : K → K → Bool} {l l' : List (K × V)} (h : l.map Prod.fst = l'.map Prod.fst)
    (ha : Arranged u eq l) : Arranged u eq l' := by
  unfold Arranged at *
  cases u
  · simp only [Bool.false_eq_true, if_false] at *; exact contig_congr h ha
  · simp only [if_true] at *
    have h1 : (l.map Prod.fst).Pairwise (fun a b => eq a b = false) := List.pairwise_map.mpr ha
    rw [h] at h1
    exact List.pairwise_map.mp h1

theorem assignAt_spec {t : Table K V} (hs : SInv t) {q : BIt × Nat} {x : K × V} (hn : Node t.b q x) (v : V) :
    ∃ t' rest, t.assignAt q v = some t' ∧ SInv t' ∧ t'.fns = t.fns ∧ t'.al = t.al ∧ t'.mlf = t.mlf ∧ t'.size = t.size ∧
      t.contents.Perm (x :: rest) ∧ t'.contents.Perm ((x.1, v) :: rest) ∧
      (∀ u f, Shape u f t.b → Shape u f t'.b) ∧ Node t'.b q (x.1, v) := by
  obtain ⟨L, hg⟩ := hs.ginv_of_mem (hn.mem hs)
  have hlt := hn.lt
  have hq : q.1.p < t.b.size := hg.nonempty_lt (by intro e; rw [e] at hlt; simp at hlt)
  unfold Table.assignAt
  rw [hn.deref hg]
  dsimp only
  have hx : (t.b.chain q.1.p)[q.2] = x := by
    have := hn.2; rw [List.getElem?_eq_getElem hlt] at this; exact Option.some.inj this
  have hsplit : t.b.chain q.1.p = (t.b.chain q.1.p).take q.2 ++ x :: (t.b.chain q.1.p).drop (q.2 + 1) := by
    rw [← hx, ← List.drop_eq_getElem_cons hlt, List.take_append_drop]
  have hset : (t.b.chain q.1.p).set q.2 (x.1, v) =
      (t.b.chain q.1.p).take q.2 ++ (x.1, v) :: (t.b.chain q.1.p).drop (q.2 + 1) := by
    rw [List.set_eq_take_append_cons_drop, if_pos hlt]
  -- the other elements
  have hmem : q.1.p ∈ List.range t.b.size := List.mem_range.mpr hq
  obtain ⟨xs, ys, e⟩ := List.append_of_mem hmem
  have hnd := List.nodup_range (n := t.b.size)
  rw [e, List.nodup_append] at hnd
  obtain ⟨_, hnd2, hnd3⟩ := hnd
  rw [List.nodup_cons] at hnd2
  have hpx : q.1.p ∉ xs := fun hm => hnd3 _ hm _ (by simp) rfl
  have hc1 : t.contents = xs.flatMap t.b.chain ++ (t.b.chain q.1.p ++ ys.flatMap t.b.chain) := by
    unfold Table.contents Gba.contents; rw [e, List.flatMap_append, List.flatMap_cons]
  have hc2 : (List.range t.b.size).flatMap (up t.b.chain q.1.p ((t.b.chain q.1.p).set q.2 (x.1, v))) =
      xs.flatMap t.b.chain ++ ((t.b.chain q.1.p).set q.2 (x.1, v) ++ ys.flatMap t.b.chain) := by
    rw [e, List.flatMap_append, List.flatMap_cons, up_same, Gba.flatMap_up_of_not_mem _ _ _ hpx,
      Gba.flatMap_up_of_not_mem _ _ _ hnd2.1]
  have hp1 : t.contents.Perm (x :: (xs.flatMap t.b.chain ++ ((t.b.chain q.1.p).take q.2 ++
      ((t.b.chain q.1.p).drop (q.2 + 1) ++ ys.flatMap t.b.chain)))) := by
    rw [hc1]
    conv => lhs; rw [hsplit]
    rw [List.append_assoc, List.cons_append]
    refine (List.Perm.append_left _ List.perm_middle).trans List.perm_middle
  have hp2 : ((List.range t.b.size).flatMap (up t.b.chain q.1.p ((t.b.chain q.1.p).set q.2 (x.1, v)))).Perm
      ((x.1, v) :: (xs.flatMap t.b.chain ++ ((t.b.chain q.1.p).take q.2 ++
      ((t.b.chain q.1.p).drop (q.2 + 1) ++ ys.flatMap t.b.chain)))) := by
    rw [hc2, hset, List.append_assoc, List.cons_append]
    refine (List.Perm.append_left _ List.perm_middle).trans List.perm_middle
  have hginv := hg.congr_chain (c := up t.b.chain q.1.p ((t.b.chain q.1.p).set q.2 (x.1, v))) (by
    intro b; rw [up_apply]; split
    · rename_i hb; rw [hb, ← List.length_eq_zero_iff, List.length_set, List.length_eq_zero_iff]
    · exact Iff.rfl)
  refine ⟨_, _, rfl, ⟨Or.inr ⟨L, hginv⟩, hs.mal, ?_, hs.ml⟩, rfl, rfl, rfl, rfl, hp1, hp2, ?_, hn.1, ?_⟩
  · show t.size = _
    rw [hs.len, hp1.length_eq]
    exact hp2.length_eq.symm
  · intro u f hsh
    have mapkey : ∀ b, (up t.b.chain q.1.p ((t.b.chain q.1.p).set q.2 (x.1, v)) b).map Prod.fst = (t.b.chain b).map Prod.fst := by
      intro b
      rw [up_apply]; split
      · rename_i hb; subst hb
        rw [hset]
        conv => rhs; rw [hsplit]
        simp
      · rfl
    constructor
    · intro b y hy
      have h1 : y.1 ∈ (t.b.chain b).map Prod.fst := by rw [← mapkey b]; exact List.mem_map_of_mem hy
      obtain ⟨z, hz, hz2⟩ := List.mem_map.mp h1
      have := hsh.1 b z hz
      rw [← hz2]; exact this
    · intro b
      exact arranged_congr (mapkey b).symm (hsh.2 b)
  · dsimp only; rw [up_same, List.getElem?_set_self hlt]

/-! ### Merging unique tables -/

/-- the state after inserting the elements `xs` -/
structure AddedAll (t : Table K V) (xs : List (K × V)) (t' : Table K V) : Prop where
  inv : SInv t'
  fns : t'.fns = t.fns
  al : t'.al = t.al
  mlf : t'.mlf = t.mlf
  perm : t'.contents.Perm (xs ++ t.contents)

theorem AddedAll.nil {t : Table K V} (h : SInv t) : AddedAll t [] t := ⟨h, rfl, rfl, rfl, by simp⟩

theorem Added.cons {t t1 t' : Table K V} {x : K × V} {xs : List (K × V)} (h : Added t x t1) (h2 : AddedAll t1 xs t') :
    AddedAll t (x :: xs) t' :=
  ⟨h2.inv, h2.fns.trans h.fns, h2.al.trans h.al, h2.mlf.trans h.mlf,
    (h2.perm.trans (h.perm.append_left xs)).trans List.perm_middle⟩

theorem Kept.addedAll {t t1 t' : Table K V} {xs : List (K × V)} (h : Kept t t1) (h2 : AddedAll t1 xs t') : AddedAll t xs t' :=
  ⟨h2.inv, h2.fns.trans h.fns, h2.al.trans h.al, h2.mlf.trans h.mlf, h2.perm.trans (h.perm.append_left xs)⟩

theorem eq_false_symm {f : Fns K} (hl : FLawful f) {a b : K} (h : f.eq a b = false) : f.eq b a = false := by
  cases e : f.eq b a with
  | false => rfl
  | true => rw [hl.symm _ _ e] at h; cases h

/-- which elements of `post` a table takes -/
structure Merged (t : Table K V) (post took kept : List (K × V)) : Prop where
  perm : post.Perm (took ++ kept)
  absent : ∀ e ∈ took, ∀ y ∈ t.contents, t.fns.eq e.1 y.1 = false
  pw : took.Pairwise (fun a b => t.fns.eq a.1 b.1 = false)
  dup : ∀ e ∈ kept, (∃ e' ∈ t.contents, t.fns.eq e.1 e'.1 = true) ∨ ∃ e' ∈ took, t.fns.eq e.1 e'.1 = true

theorem mergeLoop_at : ∀ (post : List (K × V)) (f : Nat) (t o : Table K V) (L : List Nat) (it : It) (pre : List (K × V)),
    SInv t → FLawful t.fns → Shape true t.fns t.b → t.b.size ≠ 0 → SInv o → o.b.Ginv L → o.b.At L it pre post →
    post.length ≤ f →
    ∃ t' o' took kept, Table.mergeLoop f t o it = some (t', o') ∧ Merged t post took kept ∧ AddedAll t took t' ∧
      Shape true t.fns t'.b ∧ Removed o took o' := by
  intro post
  induction post with
  | nil =>
    intro f t o L it pre hs hl hsh hb hso hg hc _
    obtain rfl := hc.none_iff.mpr rfl
    exact ⟨t, o, [], [], by cases f <;> rfl, ⟨by simp, by simp, by simp, by simp⟩, AddedAll.nil hs, hsh, Removed.nil hso⟩
  | cons x post ih =>
    intro f t o L it pre hs hl hsh hb hso hg hc hf
    cases f with
    | zero => simp at hf
    | succ f =>
      obtain ⟨q, rfl⟩ := hc.some_of_cons
      rw [List.length_cons] at hf
      unfold Table.mergeLoop
      rw [hc.deref hg]; dsimp only
      rcases findImpl_spec hs hl hsh.1 x.1 with ⟨h1, h2⟩ | ⟨i, e, h1, h2, h3, h4, h5⟩
      · rw [h1]; dsimp only
        obtain ⟨b', L', it', e1, e2, e3, e4, e5, e6, e7⟩ := Gba.extractIt_at hg hc
        rw [e1]; dsimp only
        have hr := removed_of_extract hso hg hc e2 e3 e4 e5 e6
        obtain ⟨tb, g1, g2, g3, g4, g5⟩ := push_new hs hb hsh h2
        rw [g1]; dsimp only
        obtain ⟨t', o', took, kept, i1, i2, i3, i4, i5⟩ := ih f { t with b := tb, size := t.size + 1 }
          { o with b := b', size := o.size - 1 } L' it' pre g2.inv hl g3 (by dsimp only; rw [g4]; exact hb) hr.inv e2 e7
          (by omega)
        refine ⟨t', o', x :: took, kept, i1, ⟨i2.perm.cons x, ?_, ?_, ?_⟩, g2.cons i3, i4, hr.trans i5⟩
        · intro e he y hy
          rw [List.mem_cons] at he
          rcases he with rfl | he
          · exact h2 y hy
          · exact i2.absent e he y (g2.perm.mem_iff.mpr (List.mem_cons_of_mem _ hy))
        · refine List.pairwise_cons.mpr ⟨?_, i2.pw⟩
          intro e he
          exact eq_false_symm hl (i2.absent e he x (g2.perm.mem_iff.mpr (by simp)))
        · intro e he
          rcases i2.dup e he with ⟨e', h6, h7⟩ | ⟨e', h6, h7⟩
          · rw [g2.perm.mem_iff, List.mem_cons] at h6
            rcases h6 with rfl | h6
            · exact Or.inr ⟨e', by simp, h7⟩
            · exact Or.inl ⟨e', h6, h7⟩
          · exact Or.inr ⟨e', by simp [h6], h7⟩
      · rw [h1]; dsimp only
        obtain ⟨it', e1, e2⟩ := hc.inc hg
        rw [e1]; dsimp only
        obtain ⟨t', o', took, kept, i1, i2, i3, i4, i5⟩ := ih f t o L it' _ hs hl hsh hb hso hg e2 (by omega)
        refine ⟨t', o', took, x :: kept, i1, ⟨?_, i2.absent, i2.pw, ?_⟩, i3, i4, i5⟩
        · exact (i2.perm.cons x).trans List.perm_middle.symm
        · intro e' he'
          rw [List.mem_cons] at he'
          rcases he' with rfl | he'
          · exact Or.inl ⟨e, h4.mem hs, h5⟩
          · exact i2.dup e' he'

theorem Merged.kept {t t1 : Table K V} (h : Kept t t1) {post took kept : List (K × V)} (hm : Merged t1 post took kept) :
    Merged t post took kept := by
  obtain ⟨h1, h2, h3, h4⟩ := hm
  rw [h.fns] at h2 h3 h4
  refine ⟨h1, fun e he y hy => h2 e he y (h.perm.mem_iff.mpr hy), h3, ?_⟩
  intro e he
  rcases h4 e he with ⟨e', h6, h7⟩ | h6
  · exact Or.inl ⟨e', h.perm.mem_iff.mp h6, h7⟩
  · exact Or.inr h6

theorem mergeUnique_spec {t o : Table K V} (hs : SInv t) (hl : FLawful t.fns) (hsh : Shape true t.fns t.b)
    (hso : SInv o) (hal : t.al = o.al) :
    ∃ t' o' took kept, t.mergeUnique o = some (t', o') ∧ Merged t (took ++ kept) took kept ∧
      o.contents.Perm (took ++ kept) ∧ AddedAll t took t' ∧ Shape true t.fns t'.b ∧ Removed o took o' := by
  unfold Table.mergeUnique
  rw [if_neg (by simp [hal])]
  by_cases h0 : o.size = 0
  · rw [if_pos h0]
    exact ⟨t, o, [], [], rfl, ⟨by simp, by simp, by simp, by simp⟩, by rw [hso.contents_nil h0]; simp,
      AddedAll.nil hs, hsh, Removed.nil hso⟩
  · rw [if_neg h0]
    obtain ⟨t1, g1, g2, g3⟩ := reserveForInsert_spec hs (t.size + o.size)
    rw [g1]; dsimp only
    rcases begin_spec hso with ⟨h1, h2⟩ | ⟨L, it, h1, h2, h3, h4, h5⟩
    · exact absurd (by rw [hso.len, h2]; rfl) h0
    · rw [h2]; dsimp only
      obtain ⟨t', o', took, kept, i1, i2, i3, i4, i5⟩ := mergeLoop_at _ o.size t1 o L it [] g2.inv (by rw [g2.fns]; exact hl)
        (by rw [g2.fns]; exact g2.shape _ hl hsh) (g3 (by omega)) hso h1 h3 (by omega)
      have hm := i2.kept g2
      refine ⟨t', o', took, kept, i1, ⟨List.Perm.refl _, hm.absent, hm.pw, hm.dup⟩, ?_, g2.addedAll i3, ?_, i5⟩
      · exact (Gba.elems_perm h1).symm.trans hm.perm
      · rw [g2.fns] at i4; exact i4

theorem mergeSelf_spec {t : Table K V} (hs : SInv t) (hl : FLawful t.fns) (hsh : Shape true t.fns t.b) :
    ∃ t', t.mergeSelf = some t' ∧ Kept t t' := by
  unfold Table.mergeSelf
  by_cases h0 : t.size = 0
  · rw [if_pos h0]; exact ⟨t, rfl, Kept.refl hs⟩
  · rw [if_neg h0]
    obtain ⟨t1, g1, g2, g3⟩ := reserveForInsert_spec hs (t.size + t.size)
    rw [g1]; dsimp only
    obtain ⟨l, e1, e2, e3, _⟩ := iterate_spec g2.inv
    rw [e1]; dsimp only
    refine ⟨t1, ?_, g2⟩
    rw [if_pos]
    rw [List.all_eq_true]
    intro x hx
    have hl1 : FLawful t1.fns := by rw [g2.fns]; exact hl
    have hsh1 : Shape true t1.fns t1.b := by rw [g2.fns]; exact g2.shape _ hl hsh
    rcases findNode_spec g2.inv hl1 hsh1.1 x.1 with ⟨h1, h2⟩ | ⟨q, y, h1, _⟩
    · have := h2 x (e2.mem_iff.mp hx)
      rw [hl1.refl] at this; cases this
    · rw [h1]

/-! ### Copying and moving -/

/-- contents and shape of a table filled from a list -/
structure Filled (u : Bool) (f : Fns K) (al : Nat) (m : Option Nat) (xs : List (K × V)) (t' : Table K V) : Prop where
  inv : SInv t'
  fns : t'.fns = f
  al : t'.al = al
  mlf : t'.mlf = m
  perm : t'.contents.Perm xs
  shape : Shape u f t'.b

/-- filling an empty table -/
theorem fill_empty {u front : Bool} {t : Table K V} {f : Fns K} (hs : SInv t) (hl : FLawful f) (h0 : t.contents = [])
    {xs : List (K × V)} (hx : Arranged u f.eq xs) (hb : xs ≠ [] → t.b.size ≠ 0) (hf : front = true ∨ u = false) :
    ∃ b', (if front then Table.fillFront f xs t.b else Table.fillEquiv f xs t.b) = some b' ∧
      Filled u f t.al t.mlf xs { t with fns := f, b := b', size := t.size + xs.length } := by
  have hsz : t.size = 0 := by rw [hs.len, h0]; rfl
  by_cases hne : xs = []
  · subst hne
    refine ⟨t.b, by cases front <;> rfl, ⟨?_, rfl, rfl, rfl, ?_, ?_⟩⟩
    · exact ⟨hs.wf, hs.mal, (show t.size + 0 = _ from hs.len), hs.ml⟩
    · show t.contents.Perm []
      rw [h0]
    · exact shape_empty _ _ (hs.wf.chain_nil h0)
  · have hb := hb hne
    obtain ⟨L, hg⟩ := hs.wf.ginv hb
    have hc0 := hs.wf.chain_nil h0
    have key : ∃ a' L', (if front then Table.fillFront f xs t.b else Table.fillEquiv f xs t.b) = some a' ∧ a'.Ginv L' ∧
        a'.size = t.b.size ∧ a'.mal = t.b.mal ∧ Shape u f a' ∧ a'.contents.Perm (xs ++ t.b.contents) := by
      cases front with
      | true =>
        rw [if_pos rfl]
        obtain ⟨a', L', e1, e2, e3, e4, e5, e6, e7⟩ := fillFront_spec f xs t.b L hg
        exact ⟨a', L', e1, e2, e3, e5, fillFront_shape hl hx hc0 e4 e6, e7⟩
      | false =>
        have hu : u = false := by
          rcases hf with h | h
          · cases h
          · exact h
        subst hu
        rw [if_neg (by simp)]
        obtain ⟨a', L', e1, e2, e3, e4, e5, e6, e7⟩ := fillEquiv_spec hl xs t.b L hg (shape_empty _ _ hc0)
        exact ⟨a', L', e1, e2, e3, e5, e6, e7⟩
    obtain ⟨a', L', e1, e2, e3, e4, e5, e6⟩ := key
    have hc0' : t.b.contents = [] := h0
    rw [hc0', List.append_nil] at e6
    refine ⟨a', e1, ⟨⟨Or.inr ⟨L', e2⟩, fun _ => e4.trans (hs.mal hb), ?_, ?_⟩, rfl, rfl, rfl, e6, e5⟩⟩
    · show t.size + xs.length = a'.contents.length
      rw [e6.length_eq, hsz]; omega
    · intro e; exact absurd (e3 ▸ e) hb

theorem copyBuckets_spec {u : Bool} {t x : Table K V} (hs : SInv t) (h0 : t.contents = []) (hx : SInv x)
    (hf : t.fns = x.fns) (hl : FLawful x.fns) (hsh : Shape u x.fns x.b) :
    ∃ t', t.copyBuckets u x = some t' ∧ Filled u x.fns t.al t.mlf x.contents t' := by
  unfold Table.copyBuckets
  obtain ⟨t1, g1, g2, g3⟩ := reserveForInsert_spec hs x.size
  obtain ⟨l, e1, e2, e3, e4⟩ := iterate_spec hx
  rw [g1, e1]; dsimp only
  have hf1 : t1.fns = x.fns := g2.fns.trans hf
  rw [hf1]
  have h01 : t1.contents = [] := by
    have := g2.perm; rw [h0] at this; exact this.eq_nil
  obtain ⟨b', i1, i2⟩ := fill_empty (u := u) (front := u) g2.inv hl h01 (e4 u hl hsh) (by
    intro hne
    apply g3
    rw [← e3]; exact List.length_pos_iff.mpr hne) (by cases u <;> simp)
  rw [i1]; dsimp only
  refine ⟨_, rfl, ?_⟩
  exact ⟨i2.inv, rfl, i2.al.trans g2.al, i2.mlf.trans g2.mlf, i2.perm.trans e2, i2.shape⟩

/-- fresh tables are well formed -/
theorem fresh_sinv (f : Fns K) (al n : Nat) (m : Option Nat) :
    SInv ({ fns := f, al := al, size := 0, mlf := m, maxLoad := maxLoadFor m (Gba.new n al : Gba (K × V)).size,
            b := Gba.new n al } : Table K V) := by
  refine ⟨Gba.new_wf _ _, fun _ => Gba.new_mal _ _, ?_, ?_⟩
  · show 0 = (Gba.new n al : Gba (K × V)).contents.length
    rw [Gba.new_contents]; rfl
  · intro e; dsimp only at e ⊢; rw [e]; exact maxLoadFor_zero _

theorem null_sinv (f : Fns K) (al : Nat) (m : Option Nat) :
    SInv ({ fns := f, al := al, size := 0, mlf := m, maxLoad := 0, b := Gba.null al } : Table K V) := by
  refine ⟨Or.inl ⟨rfl, fun _ => rfl⟩, fun _ => rfl, rfl, fun _ => rfl⟩

theorem copyCtor_spec {u : Bool} {x : Table K V} (hx : SInv x) (hl : FLawful x.fns) (hsh : Shape u x.fns x.b) (a : Nat) :
    ∃ t', x.copyCtor u a = some t' ∧ Filled u x.fns a x.mlf x.contents t' := by
  unfold Table.copyCtor
  dsimp only
  split
  · exact copyBuckets_spec (fresh_sinv _ _ _ _) (Gba.new_contents _ _) hx rfl hl hsh
  · rename_i h
    have h0 := hx.contents_nil (by omega)
    refine ⟨_, rfl, fresh_sinv _ _ _ _, rfl, rfl, rfl, ?_, shape_empty _ _ (Gba.new_chain _ _)⟩
    rw [h0]
    show ((Gba.new x.size a : Gba (K × V)).contents).Perm []
    rw [Gba.new_contents]

theorem setMaxLoad_sinv {t : Table K V} (hs : SInv t) (m : Option Nat) :
    SInv { t with mlf := m, maxLoad := maxLoadFor m t.bucketCount } :=
  ⟨hs.wf, hs.mal, hs.len, fun e => by
    show maxLoadFor m t.b.size = 0
    rw [show t.b.size = 0 from e]; exact maxLoadFor_zero _⟩

theorem assignSame_spec {u : Bool} {t x : Table K V} (hs : SInv t) (hx : SInv x) (hl : FLawful x.fns)
    (hsh : Shape u x.fns x.b) :
    ∃ t', t.assignSame u x = some t' ∧ Filled u x.fns t.al x.mlf x.contents t' := by
  unfold Table.assignSame
  dsimp only
  obtain ⟨t1, g1, g2, g3⟩ := reserveForInsert_spec (setMaxLoad_sinv hs x.mlf) x.size
  rw [g1]; dsimp only
  obtain ⟨t2, xs, c1, c2, c3⟩ := clear_spec g2.inv
  rw [c1]; dsimp only
  have hs2 : SInv ({ t2 with fns := x.fns } : Table K V) := ⟨c2.inv.wf, c2.inv.mal, c2.inv.len, c2.inv.ml⟩
  obtain ⟨t', e1, e2⟩ := copyBuckets_spec (u := u) hs2 c3 hx rfl hl hsh
  refine ⟨t', e1, ?_⟩
  have ha : t2.al = t.al := c2.al.trans g2.al
  have hm : t2.mlf = x.mlf := c2.mlf.trans g2.mlf
  dsimp only at e2
  rw [ha, hm] at e2
  exact e2

theorem assign_spec {u pocca : Bool} {t x : Table K V} (hs : SInv t) (hx : SInv x) (hl : FLawful x.fns)
    (hsh : Shape u x.fns x.b) (hne : ¬ (pocca = true ∧ t.al ≠ x.al ∧ x.size = 0)) :
    ∃ t', Table.assign pocca u t x = some t' ∧
      Filled u x.fns (if pocca then x.al else t.al) x.mlf x.contents t' := by
  unfold Table.assign
  split
  · rename_i h
    have h0 : x.size ≠ 0 := fun e => hne ⟨h.1, h.2, e⟩
    dsimp only
    have hs1 : SInv ({ t with fns := x.fns } : Table K V) := ⟨hs.wf, hs.mal, hs.len, hs.ml⟩
    rw [deleteBuckets_spec hs1]
    dsimp only
    have hs2 : SInv ({ fns := x.fns, al := x.al, size := 0, mlf := x.mlf, maxLoad := t.maxLoad,
                       b := Gba.new x.size x.al } : Table K V) := by
      refine ⟨Gba.new_wf _ _, fun _ => Gba.new_mal _ _, ?_, ?_⟩
      · show 0 = (Gba.new x.size x.al : Gba (K × V)).contents.length
        rw [Gba.new_contents]; rfl
      · intro e
        dsimp only at e
        rw [Gba.new_size] at e
        exact absurd e (le_bucketCountFor_pos (by omega))
    obtain ⟨t2, g1, g2, g3⟩ := reserve_spec hs2 x.size
    rw [g1]; dsimp only
    rw [if_pos h0]
    have hc2 : t2.contents = [] := by
      have := g2.perm
      unfold Table.contents at this
      dsimp only at this
      rw [Gba.new_contents] at this
      exact this.eq_nil
    obtain ⟨t', e1, e2⟩ := copyBuckets_spec (u := u) g2.inv hc2 hx g2.fns hl hsh
    refine ⟨t', e1, ?_⟩
    have ha : t2.al = x.al := g2.al
    have hm : t2.mlf = x.mlf := g2.mlf
    rw [ha, hm] at e2
    rw [if_pos h.1]; exact e2
  · rename_i h
    obtain ⟨t', e1, e2⟩ := assignSame_spec (u := u) hs hx hl hsh
    refine ⟨t', e1, ?_⟩
    by_cases hp : pocca = true
    · rw [if_pos hp]
      have : t.al = x.al := by
        by_contra hh; exact h ⟨hp, hh⟩
      rw [← this]; exact e2
    · rw [if_neg hp]; exact e2

/-! ### moving -/

/-- the state of a container whose arrays have been taken -/
theorem emptied_sinv (x : Table K V) : SInv ({ x with size := 0, maxLoad := 0, b := Gba.null x.al } : Table K V) :=
  null_sinv _ _ _

theorem movedFrom_sinv {x : Table K V} (hx : SInv x) (mv : K × V → K × V) : SInv (x.movedFrom mv) := by
  have hc : (x.movedFrom mv).contents = x.contents.map mv := by
    unfold Table.contents Gba.contents Table.movedFrom
    dsimp only
    rw [List.map_flatMap]
  refine ⟨?_, hx.mal, ?_, hx.ml⟩
  · rcases hx.wf with ⟨h1, h2⟩ | ⟨L, hg⟩
    · left; exact ⟨h1, fun b => by show (x.b.chain b).map mv = []; rw [h2]; rfl⟩
    · right; exact ⟨L, hg.congr_chain (c := fun b => (x.b.chain b).map mv) (fun b => by simp)⟩
  · rw [hc, List.length_map]; exact hx.len

theorem moveCtorAlloc_spec {u : Bool} {x : Table K V} (hx : SInv x) (hl : FLawful x.fns) (hsh : Shape u x.fns x.b)
    (mv : K × V → K × V) (a : Nat) :
    ∃ t' x', Table.moveCtorAlloc mv x a = some (t', x') ∧ Filled u x.fns a x.mlf x.contents t' ∧ SInv x' ∧
      x'.fns = x.fns ∧ x'.al = x.al ∧ (a = x.al → x'.contents = []) := by
  unfold Table.moveCtorAlloc
  dsimp only
  split
  · rename_i h
    unfold Table.moveBucketsFrom
    dsimp only
    rw [(fresh_sinv x.fns a x.bucketCount x.mlf).dealloc]
    dsimp only
    refine ⟨_, _, rfl, ⟨⟨hx.wf, fun e => (hx.mal e).trans h.symm, hx.len, hx.ml⟩, rfl, rfl, rfl, List.Perm.refl _, hsh⟩,
      emptied_sinv x, rfl, rfl, fun _ => rfl⟩
  · rename_i h
    split
    · rename_i h0
      have hc := hx.contents_nil h0
      refine ⟨_, _, rfl, ⟨fresh_sinv _ _ _ _, rfl, rfl, rfl, ?_, shape_empty _ _ (Gba.new_chain _ _)⟩, hx, rfl, rfl,
        fun e => absurd e h⟩
      rw [hc]
      show ((Gba.new x.bucketCount a : Gba (K × V)).contents).Perm []
      rw [Gba.new_contents]
    · rename_i h0
      obtain ⟨t1, g1, g2, g3⟩ := reserve_spec (fresh_sinv x.fns a x.bucketCount x.mlf) x.size
      obtain ⟨l, e1, e2, e3, e4⟩ := iterate_spec hx
      rw [g1, e1]; dsimp only
      have hc1 : t1.contents = [] := by
        have := g2.perm
        unfold Table.contents at this
        dsimp only at this
        rw [Gba.new_contents] at this
        exact this.eq_nil
      have hf1 : t1.fns = x.fns := g2.fns
      rw [hf1]
      obtain ⟨b', i1, i2⟩ := fill_empty (u := u) (front := true) g2.inv hl hc1 (e4 u hl hsh)
        (fun _ => g3 (by omega)) (Or.inl rfl)
      rw [if_pos rfl] at i1
      rw [i1]; dsimp only
      refine ⟨_, _, rfl, ⟨?_, rfl, g2.al, g2.mlf, i2.perm.trans e2, i2.shape⟩, movedFrom_sinv hx mv, rfl, rfl,
        fun e => absurd e h⟩
      exact ⟨i2.inv.wf, i2.inv.mal, i2.inv.len, i2.inv.ml⟩

theorem moveAssign_spec {u pocma : Bool} {t x : Table K V} (hs : SInv t) (hx : SInv x) (hl : FLawful x.fns)
    (hsh : Shape u x.fns x.b) (mv : K × V → K × V) :
    ∃ t' x', Table.moveAssign pocma u mv t x = some (t', x') ∧
      Filled u x.fns (if pocma then x.al else t.al) x.mlf x.contents t' ∧ SInv x' ∧
      x'.fns = x.fns ∧ x'.al = x.al ∧ (pocma = true ∨ t.al = x.al → x'.contents = []) := by
  unfold Table.moveAssign
  split
  · rename_i h
    have hs1 : SInv ({ t with fns := x.fns } : Table K V) := ⟨hs.wf, hs.mal, hs.len, hs.ml⟩
    rw [deleteBuckets_spec hs1]
    dsimp only
    unfold Table.moveBucketsFrom
    have : (Gba.null x.al : Gba (K × V)).dealloc x.al = some () := by unfold Gba.dealloc; rfl
    dsimp only
    rw [this]; dsimp only
    refine ⟨_, _, rfl, ⟨⟨hx.wf, hx.mal, hx.len, hx.ml⟩, rfl, ?_, rfl, List.Perm.refl _, hsh⟩, emptied_sinv x, rfl, rfl,
      fun _ => rfl⟩
    dsimp only
    rcases h with h | h
    · rw [if_pos h]
    · rw [h]; simp
  · rename_i h
    dsimp only
    have hs0 := setMaxLoad_sinv hs x.mlf
    have hgrow : ∃ t1, (if 0 < x.size then ({ t with mlf := x.mlf, maxLoad := maxLoadFor x.mlf t.bucketCount } : Table K V).reserveForInsert x.size
        else some { t with mlf := x.mlf, maxLoad := maxLoadFor x.mlf t.bucketCount }) = some t1 ∧
        Kept { t with mlf := x.mlf, maxLoad := maxLoadFor x.mlf t.bucketCount } t1 ∧ (0 < x.size → t1.b.size ≠ 0) := by
      split
      · exact reserveForInsert_spec hs0 x.size
      · rename_i h0
        exact ⟨_, rfl, Kept.refl hs0, fun e => absurd e h0⟩
    obtain ⟨t1, g1, g2, g3⟩ := hgrow
    rw [g1]; dsimp only
    obtain ⟨t2, xs, c1, c2, c3⟩ := clear_spec g2.inv
    obtain ⟨l, e1, e2, e3, e4⟩ := iterate_spec hx
    rw [c1, e1]; dsimp only
    obtain ⟨b', i1, i2⟩ := fill_empty (u := u) (front := u) c2.inv hl c3 (e4 u hl hsh)
        (fun hne => by rw [c2.bsize]; apply g3; rw [← e3]; exact List.length_pos_iff.mpr hne) (by cases u <;> simp)
    rw [i1]; dsimp only
    have hp : pocma = false := by
      cases pocma with
      | false => rfl
      | true => exact absurd (Or.inl rfl) h
    refine ⟨_, _, rfl, ⟨i2.inv, rfl, ?_, ?_, i2.perm.trans e2, i2.shape⟩, movedFrom_sinv hx mv, rfl, rfl,
        fun e => absurd e h⟩
    · rw [hp]; exact c2.al.trans g2.al
    · exact c2.mlf.trans g2.mlf

end Fca

/-
Specification lemmas: containers with equivalent keys.
-/
import Verif.Fca.Ops3

namespace Fca
open SpecC (Contig)
variable {K V : Type}

/-! ### The group of a key in a list -/

theorem contig_head {eq : K → K → Bool} (he : EqLaw eq) {k : K} : ∀ (l : List (K × V)) (x : K × V), Contig eq (x :: l) →
    eq k x.1 = true → ∃ ys zs, l = ys ++ zs ∧ (∀ y ∈ ys, eq k y.1 = true) ∧ ∀ z ∈ zs, eq k z.1 = false := by
  intro l
  induction l with
  | nil => intro x _ _; exact ⟨[], [], rfl, by simp, by simp⟩
  | cons a l ih =>
    intro x hc hx
    by_cases ha : eq k a.1 = true
    · obtain ⟨ys, zs, e, h1, h2⟩ := ih a hc.2 ha
      refine ⟨a :: ys, zs, by rw [e]; rfl, ?_, h2⟩
      intro y hy
      rw [List.mem_cons] at hy
      rcases hy with rfl | hy
      · exact ha
      · exact h1 y hy
    · refine ⟨[], a :: l, rfl, by simp, ?_⟩
      intro z hz
      cases hh : eq k z.1 with
      | false => rfl
      | true =>
        exfalso
        obtain ⟨b, hb, hb2⟩ := hc.1 z hz (he.trans _ _ _ (he.symm _ _ hx) hh)
        simp only [List.head?_cons, Option.some.injEq] at hb
        subst hb
        exact ha (he.trans _ _ _ hx hb2)

/-- an arranged list falls into: not equivalent, equivalent, not equivalent -/
theorem contig_split {eq : K → K → Bool} (he : EqLaw eq) (k : K) : ∀ (l : List (K × V)), Contig eq l →
    ∃ xs ys zs, l = xs ++ (ys ++ zs) ∧ (∀ x ∈ xs, eq k x.1 = false) ∧ (∀ y ∈ ys, eq k y.1 = true) ∧
      ∀ z ∈ zs, eq k z.1 = false := by
  intro l
  induction l with
  | nil => intro _; exact ⟨[], [], [], rfl, by simp, by simp, by simp⟩
  | cons a l ih =>
    intro hc
    cases ha : eq k a.1 with
    | true =>
      obtain ⟨ys, zs, e, h1, h2⟩ := contig_head he l a hc ha
      refine ⟨[], a :: ys, zs, by rw [e]; rfl, by simp, ?_, h2⟩
      intro y hy
      rw [List.mem_cons] at hy
      rcases hy with rfl | hy
      · exact ha
      · exact h1 y hy
    | false =>
      obtain ⟨xs, ys, zs, e, h1, h2, h3⟩ := ih hc.2
      refine ⟨a :: xs, ys, zs, by rw [e]; rfl, ?_, h2, h3⟩
      intro y hy
      rw [List.mem_cons] at hy
      rcases hy with rfl | hy
      · exact ha
      · exact h1 y hy

theorem split_filter {p : K × V → Bool} {xs ys zs : List (K × V)} (h1 : ∀ x ∈ xs, p x = false) (h2 : ∀ y ∈ ys, p y = true)
    (h3 : ∀ z ∈ zs, p z = false) : (xs ++ (ys ++ zs)).filter p = ys := by
  have f1 : xs.filter p = [] := List.filter_eq_nil_iff.mpr (fun a ha => by simp [h1 a ha])
  have f3 : zs.filter p = [] := List.filter_eq_nil_iff.mpr (fun a ha => by simp [h3 a ha])
  rw [List.filter_append, List.filter_append, f1, f3, List.filter_eq_self.mpr h2]
  simp

theorem split_findIdx {p : K × V → Bool} {xs ys zs : List (K × V)} (h1 : ∀ x ∈ xs, p x = false) (h2 : ∀ y ∈ ys, p y = true)
    (hne : ys ≠ []) : (xs ++ (ys ++ zs)).findIdx? p = some xs.length := by
  rw [List.findIdx?_eq_some_iff_getElem]
  have hlt : xs.length < (xs ++ (ys ++ zs)).length := by
    have := List.length_pos_iff.mpr hne
    simp; omega
  refine ⟨hlt, ?_, ?_⟩
  · cases ys with
    | nil => exact absurd rfl hne
    | cons y ys => simpa using h2 y (by simp)
  · intro j hj
    rw [List.getElem_append_left hj]
    simp [h1 _ (List.getElem_mem hj)]

theorem split_getElem {p : K × V → Bool} {xs ys zs : List (K × V)} (h2 : ∀ y ∈ ys, p y = true) {i : Nat}
    (hi1 : xs.length ≤ i) (hi2 : i < xs.length + ys.length) :
    ∃ h : i < (xs ++ (ys ++ zs)).length, p ((xs ++ (ys ++ zs))[i]) = true := by
  refine ⟨by simp; omega, ?_⟩
  rw [List.getElem_append_right hi1, List.getElem_append_left (by omega)]
  exact h2 _ (List.getElem_mem _)

theorem split_index {p : K × V → Bool} {xs ys zs : List (K × V)} (h1 : ∀ x ∈ xs, p x = false)
    (h3 : ∀ z ∈ zs, p z = false) {i : Nat} {x : K × V} (hi : (xs ++ (ys ++ zs))[i]? = some x) (hx : p x = true) :
    xs.length ≤ i ∧ i < xs.length + ys.length := by
  constructor
  · by_contra hh
    rw [List.getElem?_append_left (by omega)] at hi
    rw [h1 x (List.mem_of_getElem? hi)] at hx; cases hx
  · by_contra hh
    rw [List.getElem?_append_right (by omega), List.getElem?_append_right (by omega)] at hi
    rw [h3 x (List.mem_of_getElem? hi)] at hx; cases hx

/-- equivalents of a key in the whole table are those of its bucket -/
theorem filter_contents {t : Table K V} (hl : FLawful t.fns) (hp : Placed t.fns t.b) {L : List Nat} (hg : t.b.Ginv L) (k : K) :
    t.contents.filter (fun e => t.fns.eq k e.1) = (t.b.chain (t.pos k)).filter (fun e => t.fns.eq k e.1) := by
  have hlt : t.pos k < t.b.size := Gba.position_lt hg _
  unfold Table.contents Gba.contents
  obtain ⟨xs, ys, e⟩ := List.append_of_mem (List.mem_range.mpr hlt)
  have hnd := List.nodup_range (n := t.b.size)
  rw [e, List.nodup_append] at hnd
  obtain ⟨_, hnd2, hnd3⟩ := hnd
  rw [List.nodup_cons] at hnd2
  have hpx : t.pos k ∉ xs := fun hm => hnd3 _ hm _ (by simp) rfl
  have key : ∀ l : List Nat, t.pos k ∉ l → (l.flatMap t.b.chain).filter (fun e => t.fns.eq k e.1) = [] := by
    intro l hlm
    rw [List.filter_eq_nil_iff]
    intro y hy hyk
    obtain ⟨b, hb, hyb⟩ := List.mem_flatMap.mp hy
    apply hlm
    have h1 := hp b y hyb
    have h2 := hl.compat _ _ hyk
    have : t.pos k = b := by unfold Table.pos; rw [h2]; exact h1
    rw [this]; exact hb
  rw [e, List.flatMap_append, List.flatMap_cons, List.filter_append, List.filter_append, key _ hpx, key _ hnd2.1]
  simp

/-! ### Insertion next to an equivalent element -/

/-- a position `insert_node_hint` may use for `x` in the bucket `l` -/
def HintOk (eq : K → K → Bool) (x : K × V) (l : List (K × V)) : Option Nat → Prop
  | some i => ∃ hi : i < l.length, eq x.1 (l[i]).1 = true
  | none => ∀ y ∈ l, eq x.1 y.1 = false

/-- index at which `insert_node_hint` puts the new node -/
def hintIdx : Option Nat → Nat
  | none => 0
  | some i => i + 1

theorem putHint_spec {t : Table K V} (hs : SInv t) (hb : t.b.size ≠ 0) (hl : FLawful t.fns) (hsh : Shape false t.fns t.b)
    (x : K × V) (hint : Option Nat) (hh : HintOk t.fns.eq x (t.b.chain (t.pos x.1)) hint) :
    ∃ b', t.b.insertNodeHint (t.bucketFor (t.fns.hash x.1)) x hint = some b' ∧
      Added t x { t with b := b', size := t.size + 1 } ∧ Shape false t.fns b' ∧ b'.size = t.b.size ∧
      Node b' (t.bucketFor (t.fns.hash x.1), hintIdx hint) x := by
  obtain ⟨L, hg⟩ := hs.wf.ginv hb
  have hlt : t.pos x.1 < t.b.size := Gba.position_lt hg _
  rw [bucketFor_eq hb]
  have hi : ∀ i, hint = some i → i < (t.b.chain (t.pos x.1)).length := by
    intro i e; subst e; exact hh.1
  obtain ⟨b', L', e1, e2, e3, e4, e5, e6⟩ := Gba.insertNodeHint_spec hg hlt x hint hi
  have hp : b'.contents.Perm (x :: t.b.contents) := by
    cases hint with
    | none => exact Gba.contents_push e3 e6 hlt
    | some i => exact Gba.contents_insertAfter e3 e6 hlt
  refine ⟨b', e1, ⟨⟨Or.inr ⟨L', e2⟩, fun _ => e5.trans (hs.mal hb), ?_, ?_⟩, rfl, rfl, rfl, rfl, hp⟩, ?_, e3, rfl, ?_⟩
  · show t.size + 1 = b'.contents.length
    rw [hp.length_eq, List.length_cons, hs.len]; rfl
  · intro e; exact absurd (e3 ▸ e) hb
  · refine insertHint_shape hl hsh e4 ?_ e6
    cases hint with
    | none => exact hh
    | some i => exact hh
  · dsimp only
    rw [e6, up_same]
    cases hint with
    | none => rfl
    | some i =>
      have := hi i rfl
      unfold Gba.putHint hintIdx
      dsimp only
      unfold Gba.insertAfter
      rw [List.getElem?_append_right (by simp)]
      simp only [List.length_take]
      rw [Nat.min_eq_left (by omega)]
      simp

theorem growForOne_same {t t1 : Table K V} (hs : SInv t) (h : t.growForOne = some t1)
    (hc : ¬ (t.maxLoad < t.size + 1 ∧ t1.bucketCount ≠ t.bucketCount)) : t1 = t := by
  unfold Table.growForOne at h
  split at h
  · rename_i hm
    unfold Table.reserve Table.rehash at h
    dsimp only at h
    split at h
    · rename_i hb
      exfalso
      have hn : Gba.bucketCountFor (max (minBuckets t.size t.mlf) (minBuckets (t.size + 1) t.mlf)) ≠ 0 ∨ t.size = 0 := by
        left
        have := minBuckets_pos t.mlf (n := t.size + 1) (by omega)
        exact le_bucketCountFor_pos (by omega)
      obtain ⟨t', e1, e2, e3, _⟩ := rehashImpl_spec hs hn
      rw [h] at e1
      have := Option.some.inj e1
      subst this
      apply hc
      refine ⟨hm, ?_⟩
      unfold Table.bucketCount
      rw [e3, Gba.bucketCountFor_idem]
      exact hb
    · exact (Option.some.inj h).symm
  · exact (Option.some.inj h).symm

theorem reverse_findIdx {p : K × V → Bool} {l : List (K × V)} (h : ∃ x ∈ l, p x = true) :
    ∃ j, l.reverse.findIdx? p = some j ∧ ∃ hi : l.length - 1 - j < l.length, p (l[l.length - 1 - j]) = true := by
  cases hf : l.reverse.findIdx? p with
  | none =>
    obtain ⟨x, hx, hp⟩ := h
    have := List.findIdx?_eq_none_iff.mp hf x (List.mem_reverse.mpr hx)
    rw [hp] at this; simp at this
  | some j =>
    obtain ⟨hj, h1, _⟩ := findIdx_some hf
    rw [List.length_reverse] at hj
    refine ⟨j, rfl, by omega, ?_⟩
    rw [List.getElem_reverse] at h1
    exact h1

theorem mem_bucket {t : Table K V} (hs : SInv t) (hl : FLawful t.fns) (hp : Placed t.fns t.b) {k : K} {e : K × V}
    (he : e ∈ t.contents) (hk : t.fns.eq k e.1 = true) : e ∈ t.b.chain (t.pos k) := by
  obtain ⟨b, hb⟩ := (Gba.mem_contents hs.wf).mp he
  have h1 := hp b e hb
  have h2 := hl.compat _ _ hk
  have : t.pos k = b := by unfold Table.pos; rw [h2]; exact h1
  rw [this]; exact hb

/-- result of inserting `x` into a multi container -/
def EquivAdded (t : Table K V) (x : K × V) (r : Option (Table K V × (BIt × Nat))) : Prop :=
  ∃ t' q, r = some (t', q) ∧ Added t x t' ∧ Shape false t.fns t'.b ∧ Node t'.b q x

theorem equivAdded_of_hint {t t1 : Table K V} (g : Kept t t1) (hl : FLawful t.fns) (hsh : Shape false t.fns t.b)
    (hb : t1.b.size ≠ 0) (x : K × V) (hint : Option Nat) (hh : HintOk t.fns.eq x (t1.b.chain (t1.pos x.1)) hint) :
    ∃ b', t1.b.insertNodeHint (t1.bucketFor (t.fns.hash x.1)) x hint = some b' ∧
      EquivAdded t x (some ({ t1 with b := b', size := t1.size + 1 }, (t1.bucketFor (t.fns.hash x.1), hintIdx hint))) := by
  have hl1 : FLawful t1.fns := by rw [g.fns]; exact hl
  obtain ⟨b', e1, e2, e3, e4, e5⟩ := putHint_spec g.inv hb hl1 (by rw [g.fns]; exact g.shape _ hl hsh) x hint
    (by rw [g.fns]; exact hh)
  rw [g.fns] at e1 e3 e5
  refine ⟨b', e1, _, _, rfl, ⟨e2.inv, e2.fns.trans g.fns, e2.al.trans g.al, e2.mlf.trans g.mlf, ?_, ?_⟩, e3, e5⟩
  · show t1.size + 1 = _
    rw [g.size]
  · exact e2.perm.trans (g.perm.cons x)

theorem emplaceEquiv_spec {t : Table K V} (hs : SInv t) (hl : FLawful t.fns) (hsh : Shape false t.fns t.b) (x : K × V) :
    EquivAdded t x (t.emplaceEquiv x) := by
  unfold Table.emplaceEquiv
  dsimp only
  obtain ⟨t1, g1, g2, g3⟩ := growForOne_spec hs
  have hl1 : FLawful t1.fns := by rw [g2.fns]; exact hl
  have hsh1 : Shape false t1.fns t1.b := by rw [g2.fns]; exact g2.shape _ hl hsh
  obtain ⟨L, hg⟩ := g2.inv.wf.ginv g3
  have hlt : t1.pos x.1 < t1.b.size := Gba.position_lt hg _
  have hget : t1.b.get (t1.bucketFor (t.fns.hash x.1)) = some (t1.b.chain (t1.pos x.1)) := by
    have := bucketFor_eq g3 x.1
    rw [g2.fns] at this
    rw [this]
    exact Gba.get_of_le hg (Nat.le_of_lt hlt)
  rcases findImpl_spec hs hl hsh.1 x.1 with ⟨h1, h2⟩ | ⟨i, e, h1, h2, h3, h4, h5⟩
  · rw [h1]; dsimp only
    rw [g1]; dsimp only
    rw [hget]; dsimp only
    obtain ⟨b', i1, i2⟩ := equivAdded_of_hint g2 hl hsh g3 x none (by
      intro y hy
      exact h2 y (g2.perm.mem_iff.mp ((Gba.mem_contents g2.inv.wf).mpr ⟨_, hy⟩)))
    rw [i1]; exact i2
  · rw [h1]; dsimp only
    rw [g1]; dsimp only
    rw [hget]; dsimp only
    by_cases hc : t.maxLoad < t.size + 1 ∧ t1.bucketCount ≠ t.bucketCount
    · have hc' := hc
      rw [if_pos hc']
      have hm : e ∈ t1.b.chain (t1.pos x.1) :=
        mem_bucket g2.inv hl1 hsh1.1 (g2.perm.mem_iff.mpr (h4.mem hs)) (by rw [g2.fns]; exact h5)
      obtain ⟨j, f1, f2, f3⟩ := reverse_findIdx (p := fun e => t.fns.eq x.1 e.1) ⟨e, hm, h5⟩
      rw [f1]
      simp only [Option.map_some]
      obtain ⟨b', i1, i2⟩ := equivAdded_of_hint g2 hl hsh g3 x (some _) ⟨f2, f3⟩
      rw [i1]; exact i2
    · rw [if_neg hc]
      have hsame := growForOne_same hs g1 hc
      subst hsame
      obtain ⟨hi, f1, _⟩ := findIdx_some h3
      obtain ⟨b', i1, i2⟩ := equivAdded_of_hint g2 hl hsh g3 x (some i) ⟨hi, f1⟩
      dsimp only
      rw [i1]; exact i2

theorem insertNodeEquiv_spec {t : Table K V} (hs : SInv t) (hl : FLawful t.fns) (hsh : Shape false t.fns t.b) (x : K × V) :
    EquivAdded t x (t.insertNodeEquiv x) := by
  unfold Table.insertNodeEquiv
  obtain ⟨t1, g1, g2, g3⟩ := reserveForInsert_spec hs (t.size + 1)
  rw [g1]; dsimp only
  have hb := g3 (by omega)
  have hl1 : FLawful t1.fns := by rw [g2.fns]; exact hl
  have hsh1 : Shape false t1.fns t1.b := by rw [g2.fns]; exact g2.shape _ hl hsh
  rcases findImpl_spec g2.inv hl1 hsh1.1 x.1 with ⟨h1, h2⟩ | ⟨i, e, h1, h2, h3, h4, h5⟩
  · rw [h1]; dsimp only
    rw [g2.fns] at h2
    obtain ⟨b', i1, i2⟩ := equivAdded_of_hint g2 hl hsh hb x none (fun y hy => h2 y ((Gba.mem_contents g2.inv.wf).mpr ⟨_, hy⟩))
    have e : t.fns.hash x.1 = t1.fns.hash x.1 := by rw [g2.fns]
    rw [e] at i1 i2
    rw [i1]
    exact i2
  · rw [h1]; dsimp only
    rw [g2.fns] at h3
    obtain ⟨hi, f1, _⟩ := findIdx_some h3
    obtain ⟨b', i1, i2⟩ := equivAdded_of_hint g2 hl hsh hb x (some i) ⟨hi, f1⟩
    have e : t.fns.hash x.1 = t1.fns.hash x.1 := by rw [g2.fns]
    rw [e] at i1 i2
    rw [i1]
    exact i2

theorem node_bucket {t : Table K V} (hs : SInv t) (hl : FLawful t.fns) (hp : Placed t.fns t.b) {k : K} {q : BIt × Nat}
    {e : K × V} (hn : Node t.b q e) (hk : t.fns.eq k e.1 = true) :
    q.1 = t.bucketFor (t.fns.hash k) ∧ q.1.p = t.pos k := by
  have hmem := List.mem_of_getElem? hn.2
  have h1 := hp _ e hmem
  have h2 := hl.compat _ _ hk
  have h3 : q.1.p = t.pos k := by unfold Table.pos; rw [h2]; exact h1.symm
  refine ⟨?_, h3⟩
  have hb : t.b.size ≠ 0 := by
    obtain ⟨L, hg⟩ := hs.ginv_of_mem (hn.mem hs)
    exact Nat.pos_iff_ne_zero.mp hg.pos
  rw [bucketFor_eq hb, ← h3, ← hn.1]

theorem emplaceHintEquiv_spec {t : Table K V} (hs : SInv t) (hl : FLawful t.fns) (hsh : Shape false t.fns t.b) (x : K × V)
    (hint : It) (hh : ∀ q, hint = some q → ∃ e, Node t.b q e) :
    EquivAdded t x (t.emplaceHintEquiv hint x) := by
  unfold Table.emplaceHintEquiv
  cases hint with
  | none => exact emplaceEquiv_spec hs hl hsh x
  | some p =>
    dsimp only
    obtain ⟨e, hn⟩ := hh p rfl
    obtain ⟨L0, hg0⟩ := hs.ginv_of_mem (hn.mem hs)
    rw [hn.deref hg0]; dsimp only
    split
    · rename_i hk
      obtain ⟨hq1, hq2⟩ := node_bucket hs hl hsh.1 hn hk
      obtain ⟨t1, g1, g2, g3⟩ := growForOne_spec hs
      rw [g1]; dsimp only
      have hl1 : FLawful t1.fns := by rw [g2.fns]; exact hl
      have hsh1 : Shape false t1.fns t1.b := by rw [g2.fns]; exact g2.shape _ hl hsh
      by_cases hc : t.maxLoad < t.size + 1 ∧ t1.bucketCount ≠ t.bucketCount
      · have hc' := hc
        rw [if_pos hc']
        obtain ⟨L, hg⟩ := g2.inv.wf.ginv g3
        have hlt : t1.pos x.1 < t1.b.size := Gba.position_lt hg _
        have hget : t1.b.get (t1.bucketFor (t.fns.hash x.1)) = some (t1.b.chain (t1.pos x.1)) := by
          have := bucketFor_eq g3 x.1
          rw [g2.fns] at this
          rw [this]
          exact Gba.get_of_le hg (Nat.le_of_lt hlt)
        have hlt0 : t.pos x.1 < t.b.size := Gba.position_lt hg0 _
        have hget0 : t.b.get p.1 = some (t.b.chain (t.pos x.1)) := by
          rw [Gba.get_of_le hg0 (by rw [hq2]; omega), hq2]
        rw [hget0, hget]; dsimp only
        -- both buckets split
        have hA := hsh.2 (t.pos x.1)
        have hB := hsh1.2 (t1.pos x.1)
        rw [g2.fns] at hB
        obtain ⟨xs, ys, zs, s1, s2, s3, s4⟩ := contig_split (eqLaw hl) x.1 _ hA.contig
        obtain ⟨xs', ys', zs', s1', s2', s3', s4'⟩ := contig_split (eqLaw hl) x.1 _ hB.contig
        have hcount : ys'.length = ys.length := by
          have f1 := filter_contents hl hsh.1 hg0 x.1
          have f2 := filter_contents hl1 hsh1.1 hg x.1
          rw [s1, split_filter s2 s3 s4] at f1
          rw [g2.fns, s1', split_filter s2' s3' s4'] at f2
          have := (g2.perm.filter (fun e => t.fns.eq x.1 e.1)).length_eq
          rw [f1, f2] at this
          exact this
        have hidx : xs.length ≤ p.2 ∧ p.2 < xs.length + ys.length := by
          have := hn.2
          rw [hq2, s1] at this
          exact split_index (p := fun e => t.fns.eq x.1 e.1) s2 s4 this hk
        have hne : ys ≠ [] := by intro e; rw [e] at hidx; simp at hidx; omega
        have hne' : ys' ≠ [] := by intro e; rw [e] at hcount; exact hne (List.eq_nil_of_length_eq_zero hcount.symm)
        have F1 : (t.b.chain (t.pos x.1)).findIdx? (fun e => t.fns.eq x.1 e.1) = some xs.length := by
          rw [s1]; exact split_findIdx s2 s3 hne
        have F2 : (t1.b.chain (t1.pos x.1)).reverse.findIdx? (fun e => t.fns.eq x.1 e.1) = some zs'.length := by
          rw [s1', List.reverse_append, List.reverse_append, List.append_assoc]
          have := split_findIdx (p := fun e => t.fns.eq x.1 e.1) (xs := zs'.reverse) (ys := ys'.reverse) (zs := xs'.reverse)
            (fun a ha => s4' a (List.mem_reverse.mp ha)) (fun a ha => s3' a (List.mem_reverse.mp ha)) (by simpa using hne')
          rw [this, List.length_reverse]
        rw [F1, F2]; dsimp only
        have hlen : (t1.b.chain (t1.pos x.1)).length = xs'.length + (ys'.length + zs'.length) := by rw [s1']; simp
        obtain ⟨b', i1, i2⟩ := equivAdded_of_hint g2 hl hsh g3 x
          (some ((t1.b.chain (t1.pos x.1)).length - 1 - zs'.length - (p.2 - xs.length))) (by
            have : ∀ (l : List (K × V)) i, l = xs' ++ (ys' ++ zs') → xs'.length ≤ i → i < xs'.length + ys'.length →
                HintOk t.fns.eq x l (some i) := by
              intro l i hl' h1 h2
              subst hl'
              exact split_getElem (p := fun e => t.fns.eq x.1 e.1) s3' h1 h2
            exact this _ _ s1' (by omega) (by omega))
        rw [i1]; exact i2
      · rw [if_neg hc]
        have hsame := growForOne_same hs g1 hc
        subst hsame
        have hlt := hn.lt
        have hx : (t1.b.chain p.1.p)[p.2] = e := by
          have := hn.2; rw [List.getElem?_eq_getElem hlt] at this; exact Option.some.inj this
        have : HintOk t1.fns.eq x (t1.b.chain (t1.pos x.1)) (some p.2) := by
          rw [← hq2]; exact ⟨hlt, by rw [hx]; exact hk⟩
        obtain ⟨b', i1, i2⟩ := equivAdded_of_hint g2 hl hsh g3 x (some p.2) this
        rw [← hq1] at i1 i2
        rw [i1]; exact i2
    · exact emplaceEquiv_spec hs hl hsh x

theorem insertRangeEquiv1_spec : ∀ (xs : List (K × V)) (t : Table K V), SInv t → FLawful t.fns → Shape false t.fns t.b →
    ∃ t', Table.insertRangeEquiv1 xs t = some t' ∧ AddedAll t xs.reverse t' ∧ Shape false t.fns t'.b := by
  intro xs
  induction xs with
  | nil => intro t hs hl hsh; exact ⟨t, rfl, AddedAll.nil hs, hsh⟩
  | cons x xs ih =>
    intro t hs hl hsh
    obtain ⟨t1, q, e1, e2, e3, e4⟩ := emplaceEquiv_spec hs hl hsh x
    unfold Table.insertRangeEquiv1
    rw [e1]; dsimp only
    obtain ⟨t', i1, i2, i3⟩ := ih t1 e2.inv (by rw [e2.fns]; exact hl) (by rw [e2.fns]; exact e3)
    rw [e2.fns] at i3
    refine ⟨t', i1, ?_, i3⟩
    have := e2.cons i2
    refine ⟨this.inv, this.fns, this.al, this.mlf, this.perm.trans ?_⟩
    rw [List.reverse_cons, List.append_assoc, List.cons_append]
    exact List.perm_middle.symm

theorem insertRangeEquiv_spec (xs : List (K × V)) {t : Table K V} (hs : SInv t) (hl : FLawful t.fns)
    (hsh : Shape false t.fns t.b) :
    ∃ t', Table.insertRangeEquiv t xs = some t' ∧ AddedAll t xs t' ∧ Shape false t.fns t'.b := by
  unfold Table.insertRangeEquiv
  split
  · exact ⟨t, rfl, AddedAll.nil hs, hsh⟩
  · rename_i x
    obtain ⟨t1, q, e1, e2, e3, e4⟩ := emplaceEquiv_spec hs hl hsh x
    rw [e1]
    exact ⟨t1, rfl, e2.cons (AddedAll.nil e2.inv), e3⟩
  · rename_i h1 h2
    have hne : 0 < xs.length := by
      cases xs with
      | nil => exact absurd rfl h1
      | cons _ _ => simp
    obtain ⟨t1, g1, g2, g3⟩ := reserveForInsert_spec hs (t.size + xs.length)
    rw [g1]; dsimp only
    have hb := g3 (by omega)
    obtain ⟨L, hg⟩ := g2.inv.wf.ginv hb
    rw [g2.fns]
    obtain ⟨a', L', e1, e2, e3, e4, e5, e6, e7⟩ := fillEquiv_spec hl xs t1.b L hg (g2.shape _ hl hsh)
    rw [e1]
    have hp : a'.contents.Perm (xs ++ t.contents) := e7.trans (g2.perm.append_left xs)
    refine ⟨_, rfl, ⟨⟨Or.inr ⟨L', e2⟩, fun _ => e5.trans (g2.inv.mal hb), ?_, fun h => absurd (e3 ▸ h) hb⟩, rfl, g2.al, g2.mlf, hp⟩, e6⟩
    show t1.size + xs.length = a'.contents.length
    rw [hp.length_eq, List.length_append, g2.size, hs.len]; omega

end Fca

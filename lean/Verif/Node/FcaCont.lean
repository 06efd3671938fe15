/-
Closed-addressing containers as containers of node pointers: unordered_map/set (`u = true`), unordered_multimap/multiset
(`u = false`).
Source: /repo/include/boost/unordered/unordered_map.hpp (likewise unordered_set.hpp),
/repo/include/boost/unordered/detail/implementation.hpp via `Verif/Fca/Table.lean`.
-/
import Verif.Node.Laws
import Verif.Fca.Refine

namespace Node
open Fca (Table Fns BIt It)
variable {K : Type}

/-- The nodes `erase(k)` deletes: `erase_key_unique_impl` (implementation.hpp:2230-2243): the first equivalent one of the bucket;
`erase_key_equiv_impl` (implementation.hpp:2626-2647): from that one on while equivalent. -/
def fcaVictims (u : Bool) (t : Table K Nat) (k : K) : Option (List (K × Nat)) :=
  if 0 < t.size then
    match t.b.get (t.bucketFor (t.fns.hash k)) with
    | none => none
    | some l =>
      match l.findIdx? (fun e => t.fns.eq k e.1) with
      | none => some []
      | some i => some (if u then (l.drop i).take 1 else (l.drop i).takeWhile (fun e => t.fns.eq e.1 k))
  else some []

/-- `erase(k)` -/
def fcaErase (u : Bool) (t : Table K Nat) (k : K) : Option (Table K Nat × List (K × Nat)) :=
  match fcaVictims u t k, (if u then t.eraseKeyUnique k else t.eraseKeyEquiv k) with
  | some l, some r => if l.length = r.2 then some (r.1, l) else none
  | _, _ => none

/-- `move_insert_node_type_with_hint_unique` (implementation.hpp:2108-2140) -/
def fcaHintUnique (t : Table K Nat) (hint : It) (x : K × Nat) : Option (Table K Nat × Bool) :=
  match hint with
  | none => (t.emplaceUnique x).map (fun r => (r.1, r.2.2))
  | some p =>
    match t.b.deref p with
    | none => none
    | some e => if t.fns.eq x.1 e.1 then some (t, false) else (t.emplaceUnique x).map (fun r => (r.1, r.2.2))

/-- second branch of `move_insert_node_type_with_hint_equiv` (implementation.hpp:2545-2560): rehash if needed, then look for an
equivalent element -/
def fcaGrowInsert (t : Table K Nat) (x : K × Nat) : Option (Table K Nat) :=
  match t.growForOne with
  | none => none
  | some t1 =>
    let itb := t1.bucketFor (t1.fns.hash x.1)
    match t1.findImpl x.1 itb with
    | none => none
    | some hint =>
      match t1.b.insertNodeHint itb x hint with
      | none => none
      | some b' => some { t1 with b := b', size := t1.size + 1 }

/-- `move_insert_node_type_with_hint_equiv` (implementation.hpp:2535-2563); with a matching hint it does what
`emplace_hint_equiv` does. -/
def fcaHintEquiv (t : Table K Nat) (hint : It) (x : K × Nat) : Option (Table K Nat) :=
  match hint with
  | none => fcaGrowInsert t x
  | some p =>
    match t.b.deref p with
    | none => none
    | some e => if t.fns.eq x.1 e.1 then (t.emplaceHintEquiv (some p) x).map Prod.fst else fcaGrowInsert t x

/-- The operations of a closed-addressing container. `clear`, the destructor and move assignment delete the nodes visited by the
iteration (implementation.hpp:1536-1565, 2706-2721). `merge` asserts equal allocators for unique
keys (implementation.hpp:2147); for equivalent keys (unordered_map.hpp:2326-2363) nothing is asserted, but nodes would later be
freed with the wrong allocator. Move assignment with unequal, not propagating allocators moves elements into new nodes and is not
modelled here. -/
def fcaCont (u : Bool) : ContImpl K (Table K Nat) where
  new_ h e al := Table.mk_ ⟨h, e⟩ 0 al
  al t := t.al
  emplace t x :=
    if u then (t.emplaceUnique x).map (fun r => (r.1, r.2.2)) else (t.emplaceEquiv x).map (fun r => (r.1, true))
  insertNode t x :=
    if u then (t.insertNodeUnique x).map (fun r => (r.1, r.2.2)) else (t.insertNodeEquiv x).map (fun r => (r.1, true))
  insertHint t i x :=
    match t.begin_.bind (t.advance i) with
    | none => none
    | some hint => if u then fcaHintUnique t hint x else (fcaHintEquiv t hint x).map (fun r => (r, true))
  extract t k := t.opExtract k
  erase := fcaErase u
  clear t := t.iterate.bind (fun l => t.clear.map (fun t' => (t', l)))
  destroy t := t.iterate.bind (fun l => t.destroy.map (fun _ => l))
  merge t x := if t.al ≠ x.al then none else if u then t.mergeUnique x else t.mergeEquiv x
  swap pocs t x := t.swap pocs x
  moveAssign pocma t x :=
    if pocma = true ∨ t.al = x.al then
      t.iterate.bind (fun l => (Table.moveAssign pocma u id t x).map (fun r => (r.1, r.2, l)))
    else none

namespace FcaLaws
open Fca
variable {u : Bool} {t x : Table K Nat}

/-- invariant of a container -/
structure Good (u : Bool) (t : Table K Nat) : Prop where
  inv : SInv t
  law : FLawful t.fns
  shape : Shape u t.fns t.b

theorem Good.added (h : Good u t) {x : K × Nat} (ha : Added t x t') (hs : Shape u t.fns t'.b) : Good u t' :=
  ⟨ha.inv, by rw [ha.fns]; exact h.law, by rw [ha.fns]; exact hs⟩

theorem Good.addedAll (h : Good u t) {xs : List (K × Nat)} (ha : AddedAll t xs t') (hs : Shape u t.fns t'.b) : Good u t' :=
  ⟨ha.inv, by rw [ha.fns]; exact h.law, by rw [ha.fns]; exact hs⟩

theorem Good.removed (h : Good u t) {xs : List (K × Nat)} (ha : Removed t xs t') : Good u t' :=
  ⟨ha.inv, by rw [ha.fns]; exact h.law, by rw [ha.fns]; exact ha.shape _ _ h.law h.shape⟩

theorem Good.filled {f : Fns K} {al : Nat} {m : Option Nat} {xs : List (K × Nat)} (hl : FLawful f)
    (ha : Filled u f al m xs t') : Good u t' :=
  ⟨ha.inv, by rw [ha.fns]; exact hl, by rw [ha.fns]; exact ha.shape⟩

abbrev MyIns (u : Bool) := Ins (K := K) u Table.contents (Good u) (fun t => t.fns.eq) Table.al

theorem ins_true (h : Good u t) {x : K × Nat} {t' : Table K Nat} (ha : Added t x t') (hs : Shape u t.fns t'.b)
    (hno : u = true → ∀ e ∈ t.contents, t.fns.eq x.1 e.1 = false) : MyIns u t x (some (t', true)) :=
  ⟨t', true, rfl, h.added ha hs, by show t'.fns.eq = _; rw [ha.fns], ha.al, Or.inr ⟨rfl, ha.perm, hno⟩⟩

theorem ins_false (h : Good true t) {x e : K × Nat} {q : BIt × Nat} (hn : Fca.Node t.b q e) (he : t.fns.eq x.1 e.1 = true) :
    MyIns true t x (some (t, false)) :=
  ⟨t, false, rfl, h, rfl, rfl, Or.inl ⟨rfl, rfl, List.Perm.refl _, e, hn.mem h.inv, he⟩⟩

theorem emplaceUnique_ins (h : Good true t) (x : K × Nat) :
    MyIns true t x ((t.emplaceUnique x).map (fun r => (r.1, r.2.2))) := by
  rcases emplaceUnique_spec h.inv h.law h.shape x with ⟨q, e, h1, h2, h3⟩ | ⟨t', q, h1, h2, h3, h4, h5⟩
  · rw [h1]; exact ins_false h h2 h3
  · rw [h1]; exact ins_true h h3 h4 (fun _ => h2)

theorem insertNodeUnique_ins (h : Good true t) (x : K × Nat) :
    MyIns true t x ((t.insertNodeUnique x).map (fun r => (r.1, r.2.2))) := by
  rcases insertNodeUnique_spec h.inv h.law h.shape x with ⟨q, e, h1, h2, h3⟩ | ⟨t', q, h1, h2, h3, h4, h5⟩
  · rw [h1]; exact ins_false h h2 h3
  · rw [h1]; exact ins_true h h3 h4 (fun _ => h2)

theorem equiv_ins (h : Good false t) {x : K × Nat} {r : Option (Table K Nat × (BIt × Nat))} (hr : EquivAdded t x r) :
    MyIns false t x (r.map (fun r => (r.1, true))) := by
  obtain ⟨t', q, h1, h2, h3, h4⟩ := hr
  rw [h1]; exact ins_true h h2 h3 (by simp)

theorem growInsert_ins (h : Good false t) (x : K × Nat) :
    ∃ t', fcaGrowInsert t x = some t' ∧ Added t x t' ∧ Shape false t.fns t'.b := by
  unfold fcaGrowInsert
  obtain ⟨t1, g1, g2, hb⟩ := growForOne_spec h.inv
  rw [g1]; dsimp only
  have hl1 : FLawful t1.fns := by rw [g2.fns]; exact h.law
  have hsh1 : Shape false t1.fns t1.b := by rw [g2.fns]; exact g2.shape _ h.law h.shape
  have e : t.fns.hash x.1 = t1.fns.hash x.1 := by rw [g2.fns]
  rcases findImpl_spec g2.inv hl1 hsh1.1 x.1 with ⟨h1, h2⟩ | ⟨i, y, h1, h2, h3, h4, h5⟩
  · rw [h1]; dsimp only
    rw [g2.fns] at h2
    obtain ⟨b', i1, i2⟩ := equivAdded_of_hint g2 h.law h.shape hb x none
      (fun y hy => h2 y ((Gba.mem_contents g2.inv.wf).mpr ⟨_, hy⟩))
    rw [e] at i1 i2
    rw [i1]
    obtain ⟨t', q, j1, j2, j3, j4⟩ := i2
    refine ⟨t', ?_, j2, j3⟩
    have := congrArg Prod.fst (Option.some.inj j1)
    exact congrArg some this
  · rw [h1]; dsimp only
    rw [g2.fns] at h3
    obtain ⟨hi, f1, _⟩ := findIdx_some h3
    obtain ⟨b', i1, i2⟩ := equivAdded_of_hint g2 h.law h.shape hb x (some i) ⟨hi, f1⟩
    rw [e] at i1 i2
    rw [i1]
    obtain ⟨t', q, j1, j2, j3, j4⟩ := i2
    refine ⟨t', ?_, j2, j3⟩
    have := congrArg Prod.fst (Option.some.inj j1)
    exact congrArg some this

theorem hint_ins (h : Good u t) (i : Nat) (x : K × Nat) (hi : i ≤ t.contents.length) :
    MyIns u t x ((fcaCont u).insertHint t i x) := by
  obtain ⟨hint, h1, h2⟩ := hint_node h.inv (i := i) (by rw [h.inv.len]; exact hi)
  simp only [fcaCont, h1]
  cases u with
  | true =>
    simp only [if_true]
    cases hint with
    | none => exact emplaceUnique_ins h x
    | some p =>
      obtain ⟨e, hn⟩ := h2 p rfl
      simp only [fcaHintUnique, Node.deref' h.inv hn]
      split
      · rename_i he; exact ins_false h hn he
      · exact emplaceUnique_ins h x
  | false =>
    simp only [Bool.false_eq_true, if_false]
    have hg : MyIns false t x ((fcaGrowInsert t x).map (fun r => (r, true))) := by
      obtain ⟨t', e1, e2, e3⟩ := growInsert_ins h x
      rw [e1]; exact ins_true h e2 e3 (by simp)
    cases hint with
    | none => exact hg
    | some p =>
      obtain ⟨e, hn⟩ := h2 p rfl
      simp only [fcaHintEquiv, Node.deref' h.inv hn]
      split
      · have := equiv_ins h (emplaceHintEquiv_spec h.inv h.law h.shape x (some p) h2)
        rw [Option.map_map]
        exact this
      · exact hg

theorem extract_law (h : Good u t) (k : K) :
    (∃ t' e, t.opExtract k = some (t', some e) ∧ Removed t [e] t' ∧ t.fns.eq k e.1 = true) ∨
    (t.opExtract k = some (t, none) ∧ ∀ e ∈ t.contents, t.fns.eq k e.1 = false) := by
  unfold Table.opExtract
  rcases find_spec h.inv h.law h.shape.1 k with ⟨h1, h2⟩ | ⟨i, x, h1, _, _, h2, h3⟩
  · right; exact ⟨by simp only [h1], h2⟩
  · left
    obtain ⟨L, hg⟩ := h.inv.ginv_of_mem (h2.mem h.inv)
    obtain ⟨pre, post, hat⟩ := h2.at_ hg
    obtain ⟨t', L', e1, e2, e3, e4⟩ := extractAt_at h.inv hg hat
    exact ⟨t', x, by simp only [h1, e1, Option.map_some], e2, h3⟩

/-- the nodes deleted are the equivalent ones -/
theorem victims_spec (h : Good u t) (k : K) :
    ∃ l, fcaVictims u t k = some l ∧ l.Perm (t.contents.filter (fun e => t.fns.eq k e.1)) := by
  unfold fcaVictims
  by_cases h0 : 0 < t.size
  · rw [if_pos h0]
    have hb := h.inv.pos (Nat.pos_iff_ne_zero.mp h0)
    obtain ⟨L, hg⟩ := h.inv.wf.ginv hb
    have hlt : t.pos k < t.b.size := Gba.position_lt hg _
    rw [bucketFor_eq hb, Gba.get_of_le hg (Nat.le_of_lt hlt)]
    dsimp only
    obtain ⟨xs, ys, zs, s1, s2, s3, s4⟩ := contig_split (eqLaw h.law) k _ (h.shape.2 (t.pos k)).contig
    have hfil : t.contents.filter (fun e => t.fns.eq k e.1) = ys := by
      rw [filter_contents h.law h.shape.1 hg k, s1]; exact split_filter s2 s3 s4
    rw [hfil]
    by_cases hne : ys = []
    · have hf : (t.b.chain (t.pos k)).findIdx? (fun e => t.fns.eq k e.1) = none := by
        refine List.findIdx?_eq_none_iff.mpr (fun e he => ?_)
        rw [s1, hne, List.nil_append, List.mem_append] at he
        rcases he with he | he
        · exact s2 e he
        · exact s4 e he
      rw [hf]
      exact ⟨[], rfl, by rw [hne]⟩
    · have hf : (t.b.chain (t.pos k)).findIdx? (fun e => t.fns.eq k e.1) = some xs.length := by
        rw [s1]; exact split_findIdx s2 s3 hne
      rw [hf]
      dsimp only
      refine ⟨_, rfl, ?_⟩
      have hd : (t.b.chain (t.pos k)).drop xs.length = ys ++ zs := by rw [s1]; simp
      rw [hd]
      cases u with
      | false =>
        simp only [Bool.false_eq_true, if_false]
        have : (ys ++ zs).takeWhile (fun e => t.fns.eq e.1 k) = ys := by
          rw [List.takeWhile_append_of_pos (fun y hy => h.law.symm _ _ (s3 y hy))]
          cases zs with
          | nil => simp
          | cons z zs =>
            have := eq_false_symm h.law (s4 z (by simp))
            simp [this]
        rw [this]
      | true =>
        simp only [if_true]
        -- at most one equivalent element
        have hp : (t.b.chain (t.pos k)).Pairwise (fun a b => t.fns.eq a.1 b.1 = false) := by
          have := h.shape.2 (t.pos k)
          simpa [Arranged] using this
        have hp2 : ys.Pairwise (fun a b => t.fns.eq a.1 b.1 = false) := by
          rw [s1] at hp
          exact (List.pairwise_append.1 (List.pairwise_append.1 hp).2.1).1
        match ys, hne, hp2, s3 with
        | [y], _, _, _ => simp
        | y :: z :: r, _, hp2, s3 =>
          exfalso
          have h1 := (List.pairwise_cons.1 hp2).1 z (by simp)
          have h2 := h.law.trans _ _ _ (h.law.symm _ _ (s3 y (by simp))) (s3 z (by simp))
          rw [h1] at h2; cases h2
  · rw [if_neg h0]
    have : t.contents = [] := h.inv.contents_nil (by omega)
    exact ⟨[], rfl, by rw [this]; exact List.Perm.refl _⟩

theorem erase_law (h : Good u t) (k : K) :
    ∃ t' l, fcaErase u t k = some (t', l) ∧ Removed t l t' ∧ (∀ e ∈ l, t.fns.eq k e.1 = true) ∧
      ∀ e ∈ t'.contents, t.fns.eq k e.1 = false := by
  obtain ⟨l, v1, v2⟩ := victims_spec h k
  have main : ∃ t' gone, (if u then t.eraseKeyUnique k else t.eraseKeyEquiv k) = some (t', gone.length) ∧
      Removed t gone t' ∧ (∀ e ∈ gone, t.fns.eq k e.1 = true) ∧ ∀ e ∈ t'.contents, t.fns.eq k e.1 = false := by
    cases u with
    | false => exact eraseKeyEquiv_spec h.inv h.law h.shape k
    | true =>
      simp only [if_true]
      rcases eraseKeyUnique_spec h.inv h.law h.shape.1 k with ⟨h1, h2⟩ | ⟨t', y, h1, h2, h3⟩
      · exact ⟨t, [], h1, Removed.nil h.inv, by simp, h2⟩
      · refine ⟨t', [y], h1, h2, by simpa using h3, ?_⟩
        have hr : R true t ⟨t.fns.eq, t.al, t.contents, true⟩ :=
          ⟨h.inv, h.law, rfl, rfl, fun _ => h.shape, fun _ => List.Perm.refl _⟩
        have := (unique_split hr rfl h2.perm h3).2
        intro e he
        have := (List.mem_filter.1 (this.mem_iff.1 he)).2
        simpa using this
  obtain ⟨t', gone, m1, m2, m3, m4⟩ := main
  have hgone : gone.Perm (t.contents.filter (fun e => t.fns.eq k e.1)) := by
    have := m2.perm.filter (fun e => t.fns.eq k e.1)
    rw [List.filter_append, List.filter_eq_self.2 m3,
      (List.filter_eq_nil_iff (l := t'.contents)).2 (fun e he => by simp [m4 e he]), List.append_nil] at this
    exact this.symm
  have hlg : l.Perm gone := v2.trans hgone.symm
  refine ⟨t', l, ?_, ?_, fun e he => m3 e (hlg.mem_iff.1 he), m4⟩
  · unfold fcaErase
    rw [v1, m1]
    simp [hlg.length_eq]
  · refine ⟨m2.inv, m2.fns, m2.al, m2.mlf, by rw [hlg.length_eq]; exact m2.size, m2.bsize, m2.maxLoad, ?_, m2.shape⟩
    exact m2.perm.trans (hlg.symm.append_right _)

theorem iterate_law (h : Good u t) : ∃ l, t.iterate = some l ∧ t.contents.Perm l := by
  obtain ⟨l, h1, h2, -⟩ := iterate_spec h.inv
  exact ⟨l, h1, h2.symm⟩

/-- closed-addressing containers satisfy the laws. -/
def fcaLaws (u : Bool) : Laws (fcaCont (K := K) u) u true where
  contents := Table.contents
  Inv := Good u
  eq t := t.fns.eq
  new_ hash e al hl := ⟨⟨fresh_sinv _ _ _ _, hl, shape_empty _ _ (Gba.new_chain 0 al)⟩, rfl, rfl, Gba.new_contents 0 al⟩
  distinct hu t h := by
    subst hu
    obtain ⟨l, -, i2, -, i4⟩ := iterate_spec h.inv
    have hp : l.Pairwise (fun a b => t.fns.eq a.1 b.1 = false) := by
      have := i4 true h.law h.shape
      simpa [Arranged] using this
    exact (i2.pairwise_iff (fun {a b} hab => eq_false_symm h.law hab)).1 hp
  symm t h a b hab := h.law.symm a b hab
  emplace t x h := by
    cases u with
    | true => exact emplaceUnique_ins h x
    | false => exact equiv_ins h (emplaceEquiv_spec h.inv h.law h.shape x)
  insertNode t x h := by
    cases u with
    | true => exact insertNodeUnique_ins h x
    | false => exact equiv_ins h (insertNodeEquiv_spec h.inv h.law h.shape x)
  insertHint t i x h hi := hint_ins h i x hi
  extract t k h := by
    rcases extract_law h k with ⟨t', e, h1, h2, h3⟩ | ⟨h1, h2⟩
    · exact ⟨t', some e, h1, h.removed h2, by rw [h2.fns], h2.al, Or.inl ⟨e, rfl, h2.perm, h3⟩⟩
    · exact ⟨t, none, h1, h, rfl, rfl, Or.inr ⟨rfl, List.Perm.refl _, h2⟩⟩
  erase t k h := by
    obtain ⟨t', l, h1, h2, h3, h4⟩ := erase_law h k
    exact ⟨t', l, h1, h.removed h2, by rw [h2.fns], h2.al, h2.perm, h3, h4⟩
  clear t h := by
    obtain ⟨l, i1, i2⟩ := iterate_law h
    obtain ⟨t', xs, h1, h2, h3⟩ := clear_spec h.inv
    exact ⟨t', l, by simp [fcaCont, i1, h1], h.removed h2, by rw [h2.fns], h2.al, i2, h3⟩
  destroy t h := by
    obtain ⟨l, i1, i2⟩ := iterate_law h
    have hr : R u t ⟨t.fns.eq, t.al, t.contents, true⟩ :=
      ⟨h.inv, h.law, rfl, rfl, fun _ => h.shape, fun _ => List.Perm.refl _⟩
    exact ⟨l, by simp [fcaCont, i1, hr.destroy], i2⟩
  merge t x h hx hal _ := by
    have hal' : t.al = x.al := hal
    cases u with
    | true =>
      obtain ⟨t', x', took, kept, h1, h2, h3, h4, h5, h6⟩ := mergeUnique_spec h.inv h.law h.shape hx.inv hal'
      refine ⟨t', x', took, by simp [fcaCont, hal', h1], h.addedAll h4 h5, hx.removed h6, by rw [h4.fns], by rw [h6.fns],
        h4.al, h6.al, h6.perm, h4.perm, fun _ => ⟨h2.absent, h2.pw, ?_⟩, by simp⟩
      intro e he
      refine h2.dup e ?_
      have := (List.perm_append_left_iff took).1 (h6.perm.symm.trans h3)
      exact this.mem_iff.1 he
    | false =>
      obtain ⟨t', x', took, h1, h3, h4, h5, h6, h7⟩ := mergeEquiv_spec h.inv h.law h.shape hx.inv hal'
      exact ⟨t', x', took, by simp [fcaCont, hal', h1], h.addedAll h4 h5, hx.removed h6, by rw [h4.fns], by rw [h6.fns],
        h4.al, h6.al, h6.perm, h4.perm, by simp, fun _ => h7⟩
  swap pocs t x h hx hp := by
    have hp' : pocs = true ∨ t.al = x.al := hp
    refine ⟨x, t, ?_, hx, h, rfl, rfl, rfl, rfl, List.Perm.refl _, List.Perm.refl _⟩
    simp only [fcaCont, Table.swap]
    cases pocs with
    | true => simp
    | false =>
      have : t.al = x.al := by simpa using hp'
      rw [if_neg (by simp [this])]
      simp [this]
      simp [← this]
  moveAssign pocma t x h hx hp := by
    have hp' : pocma = true ∨ t.al = x.al := hp
    obtain ⟨l, i1, i2⟩ := iterate_law h
    obtain ⟨t', x', h1, h2, h3, h4, h5, h6⟩ := moveAssign_spec (pocma := pocma) h.inv hx.inv hx.law hx.shape id
    refine ⟨t', x', l, by simp [fcaCont, hp', i1, h1], Good.filled hx.law h2, ⟨h3, by rw [h4]; exact hx.law, ?_⟩, by rw [h2.fns],
      Or.inr (by rw [h4]), ?_, h5, h2.perm, h6 hp', i2⟩
    · exact shape_empty _ _ (h3.wf.chain_nil (h6 hp'))
    · show t'.al = x.al
      rw [h2.al]
      cases pocma
      · simp at hp'; simpa using hp'
      · simp

end FcaLaws
end Node

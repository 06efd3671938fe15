/-
Specification lemmas for the operations of the closed-addressing table: rehashing, lookup and unique-key insertion.
-/
import Verif.Fca.Inv

namespace Fca
open SpecC (Contig)
variable {K V : Type}

/-- structural invariant of a table -/
structure SInv (t : Table K V) : Prop where
  wf : t.b.WF
  mal : t.b.size ≠ 0 → t.b.mal = t.al
  len : t.size = t.contents.length
  ml : t.b.size = 0 → t.maxLoad = 0

theorem SInv.contents_nil {t : Table K V} (h : SInv t) (h0 : t.size = 0) : t.contents = [] := by
  have := h.len; rw [h0] at this; exact List.eq_nil_of_length_eq_zero this.symm

theorem SInv.pos {t : Table K V} (h : SInv t) (h0 : t.size ≠ 0) : t.b.size ≠ 0 := by
  intro hb
  apply h0
  rw [h.len]
  unfold Table.contents Gba.contents
  rw [hb]; rfl

theorem SInv.ginv {t : Table K V} (h : SInv t) (h0 : t.size ≠ 0) : ∃ L, t.b.Ginv L := h.wf.ginv (h.pos h0)

theorem Gba.WF.chain_nil {α : Type} {a : Gba α} (h : a.WF) (h0 : a.contents = []) (b : Nat) : a.chain b = [] := by
  cases e : a.chain b with
  | nil => rfl
  | cons x l =>
    have : x ∈ a.contents := (mem_contents h).mpr ⟨b, by rw [e]; simp⟩
    rw [h0] at this; simp at this

/-- what operations that only rearrange keep -/
structure Kept (t t' : Table K V) : Prop where
  inv : SInv t'
  fns : t'.fns = t.fns
  al : t'.al = t.al
  size : t'.size = t.size
  mlf : t'.mlf = t.mlf
  perm : t'.contents.Perm t.contents
  shape : ∀ u, FLawful t.fns → Shape u t.fns t.b → Shape u t.fns t'.b

theorem Kept.refl {t : Table K V} (h : SInv t) : Kept t t :=
  ⟨h, rfl, rfl, rfl, rfl, List.Perm.refl _, fun _ _ h => h⟩

theorem SInv.dealloc {t : Table K V} (h : SInv t) : t.b.dealloc t.al = some () := by
  unfold Gba.dealloc
  rw [if_neg]
  rintro ⟨h1, h2⟩
  exact h2 (h.mal h1)

theorem SInv.deleteNode {t : Table K V} (h : SInv t) (h0 : t.size ≠ 0) : t.deleteNode = some () := by
  unfold Table.deleteNode
  rw [if_neg]
  intro h2
  exact h2 (h.mal (h.pos h0))

theorem maxLoadFor_zero (m : Option Nat) : maxLoadFor m 0 = 0 := by unfold maxLoadFor; rw [if_pos rfl]

theorem fillFront_nil (f : Fns K) (a : Gba (K × V)) : Table.fillFront f [] a = some a := rfl

theorem rehashImpl_spec {t : Table K V} (h : SInv t) {n : Nat} (hn : n ≠ 0 ∨ t.size = 0) :
    ∃ t', t.rehashImpl n = some t' ∧ Kept t t' ∧ t'.b.size = Gba.bucketCountFor n ∧ t'.b.mal = t.al ∧
      t'.maxLoad = maxLoadFor t.mlf t'.b.size ∧
      (∀ b, t'.b.chain b = (t.contents.filter (fun x => decide (t'.b.position (t.fns.hash x.1) = b))).reverse) := by
  unfold Table.rehashImpl
  by_cases h0 : n = 0
  · have hs : t.size = 0 := by
      rcases hn with hn | hn
      · exact absurd h0 hn
      · exact hn
    have hc := h.contents_nil hs
    unfold Table.contents at hc
    rw [hc, fillFront_nil]
    dsimp only
    rw [h.dealloc]
    dsimp only
    refine ⟨_, rfl, ⟨⟨Gba.new_wf _ _, fun _ => Gba.new_mal _ _, ?_, ?_⟩, rfl, rfl, rfl, rfl, ?_, ?_⟩, Gba.new_size _ _,
      Gba.new_mal _ _, rfl, ?_⟩
    · unfold Table.contents; dsimp only; rw [Gba.new_contents]; exact hs
    · dsimp only; intro e; rw [e]; exact maxLoadFor_zero _
    · unfold Table.contents; dsimp only; rw [Gba.new_contents, hc]
    · intro u _ _; exact shape_empty u _ (Gba.new_chain _ _)
    · intro b; unfold Table.contents; rw [hc]; exact Gba.new_chain _ _ _
  · obtain ⟨a', L', e1, e2, e3, e4, e5, e6, e7⟩ := fillFront_spec t.fns t.b.contents _ [] (Gba.new_ginv (α := K × V) (al := t.al) h0)
    rw [e1]
    dsimp only
    rw [h.dealloc]
    dsimp only
    rw [Gba.new_contents, List.append_nil] at e7
    have hp : ∀ y, a'.position y = (Gba.new n t.al : Gba (K × V)).position y := by
      intro y; unfold Gba.position; rw [e4]
    refine ⟨_, rfl, ⟨⟨Or.inr ⟨L', e2⟩, fun _ => e5.trans (Gba.new_mal _ _), ?_, ?_⟩, rfl, rfl, rfl, rfl, e7, ?_⟩, ?_,
      e5.trans (Gba.new_mal _ _), rfl, ?_⟩
    · unfold Table.contents; dsimp only; rw [e7.length_eq]; exact h.len
    · dsimp only; intro e; rw [e]; exact maxLoadFor_zero _
    · intro u hl hsh
      exact fillFront_shape hl (hsh.contents hl) (Gba.new_chain _ _) e4 e6
    · dsimp only; rw [e3, Gba.new_size]
    · intro b
      dsimp only
      rw [e6 b, Gba.new_chain, List.append_nil]
      simp only [hp]
      rfl

theorem ite_pos_aux (q n : Nat) (h : 0 < n) : 0 < if q = 0 ∧ 0 < n then 1 else q := by
  by_cases hq : q = 0
  · rw [if_pos ⟨hq, h⟩]; omega
  · rw [if_neg (fun h2 => hq h2.1)]; omega

theorem minBuckets_pos {n : Nat} (m : Option Nat) (h : 0 < n) : 0 < minBuckets n m := ite_pos_aux _ n h

theorem Gba.bucketCountFor_idem (n : Nat) : Gba.bucketCountFor (Gba.bucketCountFor n) = Gba.bucketCountFor n := by
  by_cases h : n = 0
  · subst h; rfl
  · have hp := Gba.bucketCountFor_pos h
    have e : Gba.bucketCountFor n = PrimeFmod.size (PrimeFmod.sizeIndex n) := by unfold Gba.bucketCountFor; rw [if_neg h]
    rw [e] at hp ⊢
    unfold Gba.bucketCountFor
    rw [if_neg (by omega)]
    have : ∀ i < PrimeFmod.sizes.length, PrimeFmod.size (PrimeFmod.sizeIndex (PrimeFmod.size i)) = PrimeFmod.size i := by
      decide +kernel
    exact this _ (PrimeFmod.sizeIndex_lt n)

theorem bucketCountFor_zero : Gba.bucketCountFor 0 = 0 := rfl

theorem le_bucketCountFor_pos {n : Nat} (h : 0 < n) : Gba.bucketCountFor n ≠ 0 :=
  Nat.pos_iff_ne_zero.mp (Gba.bucketCountFor_pos (by omega))

theorem rehash_spec {t : Table K V} (h : SInv t) (n : Nat) :
    ∃ t', t.rehash n = some t' ∧ Kept t t' ∧ t'.b.size = Gba.bucketCountFor (max (minBuckets t.size t.mlf) n) := by
  unfold Table.rehash
  dsimp only
  split
  · -- bucketCountFor applied twice: the constructor rounds up again
    have hn : Gba.bucketCountFor (max (minBuckets t.size t.mlf) n) ≠ 0 ∨ t.size = 0 := by
      by_cases h0 : t.size = 0
      · exact Or.inr h0
      · left
        have := minBuckets_pos t.mlf (Nat.pos_of_ne_zero h0)
        exact le_bucketCountFor_pos (by omega)
    obtain ⟨t', e1, e2, e3, _, _, _⟩ := rehashImpl_spec h hn
    refine ⟨t', e1, e2, ?_⟩
    rw [e3]
    exact Gba.bucketCountFor_idem _
  · rename_i hh
    exact ⟨t, rfl, Kept.refl h, (Decidable.not_not.mp hh).symm⟩

theorem reserve_spec {t : Table K V} (h : SInv t) (n : Nat) :
    ∃ t', t.reserve n = some t' ∧ Kept t t' ∧ (0 < n → t'.b.size ≠ 0) := by
  obtain ⟨t', e1, e2, e3⟩ := rehash_spec h (minBuckets n t.mlf)
  refine ⟨t', e1, e2, fun hn => ?_⟩
  rw [e3]
  have := minBuckets_pos t.mlf hn
  exact le_bucketCountFor_pos (by omega)

theorem reserveForInsert_spec {t : Table K V} (h : SInv t) (n : Nat) :
    ∃ t', t.reserveForInsert n = some t' ∧ Kept t t' ∧ (0 < n → t'.b.size ≠ 0) := by
  unfold Table.reserveForInsert
  split
  · have hn : insertBuckets n t.mlf t.bucketCount ≠ 0 := by unfold insertBuckets; omega
    obtain ⟨t', e1, e2, e3, _⟩ := rehashImpl_spec h (Or.inl hn)
    refine ⟨t', e1, e2, fun _ => ?_⟩
    rw [e3]; exact le_bucketCountFor_pos (by omega)
  · refine ⟨t, rfl, Kept.refl h, fun hn hb => ?_⟩
    have := h.ml hb
    omega

theorem growForOne_spec {t : Table K V} (h : SInv t) :
    ∃ t', t.growForOne = some t' ∧ Kept t t' ∧ t'.b.size ≠ 0 := by
  unfold Table.growForOne
  split
  · obtain ⟨t', e1, e2, e3⟩ := reserve_spec h (t.size + 1)
    exact ⟨t', e1, e2, e3 (by omega)⟩
  · refine ⟨t, rfl, Kept.refl h, fun hb => ?_⟩
    have := h.ml hb
    omega

/-! ### Lookup -/

/-- `q` is a valid iterator to a node holding `x` -/
def Node (a : Gba (K × V)) (q : BIt × Nat) (x : K × V) : Prop :=
  q.1.g = some (q.1.p / 64) ∧ (a.chain q.1.p)[q.2]? = some x

theorem Node.lt {a : Gba (K × V)} {q : BIt × Nat} {x : K × V} (h : Node a q x) : q.2 < (a.chain q.1.p).length := by
  have := h.2
  rw [List.getElem?_eq_some_iff] at this
  exact this.1

theorem Node.at_ {a : Gba (K × V)} {L : List Nat} (hg : a.Ginv L) {q : BIt × Nat} {x : K × V} (h : Node a q x) :
    ∃ pre post, a.At L (some q) pre (x :: post) := by
  have hlt := h.lt
  have hm : q.1.p ∈ a.order L := (Gba.mem_order hg).mpr (Or.inr (by intro e; rw [e] at hlt; simp at hlt))
  obtain ⟨xs, ys, e⟩ := List.append_of_mem hm
  obtain ⟨⟨p, g⟩, i⟩ := q
  dsimp only at *
  refine ⟨xs.flatMap a.chain ++ (a.chain p).take i, (a.chain p).drop (i + 1) ++ ys.flatMap a.chain, h.1, hlt, xs, ys, e, rfl, ?_⟩
  rw [List.drop_eq_getElem_cons hlt]
  have := h.2
  dsimp only at this
  rw [List.getElem?_eq_getElem hlt] at this
  rw [Option.some.inj this]; rfl

theorem Node.of_at {a : Gba (K × V)} {L : List Nat} {q : BIt × Nat} {x : K × V} {pre post : List (K × V)}
    (h : a.At L (some q) pre (x :: post)) : Node a q x := by
  obtain ⟨⟨p, g⟩, i⟩ := q
  obtain ⟨hg, hi, xs, ys, e, h1, h2⟩ := h
  refine ⟨hg, ?_⟩
  dsimp only
  rw [List.drop_eq_getElem_cons hi, List.cons_append] at h2
  rw [List.getElem?_eq_getElem hi, (List.cons.inj h2).1]

theorem Node.deref {a : Gba (K × V)} {L : List Nat} (hg : a.Ginv L) {q : BIt × Nat} {x : K × V} (h : Node a q x) :
    a.deref q = some x := by
  obtain ⟨pre, post, hc⟩ := h.at_ hg
  exact hc.deref hg

theorem Node.mem {t : Table K V} (hs : SInv t) {q : BIt × Nat} {x : K × V} (h : Node t.b q x) : x ∈ t.contents :=
  (Gba.mem_contents hs.wf).mpr ⟨q.1.p, List.mem_of_getElem? h.2⟩

theorem SInv.ginv_of_mem {t : Table K V} (hs : SInv t) {x : K × V} (h : x ∈ t.contents) : ∃ L, t.b.Ginv L := by
  apply hs.ginv
  rw [hs.len]
  exact Nat.pos_iff_ne_zero.mp (List.length_pos_of_mem h)

/-- bucket a key belongs to -/
def Table.pos (t : Table K V) (k : K) : Nat := t.b.position (t.fns.hash k)

theorem bucketFor_eq {t : Table K V} (h : t.b.size ≠ 0) (k : K) :
    t.bucketFor (t.fns.hash k) = ⟨t.pos k, some (t.pos k / 64)⟩ := Gba.at_eq (Nat.pos_of_ne_zero h) _

/-- only the bucket of the key can hold equivalent elements -/
theorem absent_iff {t : Table K V} (hs : SInv t) (hl : FLawful t.fns) (hp : Placed t.fns t.b) (k : K) :
    (∀ e ∈ t.contents, t.fns.eq k e.1 = false) ↔ ∀ e ∈ t.b.chain (t.pos k), t.fns.eq k e.1 = false := by
  constructor
  · intro h e he; exact h e ((Gba.mem_contents hs.wf).mpr ⟨_, he⟩)
  · intro h e he
    obtain ⟨b, hb⟩ := (Gba.mem_contents hs.wf).mp he
    by_cases hk : b = t.pos k
    · subst hk; exact h e hb
    · cases hh : t.fns.eq k e.1 with
      | false => rfl
      | true =>
        exfalso; apply hk
        rw [← hp b e hb]; unfold Table.pos; rw [hl.compat _ _ hh]

theorem findImpl_spec {t : Table K V} (hs : SInv t) (hl : FLawful t.fns) (hp : Placed t.fns t.b) (k : K) :
    (t.findImpl k (t.bucketFor (t.fns.hash k)) = some none ∧ ∀ e ∈ t.contents, t.fns.eq k e.1 = false) ∨
    (∃ i x, t.findImpl k (t.bucketFor (t.fns.hash k)) = some (some i) ∧ t.b.size ≠ 0 ∧
      (t.b.chain (t.pos k)).findIdx? (fun e => t.fns.eq k e.1) = some i ∧
      Node t.b (t.bucketFor (t.fns.hash k), i) x ∧ t.fns.eq k x.1 = true) := by
  unfold Table.findImpl
  by_cases h0 : t.b.size = 0
  · left
    have : t.bucketFor (t.fns.hash k) = t.b.end_ := by
      unfold Table.bucketFor Gba.at_; rw [if_neg (by omega)]
    rw [this]
    refine ⟨by unfold Gba.end_; rw [if_pos rfl], ?_⟩
    intro e he
    exfalso
    obtain ⟨L, hg⟩ := hs.ginv_of_mem he
    exact absurd h0 (Nat.pos_iff_ne_zero.mp hg.pos)
  · obtain ⟨L, hg⟩ := hs.wf.ginv h0
    rw [bucketFor_eq h0]
    have hlt : t.pos k < t.b.size := Gba.position_lt hg _
    dsimp only
    rw [if_neg (by omega), Gba.get_of_le hg (Nat.le_of_lt hlt)]
    dsimp only
    cases hf : (t.b.chain (t.pos k)).findIdx? (fun e => t.fns.eq k e.1) with
    | none =>
      left
      refine ⟨rfl, (absent_iff hs hl hp k).mpr ?_⟩
      intro e he
      simpa using List.findIdx?_eq_none_iff.mp hf e he
    | some i =>
      right
      obtain ⟨hi, h1, _⟩ := findIdx_some hf
      exact ⟨i, _, rfl, h0, rfl, ⟨rfl, List.getElem?_eq_getElem hi⟩, h1⟩

theorem find_spec {t : Table K V} (hs : SInv t) (hl : FLawful t.fns) (hp : Placed t.fns t.b) (k : K) :
    (t.find k = some none ∧ ∀ e ∈ t.contents, t.fns.eq k e.1 = false) ∨
    (∃ i x, t.find k = some (some (t.bucketFor (t.fns.hash k), i)) ∧ 0 < t.size ∧
      (t.b.chain (t.pos k)).findIdx? (fun e => t.fns.eq k e.1) = some i ∧
      Node t.b (t.bucketFor (t.fns.hash k), i) x ∧ t.fns.eq k x.1 = true) := by
  unfold Table.find
  by_cases h0 : 0 < t.size
  · rw [if_pos h0]
    have hb := hs.pos (Nat.pos_iff_ne_zero.mp h0)
    obtain ⟨L, hg⟩ := hs.wf.ginv hb
    have hlt : t.pos k < t.b.size := Gba.position_lt hg _
    dsimp only
    rw [bucketFor_eq hb, Gba.get_of_le hg (Nat.le_of_lt hlt)]
    dsimp only
    cases hf : (t.b.chain (t.pos k)).findIdx? (fun e => t.fns.eq k e.1) with
    | none =>
      left
      refine ⟨rfl, (absent_iff hs hl hp k).mpr ?_⟩
      intro e he
      simpa using List.findIdx?_eq_none_iff.mp hf e he
    | some i =>
      right
      obtain ⟨hi, h1, _⟩ := findIdx_some hf
      exact ⟨i, _, rfl, h0, rfl, ⟨rfl, List.getElem?_eq_getElem hi⟩, h1⟩
  · left
    rw [if_neg h0]
    refine ⟨rfl, ?_⟩
    rw [hs.contents_nil (by omega)]; simp

theorem findNode_spec {t : Table K V} (hs : SInv t) (hl : FLawful t.fns) (hp : Placed t.fns t.b) (k : K) :
    (t.findNode k = some none ∧ ∀ e ∈ t.contents, t.fns.eq k e.1 = false) ∨
    (∃ q x, t.findNode k = some (some q) ∧ Node t.b q x ∧ t.fns.eq k x.1 = true) := by
  unfold Table.findNode
  dsimp only
  rcases findImpl_spec hs hl hp k with ⟨h1, h2⟩ | ⟨i, x, h1, h2, h3, h4, h5⟩
  · left; rw [h1]; exact ⟨rfl, h2⟩
  · right; rw [h1]; exact ⟨_, x, rfl, h4, h5⟩

/-! ### Insertion of one element at the front of its bucket -/

/-- the state after inserting `x` -/
structure Added (t : Table K V) (x : K × V) (t' : Table K V) : Prop where
  inv : SInv t'
  fns : t'.fns = t.fns
  al : t'.al = t.al
  mlf : t'.mlf = t.mlf
  size : t'.size = t.size + 1
  perm : t'.contents.Perm (x :: t.contents)

theorem push_spec {t : Table K V} (hs : SInv t) (hb : t.b.size ≠ 0) (x : K × V) :
    ∃ b', t.b.insertNode (t.bucketFor (t.fns.hash x.1)) x = some b' ∧ b'.size = t.b.size ∧ b'.si = t.b.si ∧
      b'.chain = up t.b.chain (t.pos x.1) (x :: t.b.chain (t.pos x.1)) ∧
      Added t x { t with b := b', size := t.size + 1 } ∧
      Node b' (t.bucketFor (t.fns.hash x.1), 0) x := by
  obtain ⟨L, hg⟩ := hs.wf.ginv hb
  have hlt : t.pos x.1 < t.b.size := Gba.position_lt hg _
  rw [bucketFor_eq hb]
  obtain ⟨b', L', e1, e2, e3, e4, e5, e6⟩ := Gba.insertNode_spec hg hlt x
  have hp := Gba.contents_push e3 e6 hlt
  refine ⟨b', e1, e3, e4, e6, ⟨⟨Or.inr ⟨L', e2⟩, fun _ => e5.trans (hs.mal hb), ?_, ?_⟩, rfl, rfl, rfl, rfl, hp⟩, rfl, ?_⟩
  · show t.size + 1 = b'.contents.length
    rw [hp.length_eq, List.length_cons, hs.len]; rfl
  · intro e; exact absurd (e3 ▸ e) hb
  · dsimp only; rw [e6, up_same]; rfl

theorem push_shape {u : Bool} {f : Fns K} {a a' : Gba (K × V)} {x : K × V}
    (hs : Shape u f a) (hsi : a'.si = a.si)
    (hx : ∀ y ∈ a.chain (a.position (f.hash x.1)), f.eq x.1 y.1 = false)
    (hc : a'.chain = up a.chain (a.position (f.hash x.1)) (x :: a.chain (a.position (f.hash x.1)))) : Shape u f a' := by
  have hpos : ∀ y, a'.position y = a.position y := by intro y; unfold Gba.position; rw [hsi]
  constructor
  · intro b y hy
    rw [hpos]
    rw [hc, up_apply] at hy
    split at hy
    · rename_i hb
      rw [List.mem_cons] at hy
      rcases hy with rfl | hy
      · exact hb.symm
      · rw [hb]; exact hs.1 _ y hy
    · exact hs.1 b y hy
  · intro b
    rw [hc, up_apply]
    split
    · have h0 := hs.2 (a.position (f.hash x.1))
      unfold Arranged at *
      cases u
      · simp only [Bool.false_eq_true, if_false] at *; exact contig_push hx h0
      · simp only [if_true] at *; exact List.pairwise_cons.mpr ⟨hx, h0⟩
    · exact hs.2 b

/-- Inserting an element no other is equivalent to. -/
theorem push_new {u : Bool} {t : Table K V} (hs : SInv t) (hb : t.b.size ≠ 0) (hsh : Shape u t.fns t.b)
    {x : K × V} (hx : ∀ e ∈ t.contents, t.fns.eq x.1 e.1 = false) :
    ∃ b', t.b.insertNode (t.bucketFor (t.fns.hash x.1)) x = some b' ∧
      Added t x { t with b := b', size := t.size + 1 } ∧ Shape u t.fns b' ∧ b'.size = t.b.size ∧
      Node b' (t.bucketFor (t.fns.hash x.1), 0) x := by
  obtain ⟨b', e1, e2, e3, e4, e5, e6⟩ := push_spec hs hb x
  refine ⟨b', e1, e5, push_shape hsh e3 ?_ e4, e2, e6⟩
  intro y hy
  exact hx y ((Gba.mem_contents hs.wf).mpr ⟨_, hy⟩)

theorem emplaceUnique_spec {t : Table K V} (hs : SInv t) (hl : FLawful t.fns) (hsh : Shape true t.fns t.b) (x : K × V) :
    (∃ q e, t.emplaceUnique x = some (t, q, false) ∧ Node t.b q e ∧ t.fns.eq x.1 e.1 = true) ∨
    (∃ t' q, t.emplaceUnique x = some (t', q, true) ∧ (∀ e ∈ t.contents, t.fns.eq x.1 e.1 = false) ∧ Added t x t' ∧
      Shape true t.fns t'.b ∧ Node t'.b q x) := by
  unfold Table.emplaceUnique
  dsimp only
  rcases findImpl_spec hs hl hsh.1 x.1 with ⟨h1, h2⟩ | ⟨i, e, h1, h2, h3, h4, h5⟩
  · right
    rw [h1]; dsimp only
    obtain ⟨t1, g1, g2, g3⟩ := growForOne_spec hs
    rw [g1]; dsimp only
    obtain ⟨b', e1, e2, e3, e4, e5⟩ := push_new (u := true) g2.inv g3 (by rw [g2.fns]; exact g2.shape _ hl hsh)
      (x := x) (by rw [g2.fns]; intro e he; exact h2 e (g2.perm.mem_iff.mp he))
    rw [g2.fns] at e1 e3 e5
    rw [e1]; dsimp only
    refine ⟨_, _, rfl, h2, ⟨e2.inv, e2.fns.trans g2.fns, e2.al.trans g2.al, e2.mlf.trans g2.mlf, ?_, ?_⟩, e3, e5⟩
    · show t1.size + 1 = _
      rw [g2.size]
    · exact e2.perm.trans (g2.perm.cons x)
  · left
    rw [h1]
    exact ⟨_, e, rfl, h4, h5⟩

theorem insertNodeUnique_spec {t : Table K V} (hs : SInv t) (hl : FLawful t.fns) (hsh : Shape true t.fns t.b) (x : K × V) :
    (∃ q e, t.insertNodeUnique x = some (t, q, false) ∧ Node t.b q e ∧ t.fns.eq x.1 e.1 = true) ∨
    (∃ t' q, t.insertNodeUnique x = some (t', q, true) ∧ (∀ e ∈ t.contents, t.fns.eq x.1 e.1 = false) ∧ Added t x t' ∧
      Shape true t.fns t'.b ∧ Node t'.b q x) := by
  unfold Table.insertNodeUnique
  dsimp only
  rcases findImpl_spec hs hl hsh.1 x.1 with ⟨h1, h2⟩ | ⟨i, e, h1, h2, h3, h4, h5⟩
  · right
    rw [h1]; dsimp only
    obtain ⟨t1, g1, g2, g3⟩ := reserveForInsert_spec hs (t.size + 1)
    rw [g1]; dsimp only
    obtain ⟨b', e1, e2, e3, e4, e5⟩ := push_new (u := true) g2.inv (g3 (by omega)) (by rw [g2.fns]; exact g2.shape _ hl hsh)
      (x := x) (by rw [g2.fns]; intro e he; exact h2 e (g2.perm.mem_iff.mp he))
    rw [g2.fns] at e1 e3 e5
    rw [e1]; dsimp only
    refine ⟨_, _, rfl, h2, ⟨e2.inv, e2.fns.trans g2.fns, e2.al.trans g2.al, e2.mlf.trans g2.mlf, ?_, ?_⟩, e3, e5⟩
    · show t1.size + 1 = _
      rw [g2.size]
    · exact e2.perm.trans (g2.perm.cons x)
  · left
    rw [h1]
    exact ⟨_, e, rfl, h4, h5⟩

end Fca

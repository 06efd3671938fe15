/-
Specification lemmas: removal, clearing, iteration.
-/
import Verif.Fca.Ops

namespace Fca
open SpecC (Contig)
variable {K V : Type}

/-- a bucket replaced by a sublist of it -/
theorem shape_sublist {u : Bool} {f : Fns K} (hl : FLawful f) {a a' : Gba (K × V)} (hs : Shape u f a) (hsi : a'.si = a.si)
    (hc : ∀ b, (a'.chain b).Sublist (a.chain b)) : Shape u f a' := by
  have hpos : ∀ y, a'.position y = a.position y := by intro y; unfold Gba.position; rw [hsi]
  constructor
  · intro b y hy
    rw [hpos]; exact hs.1 b y ((hc b).subset hy)
  · intro b; exact (hs.2 b).sublist (eqLaw hl) (hc b)

theorem up_sublist {a : Gba (K × V)} {b : Nat} {l : List (K × V)} (h : l.Sublist (a.chain b)) (c : Nat) :
    (up a.chain b l c).Sublist (a.chain c) := by
  rw [up_apply]; split
  · rename_i e; rw [e]; exact h
  · exact List.Sublist.refl _

/-- the state after removing elements `xs` -/
structure Removed (t : Table K V) (xs : List (K × V)) (t' : Table K V) : Prop where
  inv : SInv t'
  fns : t'.fns = t.fns
  al : t'.al = t.al
  mlf : t'.mlf = t.mlf
  size : t.size = t'.size + xs.length
  bsize : t'.b.size = t.b.size
  maxLoad : t'.maxLoad = t.maxLoad
  perm : t.contents.Perm (xs ++ t'.contents)
  shape : ∀ u f, FLawful f → Shape u f t.b → Shape u f t'.b

theorem Removed.nil {t : Table K V} (h : SInv t) : Removed t [] t :=
  ⟨h, rfl, rfl, rfl, by simp, rfl, rfl, by simp, fun _ _ _ h => h⟩

theorem Removed.trans {t t1 t2 : Table K V} {xs ys : List (K × V)} (h1 : Removed t xs t1) (h2 : Removed t1 ys t2) :
    Removed t (xs ++ ys) t2 :=
  ⟨h2.inv, h2.fns.trans h1.fns, h2.al.trans h1.al, h2.mlf.trans h1.mlf,
    by rw [h1.size, h2.size, List.length_append]; omega, h2.bsize.trans h1.bsize, h2.maxLoad.trans h1.maxLoad,
    by rw [List.append_assoc]; exact h1.perm.trans (h2.perm.append_left xs),
    fun u f hl hs => h2.shape u f hl (h1.shape u f hl hs)⟩

theorem At.size_pos {t : Table K V} (hs : SInv t) {L : List Nat} (hg : t.b.Ginv L) {it : It} {pre post : List (K × V)}
    {x : K × V} (hc : t.b.At L it pre (x :: post)) : t.size ≠ 0 := by
  have := hc.elems
  have h2 := (Gba.elems_perm hg).length_eq
  rw [this] at h2
  rw [hs.len]; unfold Table.contents; rw [← h2]; simp

theorem At.length {t : Table K V} (hs : SInv t) {L : List Nat} (hg : t.b.Ginv L) {it : It} {pre post : List (K × V)}
    (hc : t.b.At L it pre post) : t.size = pre.length + post.length := by
  have := hc.elems
  have h2 := (Gba.elems_perm hg).length_eq
  rw [this] at h2
  rw [hs.len]; unfold Table.contents; rw [← h2]; simp

/-- removal of the node under a cursor from the table -/
theorem removed_of_extract {t : Table K V} (hs : SInv t) {L L' : List Nat} (hg : t.b.Ginv L) {q : BIt × Nat}
    {pre post : List (K × V)} {x : K × V} (hc : t.b.At L (some q) pre (x :: post)) {b' : Gba (K × V)} (h2 : b'.Ginv L')
    (h3 : b'.size = t.b.size) (h4 : b'.si = t.b.si) (h5 : b'.mal = t.b.mal)
    (h6 : b'.chain = up t.b.chain q.1.p ((t.b.chain q.1.p).eraseIdx q.2)) :
    Removed t [x] { t with b := b', size := t.size - 1 } := by
  have h0 := At.size_pos hs hg hc
  have hn := Node.of_at hc
  have hi := hn.lt
  have hq : q.1.p < t.b.size := hg.nonempty_lt (by intro e; rw [e] at hi; simp at hi)
  have hp := Gba.contents_erase h3 h6 hq hi
  have hx : (t.b.chain q.1.p)[q.2] = x := by
    have := hn.2; rw [List.getElem?_eq_getElem hi] at this; exact Option.some.inj this
  rw [hx] at hp
  refine ⟨⟨Or.inr ⟨L', h2⟩, fun h => h5.trans (hs.mal (h3 ▸ h)), ?_, fun h => hs.ml (h3 ▸ h)⟩, rfl, rfl, rfl, ?_, h3, rfl, hp, ?_⟩
  · have := hp.length_eq
    show t.size - 1 = b'.contents.length
    rw [hs.len]; unfold Table.contents; rw [this]; simp
  · simp; omega
  · intro u f hl hsh
    refine shape_sublist hl hsh h4 ?_
    intro b
    show (b'.chain b).Sublist _
    rw [h6]
    exact up_sublist (List.eraseIdx_sublist _ _) b

theorem eraseNode_at {t : Table K V} (hs : SInv t) {L : List Nat} (hg : t.b.Ginv L) {q : BIt × Nat}
    {pre post : List (K × V)} {x : K × V} (hc : t.b.At L (some q) pre (x :: post)) :
    ∃ t' L' it', t.eraseNode q = some (t', it') ∧ Removed t [x] t' ∧ t'.b.Ginv L' ∧ t'.b.At L' it' pre post := by
  have h0 := At.size_pos hs hg hc
  obtain ⟨b', L', it', e1, e2, e3, e4, e5, e6, e7⟩ := Gba.extractIt_at hg hc
  unfold Table.eraseNode
  rw [e1]; dsimp only
  rw [hs.deleteNode h0]; dsimp only
  rw [if_neg h0]
  exact ⟨_, L', it', rfl, removed_of_extract hs hg hc e2 e3 e4 e5 e6, e2, e7⟩

theorem extractAt_at {t : Table K V} (hs : SInv t) {L : List Nat} (hg : t.b.Ginv L) {q : BIt × Nat}
    {pre post : List (K × V)} {x : K × V} (hc : t.b.At L (some q) pre (x :: post)) :
    ∃ t' L', t.extractAt q = some (t', x) ∧ Removed t [x] t' ∧ t'.b.Ginv L' ∧ t'.b.elems L' = pre ++ post := by
  have h0 := At.size_pos hs hg hc
  obtain ⟨b', L', e1, e2, e3, e4, e5, e6, e7, e8⟩ := Gba.extractNode_elems hg hc
  unfold Table.extractAt
  rw [hc.deref hg]; dsimp only
  rw [e1]; dsimp only
  rw [if_neg h0]
  exact ⟨_, L', rfl, removed_of_extract hs hg hc e2 e3 e4 e5 e6, e2, e7⟩

/-- `begin()` -/
theorem begin_spec {t : Table K V} (hs : SInv t) :
    (t.begin_ = some none ∧ t.contents = []) ∨
    (∃ L it, t.b.Ginv L ∧ t.begin_ = some it ∧ t.b.At L it [] (t.b.elems L) ∧ t.size ≠ 0 ∧
      (t.b.elems L).length = t.size) := by
  unfold Table.begin_
  by_cases h0 : t.size = 0
  · left; rw [if_pos h0]; exact ⟨rfl, hs.contents_nil h0⟩
  · right
    rw [if_neg h0]
    obtain ⟨L, hg⟩ := hs.ginv h0
    obtain ⟨it, e1, e2⟩ := Gba.begin_at hg
    exact ⟨L, it, hg, e1, e2, h0, by rw [(Gba.elems_perm hg).length_eq, hs.len]; rfl⟩

theorem iterate_spec {t : Table K V} (hs : SInv t) :
    ∃ l, t.iterate = some l ∧ l.Perm t.contents ∧ l.length = t.size ∧
      (∀ u, FLawful t.fns → Shape u t.fns t.b → Arranged u t.fns.eq l) := by
  unfold Table.iterate
  rcases begin_spec hs with ⟨h1, h2⟩ | ⟨L, it, h1, h2, h3, h4, h5⟩
  · rw [h1]
    refine ⟨[], by simp [Gba.walk], by rw [h2], by rw [hs.len, h2], fun u _ _ => arranged_nil _ _⟩
  · rw [h2]
    refine ⟨t.b.elems L, ?_, Gba.elems_perm h1, h5, fun u hl hsh => hsh.elems hl h1⟩
    exact Gba.walk_at h1 _ _ _ _ h3 (by omega)

theorem advance_at {t : Table K V} {L : List Nat} (hg : t.b.Ginv L) : ∀ (mid post pre : List (K × V)) (it : It),
    t.b.At L it pre (mid ++ post) → ∃ it', t.advance mid.length it = some it' ∧ t.b.At L it' (pre ++ mid) post := by
  intro mid
  induction mid with
  | nil => intro post pre it h; exact ⟨it, by cases it <;> rfl, by simpa using h⟩
  | cons x mid ih =>
    intro post pre it h
    obtain ⟨q, rfl⟩ := h.some_of_cons
    obtain ⟨it1, e1, e2⟩ := h.inc hg
    obtain ⟨it', e3, e4⟩ := ih _ _ _ e2
    refine ⟨it', ?_, by simpa using e4⟩
    show (match t.b.incIt q with
      | none => none
      | some it' => t.advance mid.length it') = _
    rw [e1]; exact e3

theorem eraseIfLoop_at (pr : K × V → Bool) : ∀ (post : List (K × V)) (f : Nat) (t : Table K V) (L : List Nat) (it : It)
    (pre : List (K × V)), SInv t → t.b.Ginv L → t.b.At L it pre post → post.length ≤ f →
    ∃ t' L', Table.eraseIfLoop pr f t it = some t' ∧ Removed t (post.filter pr) t' ∧ t'.b.Ginv L' ∧
      t'.b.elems L' = pre ++ post.filter (fun e => !pr e) := by
  intro post
  induction post with
  | nil =>
    intro f t L it pre hs hg hc _
    obtain rfl := hc.none_iff.mpr rfl
    refine ⟨t, L, by cases f <;> rfl, by simpa using Removed.nil hs, hg, ?_⟩
    rw [hc.elems]; simp
  | cons x post ih =>
    intro f t L it pre hs hg hc hf
    cases f with
    | zero => simp at hf
    | succ f =>
      obtain ⟨q, rfl⟩ := hc.some_of_cons
      unfold Table.eraseIfLoop
      rw [hc.deref hg]; dsimp only
      rw [List.length_cons] at hf
      cases hp : pr x with
      | true =>
        obtain ⟨t1, L1, it1, e1, e2, e3, e4⟩ := eraseNode_at hs hg hc
        rw [if_pos rfl, e1]; dsimp only
        obtain ⟨t', L', i1, i2, i3, i4⟩ := ih f t1 L1 it1 pre e2.inv e3 e4 (by omega)
        refine ⟨t', L', i1, ?_, i3, ?_⟩
        · rw [List.filter_cons, if_pos hp]; exact e2.trans i2
        · rw [i4, List.filter_cons, if_neg (by simp [hp])]
      | false =>
        obtain ⟨it1, e1, e2⟩ := hc.inc hg
        rw [if_neg (by simp), e1]; dsimp only
        obtain ⟨t', L', i1, i2, i3, i4⟩ := ih f t L it1 _ hs hg e2 (by omega)
        refine ⟨t', L', i1, ?_, i3, ?_⟩
        · rw [List.filter_cons, if_neg (by simp [hp])]; exact i2
        · rw [i4, List.filter_cons, if_pos (by simp [hp])]; simp

theorem eraseIf_spec (pr : K × V → Bool) {t : Table K V} (hs : SInv t) :
    ∃ t' xs ys, t.eraseIf pr = some (t', xs.length) ∧ Removed t xs t' ∧ t.contents.Perm (xs ++ ys) ∧
      t'.contents.Perm ys ∧ (∀ e ∈ xs, pr e = true) ∧ (∀ e ∈ ys, pr e = false) := by
  unfold Table.eraseIf
  rcases begin_spec hs with ⟨h1, h2⟩ | ⟨L, it, h1, h2, h3, h4, h5⟩
  · rw [h1]; dsimp only
    refine ⟨t, [], [], ?_, Removed.nil hs, by rw [h2]; simp, by rw [h2], by simp, by simp⟩
    have : Table.eraseIfLoop pr t.size t none = some t := by cases t.size <;> rfl
    rw [this]; simp
  · rw [h2]; dsimp only
    obtain ⟨t', L', i1, i2, i3, i4⟩ := eraseIfLoop_at pr _ t.size t L it [] hs h1 h3 (by omega)
    refine ⟨t', (t.b.elems L).filter pr, (t.b.elems L).filter (fun e => !pr e), ?_, i2, ?_, ?_, ?_, ?_⟩
    · rw [i1]
      have := i2.size
      simp; omega
    · refine (Gba.elems_perm h1).symm.trans ?_
      exact (List.filter_append_perm pr (t.b.elems L)).symm
    · rw [List.nil_append] at i4
      rw [← i4]; exact (Gba.elems_perm i3).symm
    · intro e he; exact (List.mem_filter.mp he).2
    · intro e he; simpa using (List.mem_filter.mp he).2

theorem deleteLoop_at : ∀ (post : List (K × V)) (f : Nat) (t : Table K V) (L : List Nat) (it : It)
    (pre : List (K × V)), SInv t → t.b.Ginv L → t.b.At L it pre post → post.length ≤ f →
    ∃ t' , Table.deleteLoop f t it = some t' ∧ Removed t post t' := by
  intro post
  induction post with
  | nil =>
    intro f t L it pre hs hg hc _
    obtain rfl := hc.none_iff.mpr rfl
    exact ⟨t, by cases f <;> rfl, Removed.nil hs⟩
  | cons x post ih =>
    intro f t L it pre hs hg hc hf
    cases f with
    | zero => simp at hf
    | succ f =>
      obtain ⟨q, rfl⟩ := hc.some_of_cons
      unfold Table.deleteLoop
      rw [List.length_cons] at hf
      obtain ⟨t1, L1, it1, e1, e2, e3, e4⟩ := eraseNode_at hs hg hc
      rw [e1]; dsimp only
      obtain ⟨t', i1, i2⟩ := ih f t1 L1 it1 pre e2.inv e3 e4 (by omega)
      exact ⟨t', i1, e2.trans i2⟩

theorem deleteBuckets_spec {t : Table K V} (hs : SInv t) :
    t.deleteBuckets = some { t with size := 0, b := Gba.null t.al } := by
  unfold Table.deleteBuckets
  rcases begin_spec hs with ⟨h1, h2⟩ | ⟨L, it, h1, h2, h3, h4, h5⟩
  · rw [h1]; dsimp only
    have h0 : t.size = 0 := by rw [hs.len, h2]; rfl
    have : Table.deleteLoop t.size t none = some t := by cases t.size <;> rfl
    rw [this]; dsimp only
    rw [hs.dealloc]; dsimp only
    rw [h0]
  · rw [h2]; dsimp only
    obtain ⟨t', i1, i2⟩ := deleteLoop_at _ t.size t L it [] hs h1 h3 (by omega)
    rw [i1]; dsimp only
    rw [i2.inv.dealloc]; dsimp only
    have := i2.size
    have h0 : t'.size = 0 := by omega
    obtain ⟨f, al, sz, m, ml, b⟩ := t
    obtain ⟨f', al', sz', m', ml', b'⟩ := t'
    have a1 := i2.fns; have a2 := i2.al; have a3 := i2.mlf; have a4 := i2.maxLoad
    dsimp only at *
    rw [a1, a2, a3, a4, h0]

/-! ### `clear` -/

theorem clearBucket_spec : ∀ (n : Nat) (f : Nat) (t : Table K V) (L : List Nat) (b : Nat), SInv t → t.b.Ginv L → b < t.b.size →
    (t.b.chain b).length = n → n ≤ f →
    ∃ t' L', Table.clearBucket f t ⟨b, some (b / 64)⟩ = some t' ∧ Removed t (t.b.chain b) t' ∧ t'.b.Ginv L' ∧
      t'.b.chain = up t.b.chain b [] ∧ t'.b.order L' = (t.b.order L).filter (fun x => decide (x ≠ b)) := by
  intro n
  induction n with
  | zero =>
    intro f t L b hs hg hb hn _
    have hnil : t.b.chain b = [] := List.eq_nil_of_length_eq_zero hn
    have hget : t.b.get ⟨b, some (b / 64)⟩ = some [] := by rw [Gba.get_of_le hg (Nat.le_of_lt hb), hnil]
    refine ⟨t, L, ?_, by rw [hnil]; exact Removed.nil hs, hg, ?_, ?_⟩
    · cases f <;> (unfold Table.clearBucket; rw [hget])
    · funext c; rw [up_apply]; split
      · rename_i e; rw [e, hnil]
      · rfl
    · symm; rw [List.filter_eq_self]
      intro c hc
      simp only [decide_eq_true_eq]
      rintro rfl
      rcases (Gba.mem_order hg).mp hc with h | h
      · omega
      · exact h hnil
  | succ n ih =>
    intro f t L b hs hg hb hn hf
    cases f with
    | zero => omega
    | succ f =>
      have hget : t.b.get ⟨b, some (b / 64)⟩ = some (t.b.chain b) := Gba.get_of_le hg (Nat.le_of_lt hb)
      cases hch : t.b.chain b with
      | nil => rw [hch] at hn; simp at hn
      | cons x l =>
        have hnode : Node t.b (⟨b, some (b / 64)⟩, 0) x := ⟨rfl, by dsimp only; rw [hch]; rfl⟩
        obtain ⟨pre, post, hc⟩ := hnode.at_ hg
        have h0 := At.size_pos hs hg hc
        obtain ⟨b', L1, e1, e2, e3, e4, e5, e6, e7, e8⟩ := Gba.extractNode_elems hg hc
        have hr := removed_of_extract hs hg hc e2 e3 e4 e5 e6
        unfold Table.clearBucket
        rw [hget, hch]; dsimp only
        rw [e1, hs.deleteNode h0]; dsimp only
        rw [if_neg h0]
        have hcb : b'.chain b = l := by rw [e6]; dsimp only; rw [up_same, hch]; rfl
        have hlen : (b'.chain b).length = n := by rw [hcb]; rw [hch] at hn; simpa using hn
        obtain ⟨t', L', i1, i2, i3, i4, i5⟩ := ih f _ L1 b hr.inv e2 (by dsimp only; rw [e3]; exact hb) hlen (by omega)
        refine ⟨t', L', i1, ?_, i3, ?_, ?_⟩
        · have := hr.trans i2
          dsimp only at this
          rw [hcb] at this; exact this
        · rw [i4]; dsimp only; rw [e6]; dsimp only
          funext c; simp only [up_apply]; split <;> rfl
        · rw [i5]; dsimp only; rw [e8]; dsimp only
          split
          · rw [List.filter_filter]; congr 1; funext c; simp
          · rfl

theorem clearLoop_spec : ∀ (ys : List Nat) (f : Nat) (t : Table K V) (L : List Nat) (b : Nat), SInv t → t.b.Ginv L →
    t.b.order L = b :: ys → ys.length ≤ f →
    ∃ t', Table.clearLoop f t ⟨b, some (b / 64)⟩ = some t' ∧ Removed t (t.b.elems L) t' := by
  intro ys
  induction ys with
  | nil =>
    intro f t L b hs hg ho _
    have hb : b = t.b.size := by
      obtain ⟨xs, e⟩ := Gba.order_last hg
      rw [ho] at e
      cases xs with
      | nil => simpa using e
      | cons z xs => simp at e
    have he : t.b.elems L = [] := by unfold Gba.elems; rw [ho, hb]; simp [Gba.chain_size hg]
    refine ⟨t, ?_, by rw [he]; exact Removed.nil hs⟩
    cases f <;> (unfold Table.clearLoop; dsimp only; rw [if_pos hb])
  | cons y ys ih =>
    intro f t L b hs hg ho hf
    cases f with
    | zero => simp at hf
    | succ f =>
      have hnd := Gba.order_nodup hg
      have hbn : b ≠ t.b.size := by
        rintro rfl
        obtain ⟨xs, e⟩ := Gba.order_last hg
        rw [ho] at e
        rw [ho, List.nodup_cons] at hnd
        cases xs with
        | nil => simp at e
        | cons z xs =>
          simp only [List.cons_append, List.cons.injEq] at e
          apply hnd.1; rw [e.2]; simp
      have hb : b < t.b.size := by
        have := Gba.order_le hg (b := b) (by rw [ho]; simp)
        omega
      unfold Table.clearLoop
      dsimp only
      rw [if_neg hbn]
      have hinc := Gba.inc_order hg (xs := []) (b := b) (c := y) (ys := ys) (by simpa using ho)
      rw [hinc]; dsimp only
      have hle : (t.b.chain b).length ≤ t.size := by
        rw [hs.len]
        have := (Gba.elems_perm hg).length_eq
        unfold Table.contents
        rw [← this]
        unfold Gba.elems
        rw [ho, List.flatMap_cons, List.length_append]; omega
      obtain ⟨t1, L1, e1, e2, e3, e4, e5⟩ := clearBucket_spec _ t.size t L b hs hg hb rfl hle
      rw [e1]; dsimp only
      have ho1 : t1.b.order L1 = y :: ys := by
        rw [e5, ho]
        rw [ho, List.nodup_cons] at hnd
        rw [List.filter_cons, if_neg (by simp), List.filter_eq_self]
        intro c hc
        simp only [decide_eq_true_eq]
        rintro rfl
        exact hnd.1 hc
      obtain ⟨t', i1, i2⟩ := ih f t1 L1 y e2.inv e3 ho1 (by simpa using hf)
      refine ⟨t', i1, ?_⟩
      have hel : t.b.elems L = t.b.chain b ++ t1.b.elems L1 := by
        unfold Gba.elems
        rw [ho, List.flatMap_cons, ho1, e4]
        rw [ho, List.nodup_cons] at hnd
        rw [Gba.flatMap_up_of_not_mem _ _ _ hnd.1]
      rw [hel]
      exact e2.trans i2

theorem order_length {α : Type} {a : Gba α} {L : List Nat} (h : a.Ginv L) : (a.order L).length ≤ a.size + 1 := by
  have hsub : (a.order L).Subperm (List.range (a.size + 1)) := by
    apply List.subperm_of_subset (Gba.order_nodup h)
    intro b hb
    rw [List.mem_range]
    have := Gba.order_le h hb
    omega
  simpa using hsub.length_le

/-- `clear()` -/
theorem clear_spec {t : Table K V} (hs : SInv t) :
    ∃ t' xs, t.clear = some t' ∧ Removed t xs t' ∧ t'.contents = [] := by
  unfold Table.clear
  by_cases h0 : t.b.size = 0
  · have hb : t.b.begin_ = some t.b.end_ := by unfold Gba.begin_; rw [if_pos h0]
    rw [hb]; dsimp only
    refine ⟨t, [], ?_, Removed.nil hs, ?_⟩
    · rw [h0]
      unfold Table.clearLoop Gba.end_
      rw [if_pos rfl]
    · unfold Table.contents Gba.contents; rw [h0]; rfl
  · obtain ⟨L, hg⟩ := hs.wf.ginv h0
    cases ho : t.b.order L with
    | nil =>
      obtain ⟨xs, e⟩ := Gba.order_last hg
      rw [ho] at e; simp at e
    | cons b ys =>
      rw [Gba.begin_order hg ho]; dsimp only
      have hlen := order_length hg
      rw [ho, List.length_cons] at hlen
      obtain ⟨t', i1, i2⟩ := clearLoop_spec ys t.b.size t L b hs hg ho (by omega)
      refine ⟨t', _, i1, i2, ?_⟩
      have h1 := i2.size
      have h2 := (Gba.elems_perm hg).length_eq
      have h3 := hs.len
      unfold Table.contents at h3
      apply i2.inv.contents_nil
      omega

end Fca

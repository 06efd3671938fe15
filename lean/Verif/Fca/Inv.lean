/-
Invariants of the closed-addressing table and the effect of filling an array.
-/
import Verif.Fca.Cursor
import Verif.SpecC

namespace Fca
open SpecC (Contig)
variable {K V : Type}

/-! ### Adjacent equivalents -/

/-- between two equivalent elements there are only equivalent ones -/
def Trip (eq : K → K → Bool) (l : List (K × V)) : Prop :=
  ∀ a b c, [a, b, c].Sublist l → eq a.1 c.1 = true → eq a.1 b.1 = true

theorem Trip.sublist {eq : K → K → Bool} {l l' : List (K × V)} (h : Trip eq l) (hs : l'.Sublist l) : Trip eq l' :=
  fun a b c h1 => h a b c (h1.trans hs)

structure EqLaw (eq : K → K → Bool) : Prop where
  refl : ∀ k, eq k k = true
  symm : ∀ a b, eq a b = true → eq b a = true
  trans : ∀ a b c, eq a b = true → eq b c = true → eq a c = true

theorem eqLaw {h : K → Nat} {eq : K → K → Bool} (hl : Spec.Lawful h eq) : EqLaw eq := ⟨hl.refl, hl.symm, hl.trans⟩

theorem trip_iff {eq : K → K → Bool} (he : EqLaw eq) (l : List (K × V)) : Contig eq l ↔ Trip eq l := by
  induction l with
  | nil =>
    simp only [Contig, true_iff]
    intro a b c h; cases h
  | cons x l ih =>
    simp only [Contig]
    rw [ih]
    constructor
    · rintro ⟨h1, h2⟩ a b c h3 h4
      cases h3 with
      | cons _ h => exact h2 a b c h h4
      | cons_cons _ h =>
        have hc : c ∈ l := h.subset (by simp)
        obtain ⟨d, hd, had⟩ := h1 c hc h4
        -- all elements of l up to c are equivalent: use Trip on d
        cases l with
        | nil => simp at hc
        | cons y l =>
          simp only [List.head?_cons, Option.some.injEq] at hd
          subst hd
          cases h with
          | cons _ h =>
            exact he.trans _ _ _ had (h2 y b c (h.cons_cons y) (he.trans _ _ _ (he.symm _ _ had) h4))
          | cons_cons _ h => exact had
    · intro h
      refine ⟨?_, h.sublist (List.sublist_cons_self _ _)⟩
      intro c hc hac
      cases l with
      | nil => simp at hc
      | cons y l =>
        refine ⟨y, rfl, ?_⟩
        rw [List.mem_cons] at hc
        rcases hc with rfl | hc
        · exact hac
        · apply h x y c _ hac
          exact ((List.singleton_sublist.mpr hc).cons_cons y).cons_cons x

theorem Trip.reverse {eq : K → K → Bool} (he : EqLaw eq) {l : List (K × V)} (h : Trip eq l) : Trip eq l.reverse := by
  intro a b c h1 h2
  have h3 : [c, b, a].Sublist l := by
    have := h1.reverse
    simpa using this
  exact he.trans _ _ _ h2 (h c b a h3 (he.symm _ _ h2))

theorem trip_append {eq : K → K → Bool} {l1 l2 : List (K × V)} (h1 : Trip eq l1) (h2 : Trip eq l2)
    (hd : ∀ a ∈ l1, ∀ c ∈ l2, eq a.1 c.1 = false) : Trip eq (l1 ++ l2) := by
  intro a b c hs hac
  obtain ⟨s1, s2, e, hs1, hs2⟩ := List.sublist_append_iff.mp hs
  cases s1 with
  | nil => simp at e; subst e; exact h2 a b c hs2 hac
  | cons x s1 =>
    simp only [List.cons_append, List.cons.injEq] at e
    obtain ⟨rfl, e⟩ := e
    cases s1 with
    | nil =>
      simp at e; subst e
      rw [hd a (hs1.subset (by simp)) c (hs2.subset (by simp))] at hac; cases hac
    | cons y s1 =>
      simp only [List.cons_append, List.cons.injEq] at e
      obtain ⟨rfl, e⟩ := e
      cases s1 with
      | nil =>
        simp at e; subst e
        rw [hd a (hs1.subset (by simp)) c (hs2.subset (by simp))] at hac; cases hac
      | cons z s1 =>
        simp only [List.cons_append, List.cons.injEq] at e
        obtain ⟨rfl, e⟩ := e
        have : s1 = [] := by
          cases s1 with
          | nil => rfl
          | cons _ _ => simp at e
        subst this
        exact h1 a b c hs1 hac

/-- inserting right after an equivalent element -/
theorem contig_insert {eq : K → K → Bool} (he : EqLaw eq) {h x : K × V} (hx : eq x.1 h.1 = true) :
    ∀ (xs ys : List (K × V)), Contig eq (xs ++ h :: ys) → Contig eq (xs ++ h :: x :: ys) := by
  intro xs
  induction xs with
  | nil =>
    intro ys hc
    simp only [List.nil_append, Contig] at hc ⊢
    refine ⟨?_, ?_, hc.2⟩
    · intro c _ _; exact ⟨x, rfl, he.symm _ _ hx⟩
    · intro c hc' hxc
      obtain ⟨b, hb, hb'⟩ := hc.1 c hc' (he.trans _ _ _ (he.symm _ _ hx) hxc)
      exact ⟨b, hb, he.trans _ _ _ hx hb'⟩
  | cons a xs ih =>
    intro ys hc
    simp only [List.cons_append, Contig] at hc ⊢
    refine ⟨?_, ih ys hc.2⟩
    intro c hc' hac
    have : ∃ c' ∈ xs ++ h :: ys, eq a.1 c'.1 = true := by
      simp only [List.mem_append, List.mem_cons] at hc'
      rcases hc' with hc' | rfl | rfl | hc'
      · exact ⟨c, by simp [hc'], hac⟩
      · exact ⟨c, by simp, hac⟩
      · exact ⟨h, by simp, he.trans _ _ _ hac hx⟩
      · exact ⟨c, by simp [hc'], hac⟩
    obtain ⟨c', h1, h2⟩ := this
    obtain ⟨b, hb, hb'⟩ := hc.1 c' h1 h2
    refine ⟨b, ?_, hb'⟩
    cases xs with
    | nil => simpa using hb
    | cons y xs => simpa using hb

theorem contig_of_pairwise {eq : K → K → Bool} {l : List (K × V)}
    (h : l.Pairwise (fun a b => eq a.1 b.1 = false)) : Contig eq l := by
  induction l with
  | nil => trivial
  | cons a l ih =>
    rw [List.pairwise_cons] at h
    refine ⟨?_, ih h.2⟩
    intro c hc hac
    rw [h.1 c hc] at hac; cases hac

/-! ### Contents -/

theorem flatMap_range_up {β : Type} (f : Nat → List β) (b : Nat) (l : List β) {n : Nat} (hb : b < n) :
    ((List.range n).flatMap (up f b l) ++ f b).Perm (l ++ (List.range n).flatMap f) := by
  have hm : b ∈ List.range n := List.mem_range.mpr hb
  have hnd := List.nodup_range (n := n)
  obtain ⟨xs, ys, e⟩ := List.append_of_mem hm
  rw [e] at hnd ⊢
  rw [List.nodup_append] at hnd
  obtain ⟨_, h2, h3⟩ := hnd
  rw [List.nodup_cons] at h2
  have hx : b ∉ xs := fun h => h3 b h b (by simp) rfl
  rw [List.flatMap_append, List.flatMap_append, List.flatMap_cons, List.flatMap_cons,
    Gba.flatMap_up_of_not_mem _ _ _ hx, Gba.flatMap_up_of_not_mem _ _ _ h2.1, up_same]
  generalize xs.flatMap f = X
  generalize ys.flatMap f = Y
  -- (X ++ (l ++ Y)) ++ f b ~ l ++ (X ++ (f b ++ Y))
  rw [List.append_assoc, List.append_assoc]
  have s1 : (X ++ (l ++ (Y ++ f b))).Perm (l ++ (X ++ (Y ++ f b))) := by
    rw [← List.append_assoc, ← List.append_assoc l]
    exact List.Perm.append_right _ List.perm_append_comm
  refine s1.trans ?_
  refine List.Perm.append_left _ (List.Perm.append_left _ List.perm_append_comm)

namespace Gba

/-- arrays are null, or well linked -/
def WF {α : Type} (a : Gba α) : Prop := (a.size = 0 ∧ ∀ b, a.chain b = []) ∨ ∃ L, Ginv a L

theorem WF.ginv {α : Type} {a : Gba α} (h : WF a) (hs : a.size ≠ 0) : ∃ L, Ginv a L := by
  rcases h with ⟨h, _⟩ | h
  · exact absurd h hs
  · exact h

theorem mem_contents {α : Type} {a : Gba α} (h : WF a) {x : α} : x ∈ a.contents ↔ ∃ b, x ∈ a.chain b := by
  unfold contents
  rw [List.mem_flatMap]
  constructor
  · rintro ⟨b, _, hb⟩; exact ⟨b, hb⟩
  · rintro ⟨b, hb⟩
    rcases h with ⟨_, h0⟩ | ⟨L, hL⟩
    · rw [h0] at hb; simp at hb
    · exact ⟨b, List.mem_range.mpr (hL.nonempty_lt (List.ne_nil_of_mem hb)), hb⟩

theorem contents_null {α : Type} (al : Nat) : (null al : Gba α).contents = [] := by rfl

theorem new_contents {α : Type} (n al : Nat) : (new n al : Gba α).contents = [] := by
  unfold contents
  rw [List.flatMap_eq_nil_iff]
  intro b _
  unfold new null; split <;> rfl

theorem new_chain {α : Type} (n al b : Nat) : (new n al : Gba α).chain b = [] := by
  unfold new null; split <;> rfl

theorem new_mal {α : Type} (n al : Nat) : (new n al : Gba α).mal = al := by
  unfold new null; split <;> rfl

theorem new_size {α : Type} (n al : Nat) : (new n al : Gba α).size = bucketCountFor n := by
  unfold new null bucketCountFor; split <;> rfl

theorem new_wf {α : Type} (n al : Nat) : WF (new n al : Gba α) := by
  by_cases h : n = 0
  · left
    unfold new; rw [if_pos h]
    exact ⟨rfl, fun _ => rfl⟩
  · right; exact ⟨[], new_ginv h⟩

theorem bucketCountFor_pos {n : Nat} (h : n ≠ 0) : 0 < bucketCountFor n := by
  unfold bucketCountFor; rw [if_neg h]
  have : ∀ i < PrimeFmod.sizes.length, 0 < PrimeFmod.size i := by decide
  exact this _ (PrimeFmod.sizeIndex_lt n)

theorem position_lt {α : Type} {a : Gba α} {L : List Nat} (h : Ginv a L) (hash : Nat) : a.position hash < a.size := by
  rw [h.sz]; exact PrimeFmod.position_lt false hash h.idx

theorem at_eq {α : Type} {a : Gba α} (h : 0 < a.size) (n : Nat) : a.at_ n = ⟨n, some (n / 64)⟩ := by
  unfold at_; rw [if_pos h]

theorem contents_up {α : Type} {a a' : Gba α} {b : Nat} {l : List α} (hs : a'.size = a.size)
    (hc : a'.chain = up a.chain b l) (hb : b < a.size) : (a'.contents ++ a.chain b).Perm (l ++ a.contents) := by
  unfold contents; rw [hs, hc]; exact flatMap_range_up a.chain b l hb

theorem contents_push {α : Type} {a a' : Gba α} {b : Nat} {x : α} (hs : a'.size = a.size)
    (hc : a'.chain = up a.chain b (x :: a.chain b)) (hb : b < a.size) : a'.contents.Perm (x :: a.contents) := by
  have := contents_up hs hc hb
  rw [List.cons_append] at this
  have h2 : (a'.contents ++ a.chain b).Perm ((x :: a.contents) ++ a.chain b) :=
    this.trans (List.Perm.cons x List.perm_append_comm)
  exact (List.perm_append_right_iff _).mp h2

theorem contents_insertAfter {α : Type} {a a' : Gba α} {b i : Nat} {x : α} (hs : a'.size = a.size)
    (hc : a'.chain = up a.chain b (insertAfter (a.chain b) i x)) (hb : b < a.size) :
    a'.contents.Perm (x :: a.contents) := by
  have := contents_up hs hc hb
  have h1 : (insertAfter (a.chain b) i x).Perm (x :: a.chain b) := by
    unfold insertAfter
    refine List.perm_middle.trans ?_
    rw [List.take_append_drop]
  have h2 : (a'.contents ++ a.chain b).Perm ((x :: a.contents) ++ a.chain b) :=
    this.trans ((h1.append_right _).trans (List.Perm.cons x List.perm_append_comm))
  exact (List.perm_append_right_iff _).mp h2

theorem contents_erase {α : Type} {a a' : Gba α} {b i : Nat} (hs : a'.size = a.size)
    (hc : a'.chain = up a.chain b ((a.chain b).eraseIdx i)) (hb : b < a.size) (hi : i < (a.chain b).length) :
    a.contents.Perm ((a.chain b)[i] :: a'.contents) := by
  have := contents_up hs hc hb
  have h1 : (a.chain b).Perm ((a.chain b)[i] :: (a.chain b).eraseIdx i) := by
    rw [List.eraseIdx_eq_take_drop_succ]
    refine List.Perm.trans ?_ List.perm_middle
    rw [← List.drop_eq_getElem_cons hi, List.take_append_drop]
  have h2 : (((a.chain b)[i] :: a'.contents) ++ (a.chain b).eraseIdx i).Perm (a.contents ++ (a.chain b).eraseIdx i) := by
    have h3 : ((a.chain b)[i] :: a'.contents ++ (a.chain b).eraseIdx i).Perm (a'.contents ++ a.chain b) := by
      rw [List.cons_append]
      exact List.perm_middle.symm.trans (List.Perm.append_left _ h1.symm)
    exact h3.trans (this.trans List.perm_append_comm)
  exact ((List.perm_append_right_iff _).mp h2).symm

end Gba

/-! ### Placement, uniqueness, grouping -/

/-- every element is in the bucket of its hash -/
def Placed (f : Fns K) (a : Gba (K × V)) : Prop := ∀ b, ∀ x ∈ a.chain b, a.position (f.hash x.1) = b

/-- unique keys: no two equivalent; multi: equivalents adjacent -/
def Arranged (u : Bool) (eq : K → K → Bool) (l : List (K × V)) : Prop :=
  if u then l.Pairwise (fun a b => eq a.1 b.1 = false) else Contig eq l

def Shape (u : Bool) (f : Fns K) (a : Gba (K × V)) : Prop := Placed f a ∧ ∀ b, Arranged u f.eq (a.chain b)

abbrev FLawful (f : Fns K) : Prop := Spec.Lawful f.hash f.eq

theorem Arranged.contig {u : Bool} {eq : K → K → Bool} {l : List (K × V)} (h : Arranged u eq l) : Contig eq l := by
  unfold Arranged at h
  cases u
  · simpa using h
  · simp only [if_true] at h; exact contig_of_pairwise h

theorem arranged_nil (u : Bool) (eq : K → K → Bool) : Arranged u eq ([] : List (K × V)) := by
  unfold Arranged; cases u <;> simp [Contig]

theorem Arranged.sublist {u : Bool} {eq : K → K → Bool} (he : EqLaw eq) {l l' : List (K × V)} (h : Arranged u eq l)
    (hs : l'.Sublist l) : Arranged u eq l' := by
  unfold Arranged at *
  cases u
  · simp only [Bool.false_eq_true, if_false] at *
    rw [trip_iff he] at *
    exact h.sublist hs
  · simp only [if_true] at *
    exact List.Pairwise.sublist hs h

theorem Arranged.reverse {u : Bool} {eq : K → K → Bool} (he : EqLaw eq) {l : List (K × V)} (h : Arranged u eq l) :
    Arranged u eq l.reverse := by
  unfold Arranged at *
  cases u
  · simp only [Bool.false_eq_true, if_false] at *
    rw [trip_iff he] at *
    exact h.reverse he
  · simp only [if_true] at *
    rw [List.pairwise_reverse]
    refine h.imp ?_
    intro a b hab
    cases e : eq b.1 a.1 with
    | false => rfl
    | true => rw [he.symm _ _ e] at hab; cases hab

theorem arranged_append {u : Bool} {eq : K → K → Bool} (he : EqLaw eq) {l1 l2 : List (K × V)} (h1 : Arranged u eq l1)
    (h2 : Arranged u eq l2) (hd : ∀ a ∈ l1, ∀ c ∈ l2, eq a.1 c.1 = false) : Arranged u eq (l1 ++ l2) := by
  unfold Arranged at *
  cases u
  · simp only [Bool.false_eq_true, if_false] at *
    rw [trip_iff he] at *
    exact trip_append h1 h2 hd
  · simp only [if_true] at *
    rw [List.pairwise_append]; exact ⟨h1, h2, hd⟩

theorem Placed.ne {f : Fns K} {a : Gba (K × V)} (hl : FLawful f) (h : Placed f a) {b b' : Nat} {x y : K × V}
    (hx : x ∈ a.chain b) (hy : y ∈ a.chain b') (hb : b ≠ b') : f.eq x.1 y.1 = false := by
  cases e : f.eq x.1 y.1 with
  | false => rfl
  | true =>
    have := hl.compat _ _ e
    exact absurd ((h b x hx).symm.trans (by rw [this]; exact h b' y hy)) hb

/-- any concatenation of distinct buckets is arranged -/
theorem Shape.flatMap {u : Bool} {f : Fns K} {a : Gba (K × V)} (hl : FLawful f) (h : Shape u f a) :
    ∀ (bs : List Nat), bs.Nodup → Arranged u f.eq (bs.flatMap a.chain) := by
  intro bs
  induction bs with
  | nil => intro _; exact arranged_nil _ _
  | cons b bs ih =>
    intro hn
    rw [List.nodup_cons] at hn
    rw [List.flatMap_cons]
    refine arranged_append (eqLaw hl) (h.2 b) (ih hn.2) ?_
    intro x hx y hy
    obtain ⟨b', hb', hy'⟩ := List.mem_flatMap.mp hy
    exact h.1.ne hl hx hy' (fun e => hn.1 (e ▸ hb'))

theorem Shape.contents {u : Bool} {f : Fns K} {a : Gba (K × V)} (hl : FLawful f) (h : Shape u f a) :
    Arranged u f.eq a.contents := h.flatMap hl _ List.nodup_range

theorem Shape.elems {u : Bool} {f : Fns K} {a : Gba (K × V)} (hl : FLawful f) (h : Shape u f a) {L : List Nat}
    (hg : a.Ginv L) : Arranged u f.eq (a.elems L) := h.flatMap hl _ (Gba.order_nodup hg)

/-- empty arrays have any shape -/
theorem shape_empty (u : Bool) (f : Fns K) {a : Gba (K × V)} (h : ∀ b, a.chain b = []) : Shape u f a :=
  ⟨fun b x hx => by rw [h b] at hx; simp at hx, fun b => by rw [h b]; exact arranged_nil _ _⟩

/-! ### Filling -/

theorem fillFront_spec (f : Fns K) : ∀ (xs : List (K × V)) (a : Gba (K × V)) (L : List Nat), a.Ginv L →
    ∃ a' L', Table.fillFront f xs a = some a' ∧ a'.Ginv L' ∧ a'.size = a.size ∧ a'.si = a.si ∧ a'.mal = a.mal ∧
      (∀ b, a'.chain b = (xs.filter (fun x => decide (a.position (f.hash x.1) = b))).reverse ++ a.chain b) ∧
      a'.contents.Perm (xs ++ a.contents) := by
  intro xs
  induction xs with
  | nil => intro a L h; exact ⟨a, L, rfl, h, rfl, rfl, rfl, fun b => by simp, List.Perm.refl _⟩
  | cons x xs ih =>
    intro a L h
    have hp := Gba.position_lt h (f.hash x.1)
    unfold Table.fillFront
    rw [Gba.at_eq h.pos]
    obtain ⟨a1, L1, e1, e2, e3, e4, e5, e6⟩ := Gba.insertNode_spec h hp x
    rw [e1]
    obtain ⟨a', L', i1, i2, i3, i4, i5, i6, i7⟩ := ih a1 L1 e2
    have hpos : ∀ y, a1.position y = a.position y := by intro y; unfold Gba.position; rw [e4]
    refine ⟨a', L', i1, i2, i3.trans e3, i4.trans e4, i5.trans e5, ?_, ?_⟩
    · intro b
      rw [i6 b, e6, up_apply]
      simp only [hpos]
      by_cases hb : b = a.position (f.hash x.1)
      · rw [if_pos hb, List.filter_cons, if_pos (by simp [hb]), List.reverse_cons, List.append_assoc, hb]; rfl
      · rw [if_neg hb, List.filter_cons, if_neg (by simpa using fun h => hb h.symm)]
    · refine i7.trans ?_
      have := Gba.contents_push e3 e6 hp
      rw [List.cons_append]
      exact (List.Perm.append_left xs this).trans List.perm_middle

/-- filling empty arrays with an arranged list gives a well-shaped array -/
theorem fillFront_shape {u : Bool} {f : Fns K} (hl : FLawful f) {xs : List (K × V)} {a a' : Gba (K × V)}
    (hx : Arranged u f.eq xs) (h0 : ∀ b, a.chain b = []) (hsi : a'.si = a.si)
    (hc : ∀ b, a'.chain b = (xs.filter (fun x => decide (a.position (f.hash x.1) = b))).reverse ++ a.chain b) :
    Shape u f a' := by
  constructor
  · intro b x hx'
    rw [hc b, h0 b, List.append_nil, List.mem_reverse, List.mem_filter] at hx'
    have : a'.position (f.hash x.1) = a.position (f.hash x.1) := by unfold Gba.position; rw [hsi]
    rw [this]; simpa using hx'.2
  · intro b
    rw [hc b, h0 b, List.append_nil]
    exact (hx.sublist (eqLaw hl) List.filter_sublist).reverse (eqLaw hl)

theorem findIdx_some {p : K × V → Bool} {l : List (K × V)} {i : Nat} (h : l.findIdx? p = some i) :
    ∃ hi : i < l.length, p l[i] = true ∧ ∀ j (hj : j < i), p (l[j]'(by omega)) = false := by
  rw [List.findIdx?_eq_some_iff_getElem] at h
  obtain ⟨hi, h1, h2⟩ := h
  exact ⟨hi, h1, fun j hj => by simpa using h2 j hj⟩

theorem insertAfter_contig {eq : K → K → Bool} (he : EqLaw eq) {l : List (K × V)} {i : Nat} (hi : i < l.length)
    {x : K × V} (hx : eq x.1 (l[i]).1 = true) (h : Contig eq l) : Contig eq (Gba.insertAfter l i x) := by
  unfold Gba.insertAfter
  have e : l = l.take i ++ l[i] :: l.drop (i + 1) := by
    rw [← List.drop_eq_getElem_cons hi, List.take_append_drop]
  have e2 : l.take (i + 1) ++ x :: l.drop (i + 1) = l.take i ++ l[i] :: x :: l.drop (i + 1) := by
    have e3 : l.take (i + 1) = l.take i ++ [l[i]] := (List.take_append_getElem hi).symm
    rw [e3, List.append_assoc]; rfl
  rw [e2]
  apply contig_insert he hx
  rw [← e]; exact h

theorem contig_push {eq : K → K → Bool} {l : List (K × V)} {x : K × V} (hx : ∀ y ∈ l, eq x.1 y.1 = false)
    (h : Contig eq l) : Contig eq (x :: l) :=
  ⟨(fun c hc hxc => by rw [hx c hc] at hxc; cases hxc), h⟩

/-- the hint used by the multi containers -/
theorem insertHint_shape {f : Fns K} (hl : FLawful f) {a a' : Gba (K × V)} {x : K × V} {hint : Option Nat}
    (hs : Shape false f a) (hsi : a'.si = a.si)
    (hh : match (motive := Option Nat → Prop) hint with
      | some i => ∃ hi : i < (a.chain (a.position (f.hash x.1))).length,
          f.eq x.1 ((a.chain (a.position (f.hash x.1)))[i]).1 = true
      | none => ∀ y ∈ a.chain (a.position (f.hash x.1)), f.eq x.1 y.1 = false)
    (hc : a'.chain = up a.chain (a.position (f.hash x.1)) (Gba.putHint (a.chain (a.position (f.hash x.1))) hint x)) : Shape false f a' := by
  have hpos : ∀ y, a'.position y = a.position y := by intro y; unfold Gba.position; rw [hsi]
  constructor
  · intro b y hy
    rw [hpos]
    rw [hc, up_apply] at hy
    split at hy
    · rename_i hb
      have : y = x ∨ y ∈ a.chain (a.position (f.hash x.1)) := by
        cases hint with
        | none => simpa [Gba.putHint] using hy
        | some i =>
          unfold Gba.putHint at hy; dsimp only at hy; unfold Gba.insertAfter at hy
          rw [List.mem_append, List.mem_cons] at hy
          rcases hy with hy | hy | hy
          · exact Or.inr (List.mem_of_mem_take hy)
          · exact Or.inl hy
          · exact Or.inr (List.mem_of_mem_drop hy)
      rcases this with rfl | hy
      · exact hb.symm
      · rw [hb]; exact hs.1 _ y hy
    · exact hs.1 b y hy
  · intro b
    rw [hc, up_apply]
    split
    · have h0 := hs.2 (a.position (f.hash x.1))
      unfold Arranged at *
      simp only [Bool.false_eq_true, if_false] at *
      cases hint with
      | none => exact contig_push hh h0
      | some i =>
        obtain ⟨hi, h1⟩ := hh
        exact insertAfter_contig (eqLaw hl) hi h1 h0
    · exact hs.2 b

theorem fillEquiv_spec {f : Fns K} (hl : FLawful f) : ∀ (xs : List (K × V)) (a : Gba (K × V)) (L : List Nat), a.Ginv L →
    Shape false f a →
    ∃ a' L', Table.fillEquiv f xs a = some a' ∧ a'.Ginv L' ∧ a'.size = a.size ∧ a'.si = a.si ∧ a'.mal = a.mal ∧
      Shape false f a' ∧ a'.contents.Perm (xs ++ a.contents) := by
  intro xs
  induction xs with
  | nil => intro a L h hs; exact ⟨a, L, rfl, h, rfl, rfl, rfl, hs, List.Perm.refl _⟩
  | cons x xs ih =>
    intro a L h hs
    have hp := Gba.position_lt h (f.hash x.1)
    unfold Table.fillEquiv
    rw [Gba.at_eq h.pos]
    dsimp only
    rw [Gba.get_of_le h (Nat.le_of_lt hp)]
    dsimp only
    have hh : ∀ i, (a.chain (a.position (f.hash x.1))).findIdx? (fun e => f.eq x.1 e.1) = some i →
        i < (a.chain (a.position (f.hash x.1))).length := by
      intro i hi; exact (findIdx_some hi).1
    obtain ⟨a1, L1, e1, e2, e3, e4, e5, e6⟩ := Gba.insertNodeHint_spec h hp x _ hh
    rw [e1]
    dsimp only
    have hs1 : Shape false f a1 := by
      refine insertHint_shape hl hs e4 ?_ e6
      cases hf : (a.chain (a.position (f.hash x.1))).findIdx? (fun e => f.eq x.1 e.1) with
      | none =>
        intro y hy
        have := List.findIdx?_eq_none_iff.mp hf y hy
        simpa using this
      | some i =>
        obtain ⟨hi, h1, _⟩ := findIdx_some hf
        exact ⟨hi, h1⟩
    obtain ⟨a', L', i1, i2, i3, i4, i5, i6, i7⟩ := ih a1 L1 e2 hs1
    refine ⟨a', L', i1, i2, i3.trans e3, i4.trans e4, i5.trans e5, i6, ?_⟩
    refine i7.trans ?_
    have : a1.contents.Perm (x :: a.contents) := by
      cases hf : (a.chain (a.position (f.hash x.1))).findIdx? (fun e => f.eq x.1 e.1) with
      | none => rw [hf] at e6; exact Gba.contents_push e3 e6 hp
      | some i => rw [hf] at e6; exact Gba.contents_insertAfter e3 e6 hp
    rw [List.cons_append]
    exact (List.Perm.append_left xs this).trans List.perm_middle

end Fca

/-
The closed-addressing containers refine the relational specification `SpecC`.
-/
import Verif.Fca.Equal
import Verif.Fca.Machine

namespace Fca
open Spec (Res Traits upd)
open SpecC (Contig EqLawful Obj LOp Op Absent Has Inserts InsertsAll LStep LPre)
variable {K V : Type}

/-- a table stands for an abstract container -/
structure R (u : Bool) (t : Table K V) (o : Obj K V) : Prop where
  inv : SInv t
  law : FLawful t.fns
  eq : t.fns.eq = o.eq
  al : t.al = o.al
  shape : o.defined = true → Shape u t.fns t.b
  elems : o.defined = true → t.contents.Perm o.elems

namespace R
variable {u : Bool} {t t' : Table K V} {o : Obj K V}

theorem absent (h : R u t o) (hd : o.defined = true) {k : K} (ha : ∀ e ∈ t.contents, t.fns.eq k e.1 = false) :
    Absent o k := by
  intro e he
  rw [← h.eq]; exact ha e ((h.elems hd).symm.subset he)

theorem absent' (h : R u t o) (hd : o.defined = true) {k : K} (ha : Absent o k) :
    ∀ e ∈ t.contents, t.fns.eq k e.1 = false := by
  intro e he
  rw [h.eq]; exact ha e ((h.elems hd).subset he)

theorem has (h : R u t o) (hd : o.defined = true) {k : K} {e : K × V} (he : e ∈ t.contents) (hk : t.fns.eq k e.1 = true) :
    Has o k e := ⟨(h.elems hd).subset he, by rw [← h.eq]; exact hk⟩

theorem kept (h : R u t o) (hk : Kept t t') : R u t' o :=
  ⟨hk.inv, by rw [hk.fns]; exact h.law, by rw [hk.fns]; exact h.eq, by rw [hk.al]; exact h.al,
    fun hd => by rw [hk.fns]; exact hk.shape u h.law (h.shape hd), fun hd => hk.perm.trans (h.elems hd)⟩

theorem added (h : R u t o) (hd : o.defined = true) {x : K × V} (ha : Added t x t') (hs : Shape u t.fns t'.b) :
    R u t' { o with elems := x :: o.elems } :=
  ⟨ha.inv, by rw [ha.fns]; exact h.law, by rw [ha.fns]; exact h.eq, by rw [ha.al]; exact h.al,
    fun _ => by rw [ha.fns]; exact hs, fun _ => ha.perm.trans ((h.elems hd).cons x)⟩

theorem addedAll (h : R u t o) (hd : o.defined = true) {xs : List (K × V)} (ha : AddedAll t xs t')
    (hs : Shape u t.fns t'.b) {l : List (K × V)} (hl : (xs ++ o.elems).Perm l) : R u t' { o with elems := l } :=
  ⟨ha.inv, by rw [ha.fns]; exact h.law, by rw [ha.fns]; exact h.eq, by rw [ha.al]; exact h.al,
    fun _ => by rw [ha.fns]; exact hs, fun _ => (ha.perm.trans ((h.elems hd).append_left xs)).trans hl⟩

theorem removed (h : R u t o) (hd : o.defined = true) {xs : List (K × V)} (ha : Removed t xs t')
    {l : List (K × V)} (hl : t'.contents.Perm l) : R u t' { o with elems := l } :=
  ⟨ha.inv, by rw [ha.fns]; exact h.law, by rw [ha.fns]; exact h.eq, by rw [ha.al]; exact h.al,
    fun _ => by rw [ha.fns]; exact ha.shape u _ h.law (h.shape hd), fun _ => hl⟩

theorem filled {f : Fns K} {al : Nat} {m : Option Nat} {xs : List (K × V)} (hl : FLawful f) (h : Filled u f al m xs t')
    {l : List (K × V)} (d : Bool) (hp : xs.Perm l) : R u t' ⟨f.eq, al, l, d⟩ :=
  ⟨h.inv, by rw [h.fns]; exact hl, by rw [h.fns], h.al, fun _ => by rw [h.fns]; exact h.shape, fun _ => h.perm.trans hp⟩

theorem destroy (h : R u t o) : t.destroy = some () := by
  unfold Table.destroy; rw [deleteBuckets_spec h.inv]; rfl

end R

theorem Node.deref' {t : Table K V} (hs : SInv t) {q : BIt × Nat} {x : K × V} (h : Node t.b q x) : t.b.deref q = some x := by
  obtain ⟨L, hg⟩ := hs.ginv_of_mem (h.mem hs)
  exact h.deref hg

theorem perm_countP_filter {p : K × V → Bool} {l xs ys : List (K × V)} (h : l.Perm (xs ++ ys)) (h1 : ∀ e ∈ xs, p e = true)
    (h2 : ∀ e ∈ ys, p e = false) : l.countP p = xs.length ∧ ys.Perm (l.filter (fun e => !p e)) := by
  constructor
  · rw [h.countP_eq, List.countP_append, List.countP_eq_length.mpr h1, List.countP_eq_zero.mpr (by simpa using h2)]; rfl
  · refine List.Perm.trans ?_ (h.filter _).symm
    rw [List.filter_append, List.filter_eq_nil_iff.mpr (by simpa using h1), List.nil_append,
      List.filter_eq_self.mpr (by simpa using h2)]

/-- insertion, unique or multi -/
theorem opInsert_refines {u : Bool} {t : Table K V} {o : Obj K V} (h : R u t o) (hd : o.defined = true) (x : K × V) :
    ∃ t' e b o', t.opInsert u x = some (t', .ins e b) ∧ Inserts u o x o' e b ∧ R u t' o' := by
  unfold Table.opInsert
  cases u with
  | true =>
    rcases emplaceUnique_spec h.inv h.law (h.shape hd) x with ⟨q, e, h1, h2, h3⟩ | ⟨t', q, h1, h2, h3, h4, h5⟩
    · refine ⟨t, e, false, o, ?_, Or.inl ⟨rfl, h.has hd (h2.mem h.inv) h3, rfl, rfl⟩, h⟩
      simp only [if_true, h1, h2.deref' h.inv, Option.map_some]
    · refine ⟨t', x, true, _, ?_, Or.inr ⟨fun _ => h.absent hd h2, rfl, rfl, rfl⟩, h.added hd h3 h4⟩
      simp only [if_true, h1, h5.deref' h3.inv, Option.map_some]
  | false =>
    obtain ⟨t', q, h1, h3, h4, h5⟩ := emplaceEquiv_spec h.inv h.law (h.shape hd) x
    refine ⟨t', x, true, _, ?_, Or.inr ⟨(fun hu => by cases hu), rfl, rfl, rfl⟩, h.added hd h3 h4⟩
    simp only [h1, h5.deref' h3.inv, Option.map_some, Bool.false_eq_true, if_false]

theorem emplaceUnique_refines {t : Table K V} {o : Obj K V} (h : R true t o) (hd : o.defined = true) (x : K × V) :
    ∃ t' q e b o', t.emplaceUnique x = some (t', q, b) ∧ Inserts true o x o' e b ∧ R true t' o' ∧ Node t'.b q e := by
  rcases emplaceUnique_spec h.inv h.law (h.shape hd) x with ⟨q, e, h1, h2, h3⟩ | ⟨t', q, h1, h2, h3, h4, h5⟩
  · exact ⟨t, q, e, false, o, h1, Or.inl ⟨rfl, h.has hd (h2.mem h.inv) h3, rfl, rfl⟩, h, h2⟩
  · exact ⟨t', q, x, true, _, h1, Or.inr ⟨fun _ => h.absent hd h2, rfl, rfl, rfl⟩, h.added hd h3 h4, h5⟩

theorem Inserts.defined {u : Bool} {o o' : Obj K V} {x e : K × V} {b : Bool} (h : Inserts u o x o' e b) :
    o'.defined = o.defined := by
  rcases h with ⟨_, _, _, rfl⟩ | ⟨_, _, _, rfl⟩ <;> rfl

theorem insertRangeUnique_refines : ∀ (xs : List (K × V)) {t : Table K V} {o : Obj K V}, R true t o → o.defined = true →
    ∃ t' o', Table.insertRangeUnique xs t = some t' ∧ InsertsAll true o xs o' ∧ R true t' o' := by
  intro xs
  induction xs with
  | nil => intro t o h _; exact ⟨t, o, rfl, .nil _, h⟩
  | cons x xs ih =>
    intro t o h hd
    obtain ⟨t1, q, e, b, o1, h1, h2, h3, _⟩ := emplaceUnique_refines h hd x
    obtain ⟨t2, o2, e1, e2, e3⟩ := ih h3 (by rw [Inserts.defined h2]; exact hd)
    exact ⟨t2, o2, by unfold Table.insertRangeUnique; rw [h1]; exact e1, .cons h2 e2, e3⟩

theorem insertsAll_equiv : ∀ (xs : List (K × V)) (o : Obj K V), InsertsAll false o xs { o with elems := xs.reverse ++ o.elems } := by
  intro xs
  induction xs with
  | nil => intro o; exact .nil _
  | cons x xs ih =>
    intro o
    have := ih { o with elems := x :: o.elems }
    refine .cons (o' := { o with elems := x :: o.elems }) (e := x) (b := true) (Or.inr ⟨(fun h => by cases h), rfl, rfl, rfl⟩) ?_
    simpa using this

/-- position `i` of the iteration -/
theorem advance_begin {t : Table K V} (hs : SInv t) {i : Nat} (hi : i ≤ t.size) :
    (t.begin_.bind (t.advance i) = some none ∧ t.size = 0) ∨
    ∃ L it pre post, t.b.Ginv L ∧ t.begin_.bind (t.advance i) = some it ∧ t.b.At L it pre post ∧ pre.length = i := by
  rcases begin_spec hs with ⟨h1, h2⟩ | ⟨L, it, h1, h2, h3, h4, h5⟩
  · left
    have h0 : t.size = 0 := by rw [hs.len, h2]; rfl
    have : i = 0 := by omega
    subst this
    rw [h1]; exact ⟨rfl, h0⟩
  · right
    obtain ⟨it', e1, e2⟩ := advance_at h1 ((t.b.elems L).take i) ((t.b.elems L).drop i) [] it
      (by rw [List.take_append_drop]; exact h3)
    have hl : ((t.b.elems L).take i).length = i := by rw [List.length_take]; omega
    rw [hl] at e1
    exact ⟨L, it', _, _, h1, by rw [h2]; exact e1, e2, by simpa using hl⟩

theorem R.size {u : Bool} {t : Table K V} {o : Obj K V} (h : R u t o) (hd : o.defined = true) : t.size = o.elems.length := by
  rw [h.inv.len]; exact (h.elems hd).length_eq

theorem hint_node {t : Table K V} (hs : SInv t) {i : Nat} (hi : i ≤ t.size) :
    ∃ hint, t.begin_.bind (t.advance i) = some hint ∧ ∀ q, hint = some q → ∃ e, Node t.b q e := by
  rcases advance_begin hs hi with ⟨h1, _⟩ | ⟨L, it, pre, post, hg, h1, h2, _⟩
  · exact ⟨none, h1, (fun q hq => by cases hq)⟩
  · refine ⟨it, h1, ?_⟩
    rintro q rfl
    cases post with
    | nil => have := h2.none_iff.mpr rfl; cases this
    | cons x post => exact ⟨x, Node.of_at h2⟩

theorem opInsertHint_refines {u : Bool} {t : Table K V} {o : Obj K V} (h : R u t o) (hd : o.defined = true) {i : Nat}
    (hi : i ≤ o.elems.length) (x : K × V) :
    ∃ t' e b o', t.opInsertHint u i x = some (t', .elem (some e)) ∧ Inserts u o x o' e b ∧ R u t' o' := by
  obtain ⟨hint, hh, hn⟩ := hint_node h.inv (i := i) (by rw [h.size hd]; exact hi)
  unfold Table.opInsertHint
  simp only [hh]
  cases u with
  | false =>
    obtain ⟨t', q, h1, h3, h4, h5⟩ := emplaceHintEquiv_spec h.inv h.law (h.shape hd) x hint hn
    refine ⟨t', x, true, _, ?_, Or.inr ⟨(fun hu => by cases hu), rfl, rfl, rfl⟩, h.added hd h3 h4⟩
    simp only [h1, h5.deref' h3.inv, Option.map_some, Bool.false_eq_true, if_false]
  | true =>
    obtain ⟨t', q, e, b, o', h1, h2, h3, h4⟩ := emplaceUnique_refines h hd x
    have base : (t.emplaceUnique x).map (fun r => (r.1, r.2.1)) = some (t', q) := by rw [h1]; rfl
    have gen : t.emplaceHintUnique hint x = some (t', q) ∨
        ∃ p y, t.emplaceHintUnique hint x = some (t, p) ∧ Node t.b p y ∧ t.fns.eq x.1 y.1 = true := by
      unfold Table.emplaceHintUnique
      cases hint with
      | none => exact Or.inl base
      | some p =>
        obtain ⟨y, hy⟩ := hn p rfl
        simp only [hy.deref' h.inv]
        by_cases hq : t.fns.eq x.1 y.1 = true
        · right; exact ⟨p, y, by rw [if_pos hq], hy, hq⟩
        · left; rw [if_neg hq]; exact base
    rcases gen with gen | ⟨p, y, gen, hy, hq⟩
    · refine ⟨t', e, b, o', ?_, h2, h3⟩
      simp only [if_true, gen, h4.deref' h3.inv, Option.map_some]
    · refine ⟨t, y, false, o, ?_, Or.inl ⟨rfl, h.has hd (hy.mem h.inv) hq, rfl, rfl⟩, h⟩
      simp only [if_true, gen, hy.deref' h.inv, Option.map_some]

theorem pairwise_split {eq : K → K → Bool} (he : EqLaw eq) {l rest : List (K × V)} {x : K × V}
    (hl : Arranged true eq l) (hp : l.Perm (x :: rest)) : ∀ e ∈ rest, eq x.1 e.1 = false := by
  have h1 : l.Pairwise (fun a b => eq a.1 b.1 = false) := hl
  have h2 := (List.Perm.pairwise_iff (R := fun a b : K × V => eq a.1 b.1 = false) (by
    intro a b hab
    cases hba : eq b.1 a.1 with
    | false => rfl
    | true => rw [he.symm _ _ hba] at hab; cases hab) hp).mp h1
  exact (List.pairwise_cons.mp h2).1

theorem opInsertOrAssign_refines {t : Table K V} {o : Obj K V} (h : R true t o) (hd : o.defined = true) (k : K) (v : V) :
    ∃ t' res o', t.opInsertOrAssign k v = some (t', res) ∧ LStep true o (.insertOrAssign k v) res o' ∧ R true t' o' := by
  unfold Table.opInsertOrAssign Table.insertOrAssign
  rcases emplaceUnique_spec h.inv h.law (h.shape hd) (k, v) with ⟨q, e, h1, h2, h3⟩ | ⟨t', q, h1, h2, h3, h4, h5⟩
  · obtain ⟨t', rest, e1, e2, e3, e4, e5, e6, e7, e8, e9, e10⟩ := assignAt_spec h.inv h2 v
    simp only [h1, e1, Option.map_some, e10.deref' e2]
    refine ⟨t', _, _, rfl, Or.inl ⟨e, h.has hd (h2.mem h.inv) h3, rfl, rfl⟩, e2, ?_, ?_, ?_, ?_, ?_⟩
    · rw [e3]; exact h.law
    · rw [e3]; exact h.eq
    · rw [e4]; exact h.al
    · intro _; rw [e3]; exact e9 _ _ (h.shape hd)
    · intro _
      refine e8.trans ?_
      have hp : o.elems.Perm (e :: rest) := (h.elems hd).symm.trans e7
      refine List.Perm.trans ?_ (hp.map _).symm
      have hr := pairwise_split (eqLaw h.law) ((h.shape hd).contents h.law) e7
      have h3' : o.eq k e.1 = true := by rw [← h.eq]; exact h3
      rw [List.map_cons, if_pos h3']
      refine List.Perm.cons _ (List.Perm.of_eq ?_)
      symm
      refine (List.map_congr_left (g := id) ?_).trans (List.map_id _)
      intro y hy
      have : o.eq k y.1 = false := by
        rw [← h.eq]
        cases hky : t.fns.eq k y.1 with
        | false => rfl
        | true =>
          have h1 := hr y hy
          rw [h.law.trans _ _ _ (h.law.symm _ _ h3) hky] at h1; exact h1
      rw [this]; rfl
  · simp only [h1, h5.deref' h3.inv, Option.map_some]
    exact ⟨t', _, _, rfl, Or.inr ⟨h.absent hd h2, rfl, rfl⟩, h.added hd h3 h4⟩

theorem any_of_has {o : Obj K V} {k : K} {e : K × V} (h : Has o k e) : o.elems.any (fun e => o.eq k e.1) = true :=
  List.any_eq_true.mpr ⟨e, h.1, h.2⟩

theorem any_of_absent {o : Obj K V} {k : K} (h : Absent o k) : o.elems.any (fun e => o.eq k e.1) = false := by
  rw [Bool.eq_false_iff]; intro hc
  obtain ⟨e, he, hk⟩ := List.any_eq_true.mp hc
  rw [h e he] at hk; cases hk

theorem countP_of_absent {o : Obj K V} {k : K} (h : Absent o k) : o.elems.countP (fun e => o.eq k e.1) = 0 :=
  List.countP_eq_zero.mpr (fun e he => by rw [h e he]; simp)

theorem filter_of_absent {o : Obj K V} {k : K} (h : Absent o k) : o.elems.filter (fun e => !o.eq k e.1) = o.elems :=
  List.filter_eq_self.mpr (fun e he => by rw [h e he]; rfl)

/-- unique keys: one matching element -/
theorem unique_split {t : Table K V} {o : Obj K V} (h : R true t o) (hd : o.defined = true) {k : K} {e : K × V}
    {rest : List (K × V)} (hp : t.contents.Perm (e :: rest)) (hk : t.fns.eq k e.1 = true) :
    o.elems.countP (fun e => o.eq k e.1) = 1 ∧ rest.Perm (o.elems.filter (fun e => !o.eq k e.1)) := by
  have hr := pairwise_split (eqLaw h.law) ((h.shape hd).contents h.law) hp
  have := perm_countP_filter (p := fun e => o.eq k e.1) (xs := [e]) (ys := rest) ((h.elems hd).symm.trans hp)
    (by intro y hy; rw [List.mem_singleton] at hy; subst hy; rw [← h.eq]; exact hk)
    (by
      intro y hy
      rw [← h.eq]
      cases hky : t.fns.eq k y.1 with
      | false => rfl
      | true =>
        have h1 := hr y hy
        rw [h.law.trans _ _ _ (h.law.symm _ _ hk) hky] at h1; cases h1)
  exact this

theorem lstep_refines {u : Bool} {t : Table K V} {o : Obj K V} (h : R u t o) (op : LOp K V) (hp : LPre u o op) :
    ∃ t' res o', t.lstep u op = some (t', res) ∧ LStep u o op res o' ∧ R u t' o' := by
  cases op with
  | insert x =>
    obtain ⟨t', e, b, o', h1, h2, h3⟩ := opInsert_refines h hp x
    exact ⟨t', _, o', h1, ⟨e, b, h2, rfl⟩, h3⟩
  | insertHint i x =>
    obtain ⟨t', e, b, o', h1, h2, h3⟩ := opInsertHint_refines h hp.1 hp.2 x
    exact ⟨t', _, o', h1, ⟨e, b, h2, rfl⟩, h3⟩
  | insertRange fwd xs =>
    have hd : o.defined = true := hp
    simp only [Table.lstep, Table.opInsertRange]
    cases u with
    | true =>
      obtain ⟨t', o', h1, h2, h3⟩ := insertRangeUnique_refines xs h hd
      exact ⟨t', _, o', by simp only [if_true, h1, Option.map_some], ⟨h2, rfl⟩, h3⟩
    | false =>
      cases fwd with
      | true =>
        obtain ⟨t', h1, h2, h3⟩ := insertRangeEquiv_spec xs h.inv h.law (h.shape hd)
        refine ⟨t', _, _, by simp only [if_true, if_false, Bool.false_eq_true, h1, Option.map_some],
          ⟨insertsAll_equiv xs o, rfl⟩, h.addedAll hd h2 h3 ?_⟩
        exact (List.reverse_perm xs).symm.append_right _
      | false =>
        obtain ⟨t', h1, h2, h3⟩ := insertRangeEquiv1_spec xs t h.inv h.law (h.shape hd)
        exact ⟨t', _, _, by simp only [if_false, Bool.false_eq_true, h1, Option.map_some],
          ⟨insertsAll_equiv xs o, rfl⟩, h.addedAll hd h2 h3 (List.Perm.refl _)⟩
  | insertOrAssign k v =>
    obtain ⟨hd, rfl⟩ := hp
    exact opInsertOrAssign_refines h hd k v
  | index k d =>
    obtain ⟨hd, rfl⟩ := hp
    simp only [Table.lstep, Table.opIndex]
    obtain ⟨t', q, e, b, o', h1, h2, h3, h4⟩ := emplaceUnique_refines h hd (k, d)
    simp only [h1, h4.deref' h3.inv, Option.map_some]
    refine ⟨t', _, o', rfl, ?_, h3⟩
    rcases h2 with ⟨_, g1, _, rfl⟩ | ⟨g1, rfl, _, rfl⟩
    · exact Or.inl ⟨e, g1, rfl, rfl⟩
    · exact Or.inr ⟨g1 rfl, rfl, rfl⟩
  | «at» k =>
    obtain ⟨hd, rfl⟩ := hp
    simp only [Table.lstep, Table.opAt]
    by_cases h0 : t.size = 0
    · rw [if_pos h0]
      refine ⟨t, _, o, rfl, ⟨rfl, Or.inr ⟨h.absent hd (fun e he => ?_), rfl⟩⟩, h⟩
      rw [h.inv.contents_nil h0] at he; cases he
    · rw [if_neg h0]
      rcases findNode_spec h.inv h.law (h.shape hd).1 k with ⟨h1, h2⟩ | ⟨q, x, h1, h2, h3⟩
      · rw [h1]
        exact ⟨t, _, o, rfl, ⟨rfl, Or.inr ⟨h.absent hd h2, rfl⟩⟩, h⟩
      · simp only [h1, Option.bind_some, Table.peek, h2.deref' h.inv, Option.map_some]
        exact ⟨t, _, o, rfl, ⟨rfl, Or.inl ⟨x, h.has hd (h2.mem h.inv) h3, rfl⟩⟩, h⟩
  | find k =>
    have hd : o.defined = true := hp
    simp only [Table.lstep, Table.opFind]
    rcases find_spec h.inv h.law (h.shape hd).1 k with ⟨h1, h2⟩ | ⟨i, x, h1, _, _, h2, h3⟩
    · rw [h1]
      exact ⟨t, _, o, rfl, ⟨rfl, Or.inr ⟨h.absent hd h2, rfl⟩⟩, h⟩
    · simp only [h1, Option.bind_some, Table.peek, h2.deref' h.inv, Option.map_some]
      exact ⟨t, _, o, rfl, ⟨rfl, Or.inl ⟨x, h.has hd (h2.mem h.inv) h3, rfl⟩⟩, h⟩
  | count k =>
    have hd : o.defined = true := hp
    simp only [Table.lstep, Table.opCount]
    cases u with
    | false =>
      simp only [Bool.false_eq_true, if_false, groupCount_spec h.inv h.law (h.shape hd), Option.map_some]
      refine ⟨t, _, o, rfl, ⟨rfl, ?_⟩, h⟩
      rw [(h.elems hd).countP_eq, h.eq]
    | true =>
      rw [if_pos rfl]
      rcases findNode_spec h.inv h.law (h.shape hd).1 k with ⟨h1, h2⟩ | ⟨q, x, h1, h2, h3⟩
      · rw [h1]
        exact ⟨t, _, o, rfl, ⟨rfl, by rw [countP_of_absent (h.absent hd h2)]; rfl⟩, h⟩
      · rw [h1]
        obtain ⟨pre, post, e⟩ := List.append_of_mem (h2.mem h.inv)
        have := unique_split h hd (k := k) (e := x) (rest := pre ++ post) (by rw [e]; exact List.perm_middle) h3
        exact ⟨t, _, o, rfl, ⟨rfl, by rw [this.1]; rfl⟩, h⟩
  | contains k =>
    have hd : o.defined = true := hp
    simp only [Table.lstep]
    rcases find_spec h.inv h.law (h.shape hd).1 k with ⟨h1, h2⟩ | ⟨i, x, h1, _, _, h2, h3⟩
    · rw [h1]
      exact ⟨t, _, o, rfl, ⟨rfl, by rw [any_of_absent (h.absent hd h2)]; rfl⟩, h⟩
    · rw [h1]
      exact ⟨t, _, o, rfl, ⟨rfl, by rw [any_of_has (h.has hd (h2.mem h.inv) h3)]; rfl⟩, h⟩
  | equalRange k =>
    have hd : o.defined = true := hp
    have : ∃ l, t.opEqualRange u k = some l ∧ l.Perm (t.contents.filter (fun e => t.fns.eq k e.1)) := by
      unfold Table.opEqualRange
      cases u with
      | true => rw [if_pos rfl]; exact equalRangeUnique_spec h.inv h.law (h.shape hd) k
      | false => rw [if_neg (by simp)]; exact equalRangeEquiv_spec h.inv h.law (h.shape hd) k
    obtain ⟨l, h1, h2⟩ := this
    refine ⟨t, .list l, o, by simp only [Table.lstep, h1, Option.map_some], ⟨rfl, l, rfl, h2.trans ?_⟩, h⟩
    rw [h.eq]; exact (h.elems hd).filter _
  | erase k =>
    have hd : o.defined = true := hp
    simp only [Table.lstep, Table.opErase]
    cases u with
    | true =>
      rw [if_pos rfl]
      rcases eraseKeyUnique_spec h.inv h.law (h.shape hd).1 k with ⟨h1, h2⟩ | ⟨t', x, h1, h2, h3⟩
      · rw [h1]
        have ha := h.absent hd h2
        refine ⟨t, _, _, rfl, ⟨by rw [countP_of_absent ha], rfl⟩, ?_⟩
        rw [filter_of_absent ha]; exact h
      · rw [h1]
        have := unique_split h hd (k := k) (e := x) h2.perm h3
        exact ⟨t', _, _, rfl, ⟨by rw [this.1], rfl⟩, h.removed hd h2 this.2⟩
    | false =>
      rw [if_neg (by simp)]
      obtain ⟨t', gone, h1, h2, h3, h4⟩ := eraseKeyEquiv_spec h.inv h.law (h.shape hd) k
      rw [h1]
      have := perm_countP_filter (p := fun e => o.eq k e.1) ((h.elems hd).symm.trans h2.perm) (by rw [← h.eq]; exact h3)
        (by rw [← h.eq]; exact h4)
      exact ⟨t', _, _, rfl, ⟨by rw [this.1], rfl⟩, h.removed hd h2 this.2⟩
  | eraseAt i =>
    obtain ⟨hd, hi⟩ := hp
    have hsz := h.size hd
    simp only [Table.lstep, Table.opEraseAt]
    rcases advance_begin h.inv (i := i) (by omega) with ⟨_, h0⟩ | ⟨L, it, pre, post, hg, h1, h2, h3⟩
    · omega
    · have hlen := At.length h.inv hg h2
      cases post with
      | nil => simp at hlen; omega
      | cons x post =>
        obtain ⟨q, rfl⟩ := h2.some_of_cons
        obtain ⟨t', L', it', e1, e2, e3, e4⟩ := eraseNode_at h.inv hg h2
        simp only [h1, h2.deref hg, e1]
        have hperm : o.elems.Perm (x :: t'.contents) := (h.elems hd).symm.trans e2.perm
        exact ⟨t', _, _, rfl, ⟨x, t'.contents, hperm, rfl, rfl⟩, h.removed hd e2 (List.Perm.refl _)⟩
  | eraseRange i n =>
    obtain ⟨hd, hi⟩ := hp
    have hsz := h.size hd
    simp only [Table.lstep, Table.opEraseRange]
    rcases advance_begin h.inv (i := i) (by omega) with ⟨h1, h0⟩ | ⟨L, it, pre, post, hg, h1, h2, h3⟩
    · have : n = 0 := by omega
      subst this
      simp only [h1, Table.eraseRange, if_true, Option.map_some]
      exact ⟨t, _, o, rfl, ⟨[], o.elems, List.Perm.refl _, rfl, rfl, rfl⟩, h⟩
    · have hlen := At.length h.inv hg h2
      have hl : (post.take n).length = n := by rw [List.length_take]; omega
      obtain ⟨t', L', e1, e2, e3, e4⟩ := eraseRange_at h.inv hg (mid := post.take n) (post := post.drop n)
        (by rw [List.take_append_drop]; exact h2)
      rw [hl] at e1
      simp only [h1, e1, Option.map_some]
      exact ⟨t', _, _, rfl, ⟨post.take n, t'.contents, (h.elems hd).symm.trans e2.perm, hl, rfl, rfl⟩,
        h.removed hd e2 (List.Perm.refl _)⟩
  | extract k =>
    have hd : o.defined = true := hp
    simp only [Table.lstep, Table.opExtract]
    rcases find_spec h.inv h.law (h.shape hd).1 k with ⟨h1, h2⟩ | ⟨i, x, h1, _, _, h2, h3⟩
    · simp only [h1, Option.map_some]
      exact ⟨t, _, o, rfl, Or.inr ⟨h.absent hd h2, rfl, rfl⟩, h⟩
    · obtain ⟨L, hg⟩ := h.inv.ginv_of_mem (h2.mem h.inv)
      obtain ⟨pre, post, hat⟩ := h2.at_ hg
      obtain ⟨t', L', e1, e2, e3, e4⟩ := extractAt_at h.inv hg hat
      simp only [h1, e1, Option.map_some]
      exact ⟨t', _, _, rfl, Or.inl ⟨x, t'.contents, (h.elems hd).symm.trans e2.perm, by rw [← h.eq]; exact h3, rfl, rfl⟩,
        h.removed hd e2 (List.Perm.refl _)⟩
  | eraseIf pr =>
    have hd : o.defined = true := hp
    obtain ⟨t', xs, ys, h1, h2, h3, h4, h5, h6⟩ := eraseIf_spec pr h.inv
    simp only [Table.lstep]
    rw [h1]
    have := perm_countP_filter ((h.elems hd).symm.trans h3) h5 h6
    exact ⟨t', _, _, rfl, ⟨by rw [this.1], rfl⟩, h.removed hd h2 (h4.trans this.2)⟩
  | clear =>
    obtain ⟨t', xs, h1, h2, h3⟩ := clear_spec h.inv
    simp only [Table.lstep]
    rw [h1]
    refine ⟨t', _, _, rfl, ⟨rfl, rfl⟩, h2.inv, by rw [h2.fns]; exact h.law, by rw [h2.fns]; exact h.eq,
      by rw [h2.al]; exact h.al, fun _ => shape_empty _ _ (h2.inv.wf.chain_nil h3), fun _ => by rw [h3]⟩
  | rehash n =>
    obtain ⟨t', h1, h2, _⟩ := rehash_spec h.inv n
    simp only [Table.lstep]
    rw [h1]
    exact ⟨t', _, o, rfl, ⟨rfl, rfl⟩, h.kept h2⟩
  | reserve n =>
    obtain ⟨t', h1, h2, _⟩ := reserve_spec h.inv n
    simp only [Table.lstep]
    rw [h1]
    exact ⟨t', _, o, rfl, ⟨rfl, rfl⟩, h.kept h2⟩
  | maxLoadFactor z =>
    exact ⟨_, _, o, rfl, ⟨rfl, rfl⟩, setMaxLoad_sinv h.inv _, h.law, h.eq, h.al, h.shape, h.elems⟩
  | size => exact ⟨t, _, o, rfl, ⟨rfl, by rw [h.size hp]⟩, h⟩
  | isEmpty =>
    refine ⟨t, _, o, rfl, ⟨rfl, ?_⟩, h⟩
    congr 2
    rw [h.size hp]; simp
  | iterate =>
    have hd : o.defined = true := hp
    obtain ⟨l, h1, h2, h3, h4⟩ := iterate_spec h.inv
    simp only [Table.lstep]
    rw [h1]
    refine ⟨t, _, o, rfl, ⟨rfl, l, rfl, h2.trans (h.elems hd), ?_⟩, h⟩
    rw [← h.eq]; exact (h4 u h.law (h.shape hd)).contig

/-! ### Several containers -/

/-- all objects of the program -/
def RS (u : Bool) (s : Nat → Table K V) (a : Nat → Obj K V) : Prop := ∀ r, R u (s r) (a r)

theorem RS.upd {u : Bool} {s : Nat → Table K V} {a : Nat → Obj K V} (h : RS u s a) {r : Nat} {t : Table K V} {o : Obj K V}
    (ht : R u t o) : RS u (upd s r t) (upd a r o) := by
  intro q
  unfold Spec.upd
  by_cases hq : q = r
  · simp only [hq, if_true]; exact ht
  · simp only [hq, if_false]; exact h q

theorem upd_self {α : Type} (s : Nat → α) (r : Nat) : upd s r (s r) = s := by
  funext q; unfold Spec.upd; split
  · rename_i h; rw [h]
  · rfl

theorem match_transport {veq : K × V → K × V → Bool} {eq : K → K → Bool} (hv : EqLawful eq veq) {A A' B B' : List (K × V)}
    (ha : A.Perm A') (hb : B.Perm B') : Match veq A B ↔ Match veq A' B' := match_perm hv ha hb

theorem step_refines (c : MCfg K V) {s : Nat → Table K V} {a : Nat → Obj K V} (h : RS c.u s a) (op : Op K V)
    (hp : SpecC.Pre c.u c.tr c.veq a op) :
    ∃ s' res a', step c s op = some (s', res) ∧ SpecC.Step c.u c.tr c.veq a op res a' ∧ RS c.u s' a' := by
  cases op with
  | on r o =>
    obtain ⟨t', res, o', h1, h2, h3⟩ := lstep_refines (h r) o hp
    exact ⟨_, res, _, by simp only [step, h1, Option.map_some], ⟨o', h2, rfl⟩, h.upd h3⟩
  | construct r hf e al n =>
    refine ⟨_, _, _, by simp only [step, (h r).destroy, Option.map_some]; rfl, ⟨rfl, rfl⟩, h.upd ?_⟩
    refine ⟨fresh_sinv _ _ _ _, hp, rfl, rfl, fun _ => shape_empty _ _ (Gba.new_chain _ _), fun _ => ?_⟩
    show (Gba.new n al : Gba (K × V)).contents.Perm []
    rw [Gba.new_contents]
  | copyConstruct r q al =>
    obtain ⟨hrq, hd⟩ := hp
    obtain ⟨t', h1, h2⟩ := copyCtor_spec (h q).inv (h q).law ((h q).shape hd) al
    refine ⟨_, _, _, by simp only [step, (h r).destroy, h1]; rfl, ⟨rfl, rfl⟩, h.upd ?_⟩
    have := R.filled (h q).law h2 (a q).defined ((h q).elems hd)
    rw [(h q).eq] at this; exact this
  | moveConstruct r q =>
    obtain ⟨hrq, hd⟩ := hp
    refine ⟨_, _, _, by simp only [step, (h r).destroy, Option.map_some]; rfl, ⟨rfl, rfl⟩, (h.upd (h q)).upd ?_⟩
    exact ⟨emptied_sinv _, (h q).law, (h q).eq, (h q).al, fun _ => shape_empty _ _ (fun _ => rfl),
      fun _ => List.Perm.of_eq (Gba.contents_null _)⟩
  | moveConstructAlloc r q al =>
    obtain ⟨hrq, hd⟩ := hp
    obtain ⟨t', x', h1, h2, h3, h4, h5, h6⟩ := moveCtorAlloc_spec (u := c.u) (h q).inv (h q).law ((h q).shape hd) c.mv al
    refine ⟨_, _, _, by simp only [step, (h r).destroy, h1]; rfl, ⟨rfl, rfl⟩, (h.upd ?_).upd ?_⟩
    · have := R.filled (h q).law h2 (a q).defined ((h q).elems hd)
      rw [(h q).eq] at this; exact this
    · by_cases hal : al = (a q).al
      · rw [if_pos hal]
        have h0 := h6 (hal.trans (h q).al.symm)
        exact ⟨h3, by rw [h4]; exact (h q).law, by rw [h4]; exact (h q).eq, by rw [h5]; exact (h q).al,
          fun _ => shape_empty _ _ (h3.wf.chain_nil h0), fun _ => List.Perm.of_eq h0⟩
      · rw [if_neg hal]
        exact ⟨h3, by rw [h4]; exact (h q).law, by rw [h4]; exact (h q).eq, by rw [h5]; exact (h q).al,
          (fun hf => by cases hf), (fun hf => by cases hf)⟩
  | copyAssign r q =>
    obtain ⟨hd, hne⟩ := hp
    by_cases hrq : r = q
    · exact ⟨s, .unit, a, by simp only [step, hrq, if_true], ⟨rfl, by rw [if_pos hrq]⟩, h⟩
    · have hne' : ¬ (c.tr.pocca = true ∧ (s r).al ≠ (s q).al ∧ (s q).size = 0) := by
        rintro ⟨g1, g2, g3⟩
        refine hne ⟨hrq, g1, ?_, ?_⟩
        · rw [← (h r).al, ← (h q).al]; exact g2
        · rw [(h q).size hd] at g3; exact List.length_eq_zero_iff.mp g3
      obtain ⟨t', h1, h2⟩ := assign_spec (u := c.u) (h r).inv (h q).inv (h q).law ((h q).shape hd) hne'
      refine ⟨_, _, _, by simp only [step, hrq, if_false, h1, Option.map_some]; rfl, ⟨rfl, by rw [if_neg hrq]⟩, h.upd ?_⟩
      have := R.filled (h q).law h2 (a q).defined ((h q).elems hd)
      rw [(h q).eq, (h q).al, (h r).al] at this; exact this
  | moveAssign r q =>
    have hd : (a q).defined = true := hp
    by_cases hrq : r = q
    · exact ⟨s, .unit, a, by simp only [step, hrq, if_true], ⟨rfl, by rw [if_pos hrq]⟩, h⟩
    · obtain ⟨t', x', h1, h2, h3, h4, h5, h6⟩ := moveAssign_spec (u := c.u) (pocma := c.tr.pocma) (h r).inv (h q).inv
        (h q).law ((h q).shape hd) c.mv
      refine ⟨_, _, _, by simp only [step, hrq, if_false, h1, Option.map_some]; rfl, ⟨rfl, by rw [if_neg hrq]⟩,
        (h.upd ?_).upd ?_⟩
      · have := R.filled (h q).law h2 (a q).defined ((h q).elems hd)
        rw [(h q).eq, (h q).al, (h r).al] at this; exact this
      · by_cases hal : c.tr.pocma = true ∨ (a r).al = (a q).al
        · rw [if_pos hal]
          have h0 := h6 (by rw [(h r).al, (h q).al]; exact hal)
          exact ⟨h3, by rw [h4]; exact (h q).law, by rw [h4]; exact (h q).eq, by rw [h5]; exact (h q).al,
            fun _ => shape_empty _ _ (h3.wf.chain_nil h0), fun _ => List.Perm.of_eq h0⟩
        · rw [if_neg hal]
          exact ⟨h3, by rw [h4]; exact (h q).law, by rw [h4]; exact (h q).eq, by rw [h5]; exact (h q).al,
            (fun hf => by cases hf), (fun hf => by cases hf)⟩
  | swap r q =>
    have hp : c.tr.pocs = true ∨ (a r).al = (a q).al := hp
    by_cases hrq : r = q
    · subst hrq
      refine ⟨s, .unit, a, by simp only [step, if_true], ⟨rfl, ?_⟩, h⟩
      rw [upd_self, upd_self]
    · have hal : c.tr.pocs = true ∨ (s r).al = (s q).al := by rw [(h r).al, (h q).al]; exact hp
      have hsw : Table.swap c.tr.pocs (s r) (s q) = some (s q, s r) := by
        unfold Table.swap
        rw [if_neg (by rintro ⟨g1, g2⟩; rcases hal with g | g
                       · rw [g] at g1; cases g1
                       · exact g2 g)]
        rcases hal with g | g
        · simp only [g, if_true]
        · cases c.tr.pocs with
          | true => simp only [if_true]
          | false =>
            have e1 : ({ s q with al := (s r).al } : Table K V) = s q := by rw [g]
            have e2 : ({ s r with al := (s q).al } : Table K V) = s r := by rw [← g]
            simp only [Bool.false_eq_true, if_false, e1, e2]
      exact ⟨_, _, _, by simp only [step, hrq, if_false, hsw, Option.map_some], ⟨rfl, rfl⟩,
        (h.upd (h q)).upd (h r)⟩
  | merge r q =>
    obtain ⟨hdr, hdq, hal, hself⟩ := hp
    have hal' : (s r).al = (s q).al := by rw [(h r).al, (h q).al]; exact hal
    by_cases hrq : r = q
    · subst hrq
      have hu := hself rfl
      have hr := h r
      rw [hu] at hr
      obtain ⟨t', h1, h2⟩ := mergeSelf_spec hr.inv hr.law (hr.shape hdr)
      refine ⟨_, _, a, by simp only [step, hu, if_true, h1, Option.map_some]; rfl, ⟨rfl, by rw [if_pos rfl]⟩, ?_⟩
      have := h.upd (r := r) ((h r).kept h2)
      rwa [upd_self] at this
    · by_cases hu : c.u = true
      · have hr := h r
        rw [hu] at hr
        obtain ⟨t', x', took, kept, h1, h2, h3, h4, h5, h6⟩ := mergeUnique_spec hr.inv hr.law (hr.shape hdr) (h q).inv hal'
        refine ⟨_, _, _, by simp only [step, hu, hrq, if_true, if_false, h1, Option.map_some]; rfl,
          ⟨rfl, by
            rw [if_neg hrq]
            exact ⟨took, kept, ((h q).elems hdq).symm.trans h3, fun _ => ⟨fun e he => hr.absent hdr (h2.absent e he),
              by rw [← hr.eq]; exact h2.pw, fun e he => by
                rcases h2.dup e he with ⟨e', g1, g2⟩ | ⟨e', g1, g2⟩
                · exact Or.inl ⟨e', hr.has hdr g1 g2⟩
                · exact Or.inr ⟨e', g1, by rw [← hr.eq]; exact g2⟩⟩, (fun hf => by rw [hu] at hf; cases hf), rfl⟩⟩,
          (h.upd ((h r).addedAll hdr h4 (by rw [hu]; exact h5) (List.Perm.refl _))).upd ?_⟩
        refine (h q).removed hdq h6 ?_
        have := h6.perm.symm.trans h3
        exact (List.perm_append_left_iff _).mp this
      · have hu' : c.u = false := by simpa using hu
        have hr := h r
        rw [hu'] at hr
        obtain ⟨t', x', took, h1, h3, h4, h5, h6, h7⟩ := mergeEquiv_spec hr.inv hr.law (hr.shape hdr) (h q).inv hal'
        refine ⟨_, _, _, by simp only [step, hu, hrq, if_false, h1, Option.map_some]; rfl,
          ⟨rfl, by
            rw [if_neg hrq]
            exact ⟨took, [], by rw [List.append_nil]; exact ((h q).elems hdq).symm.trans h3, (fun hf => absurd hf hu),
              fun _ => rfl, rfl⟩⟩,
          (h.upd ((h r).addedAll hdr h4 (by rw [hu']; exact h5) (List.Perm.refl _))).upd ?_⟩
        exact (h q).removed hdq h6 (by rw [h7])
  | transfer r q k =>
    obtain ⟨hdr, hdq, hal, hrq⟩ := hp
    have hal' : (s r).al = (s q).al := by rw [(h r).al, (h q).al]; exact hal
    have hex : (∃ x, (s q).opExtract k = some (x, none) ∧ Absent (a q) k) ∨
        ∃ x e, (s q).opExtract k = some (x, some e) ∧ Removed (s q) [e] x ∧ (a q).eq k e.1 = true := by
      unfold Table.opExtract
      rcases find_spec (h q).inv (h q).law ((h q).shape hdq).1 k with ⟨h1, h2⟩ | ⟨i, x, h1, _, _, h2, h3⟩
      · left; exact ⟨s q, by simp only [h1], (h q).absent hdq h2⟩
      · right
        obtain ⟨L, hg⟩ := (h q).inv.ginv_of_mem (h2.mem (h q).inv)
        obtain ⟨pre, post, hat⟩ := h2.at_ hg
        obtain ⟨t', L', e1, e2, e3, e4⟩ := extractAt_at (h q).inv hg hat
        exact ⟨t', x, by simp only [h1, e1, Option.map_some], e2, by rw [← (h q).eq]; exact h3⟩
    rcases hex with ⟨x, h1, h2⟩ | ⟨x, e, h1, h2, h3⟩
    · exact ⟨s, .bool false, a, by simp only [step, h1], Or.inl ⟨h2, rfl, rfl⟩, h⟩
    · have hpq : (a q).elems.Perm (e :: x.contents) := ((h q).elems hdq).symm.trans h2.perm
      have hx := (h q).removed hdq h2 (List.Perm.refl _)
      by_cases hu : c.u = true
      · have hr := h r
        rw [hu] at hr
        have : ∃ t' qq f b o', (s r).insertNodeUnique e = some (t', qq, b) ∧ Inserts true (a r) e o' f b ∧ R true t' o' := by
          rcases insertNodeUnique_spec hr.inv hr.law (hr.shape hdr) e with ⟨q', y, g1, g2, g3⟩ | ⟨t', q', g1, g2, g3, g4, g5⟩
          · exact ⟨_, _, y, false, a r, g1, Or.inl ⟨rfl, hr.has hdr (g2.mem hr.inv) g3, rfl, rfl⟩, hr⟩
          · exact ⟨t', q', e, true, _, g1, Or.inr ⟨fun _ => hr.absent hdr g2, rfl, rfl, rfl⟩, hr.added hdr g3 g4⟩
        obtain ⟨t', qq, f, b, o', g1, g2, g3⟩ := this
        refine ⟨_, _, _, ?_, Or.inr ⟨e, x.contents, o', f, b, hpq, h3, by rw [hu]; exact g2, rfl, rfl⟩,
          (h.upd (by rw [hu]; exact g3)).upd hx⟩
        simp only [step, h1, hal', ne_eq, not_true_eq_false, if_false, hu, if_true, g1, Option.map_some]
      · have hu' : c.u = false := by simpa using hu
        have hr := h r
        rw [hu'] at hr
        obtain ⟨t', qq, g1, g3, g4, g5⟩ := insertNodeEquiv_spec hr.inv hr.law (hr.shape hdr) e
        refine ⟨_, _, _, ?_, Or.inr ⟨e, x.contents, _, e, true, hpq, h3,
          Or.inr ⟨(fun hf => absurd hf hu), rfl, rfl, rfl⟩, rfl, rfl⟩,
          (h.upd (by rw [hu']; exact hr.added hdr g3 g4)).upd hx⟩
        simp only [step, h1, hal', ne_eq, not_true_eq_false, if_false, hu', Bool.false_eq_true, g1, Option.map_some]
  | equal r q =>
    obtain ⟨hdr, hdq, heq, hv⟩ := hp
    have hv' : EqLawful (s r).fns.eq c.veq := by rw [(h r).eq]; exact hv
    have heq' : (s r).fns.eq = (s q).fns.eq := by rw [(h r).eq, (h q).eq]; exact heq
    have : ∃ b, (if c.u then Table.equalsUnique c.veq (s r) (s q) else Table.equalsEquiv c.veq (s r) (s q)) = some b ∧
        (b = true ↔ Match c.veq (s r).contents (s q).contents) := by
      by_cases hu : c.u = true
      · rw [if_pos hu]
        have hr := h r
        have hq := h q
        rw [hu] at hr hq
        exact equalsUnique_spec hr.inv hr.law (hr.shape hdr) hq.inv hq.law (hq.shape hdq) heq' hv'
      · rw [if_neg hu]
        have hr := h r
        have hq := h q
        rw [show c.u = false by simpa using hu] at hr hq
        exact equalsEquiv_spec hr.inv hr.law (hr.shape hdr) hq.inv hq.law (hq.shape hdq) heq' hv'
    obtain ⟨b, h1, h2⟩ := this
    refine ⟨s, .bool b, a, by simp only [step, h1, Option.map_some], ⟨rfl, b, rfl, ?_⟩, h⟩
    rw [h2]
    exact match_transport hv ((h r).elems hdr) ((h q).elems hdq)

theorem run_refines (c : MCfg K V) : ∀ (ops : List (Op K V)) (s : Nat → Table K V) (a : Nat → Obj K V), RS c.u s a →
    SpecC.Safe c.u c.tr c.veq ops a →
    ∃ s' outs a', run c ops s = some (s', outs) ∧ SpecC.Run c.u c.tr c.veq a ops outs a' ∧ RS c.u s' a' := by
  intro ops
  induction ops with
  | nil => intro s a h _; exact ⟨s, [], a, rfl, .nil _, h⟩
  | cons op ops ih =>
    intro s a h hp
    obtain ⟨s1, res, a1, h1, h2, h3⟩ := step_refines c h op hp.1
    obtain ⟨s2, os, a2, e1, e2, e3⟩ := ih s1 a1 h3 (hp.2 res a1 h2)
    exact ⟨s2, res :: os, a2, by unfold run; simp only [h1, e1, Option.map_some], .cons h2 e2, e3⟩

theorem start_rs (u : Bool) {hf : K → Nat} {e : K → K → Bool} (hl : Spec.Lawful hf e) :
    RS u (start hf e : Nat → Table K V) (SpecC.start e) := fun r => by
  refine ⟨fresh_sinv _ _ _ _, hl, rfl, rfl, fun _ => shape_empty _ _ (Gba.new_chain 0 0), fun _ => ?_⟩
  show (Gba.new 0 0 : Gba (K × V)).contents.Perm []
  rw [Gba.new_contents]

end Fca

/-
The container machine refines the abstract specification (lemmas; the property theorems are in Verif/Props).
-/
import Verif.Foa.Machine

namespace Foa
open Spec (Op Res upd Obj)
variable {K V : Type}

/-- Refinement relation between a container and an abstract object. -/
structure R (t : Table K V) (o : Obj K V) : Prop where
  inv : t.Inv
  eq : t.fns.eq = o.eq
  al : t.al = o.al
  elems : t.contents.Perm o.elems

theorem lawful_iff {h : K → Nat} {e : K → K → Bool} : Spec.Lawful h e → (Fns.mk h e).Lawful :=
  fun l => ⟨l.hash_lt, l.refl, l.symm, l.trans, l.compat⟩

theorem find?_of_mem {f : Fns K} (hf : f.Lawful) {l : List (K × V)} (hp : l.Pairwise (Ineq f)) {k : K} {y : K × V}
    (hy : y ∈ l) (he : f.eq k y.1 = true) : l.find? (fun e => f.eq k e.1) = some y := by
  induction l with
  | nil => cases hy
  | cons x l ih =>
    rw [List.pairwise_cons] at hp
    rcases List.mem_cons.mp hy with rfl | hy
    · exact List.find?_cons_of_pos (p := fun e : K × V => f.eq k e.1) he
    · rw [List.find?_cons_of_neg]
      · exact ih hp.2 hy
      · intro hx
        have h1 := hp.1 y hy
        unfold Ineq at h1
        rw [hf.trans _ _ _ (hf.symm _ _ hx) he] at h1; cases h1

theorem R.lawful {t : Table K V} {o : Obj K V} (h : R t o) : t.fns.Lawful := h.inv.law

theorem R.pairwise {t : Table K V} {o : Obj K V} (h : R t o) : o.elems.Pairwise (Ineq t.fns) :=
  h.elems.pairwise (contents_pairwise h.inv) (fun hxy => hxy.symm h.lawful)

theorem R.lookup_some {t : Table K V} {o : Obj K V} (h : R t o) {k : K} {y : K × V} (hy : y ∈ t.contents)
    (he : t.fns.eq k y.1 = true) : Spec.lookup o k = some y := by
  unfold Spec.lookup
  rw [← h.eq]
  exact find?_of_mem h.lawful h.pairwise (h.elems.subset hy) he

theorem R.lookup_none {t : Table K V} {o : Obj K V} (h : R t o) {k : K}
    (hn : ∀ y ∈ t.contents, t.fns.eq k y.1 = false) : Spec.lookup o k = none := by
  unfold Spec.lookup
  rw [← h.eq, List.find?_eq_none]
  intro y hy
  rw [hn y (h.elems.symm.subset hy)]; simp

theorem R.lookup_isSome {t : Table K V} {o : Obj K V} (h : R t o) (k : K) :
    (Spec.lookup o k).isSome = hasKey t.fns t.contents k := by
  unfold Spec.lookup hasKey
  rw [← h.eq]
  rw [List.find?_isSome']
  exact (any_perm h.elems _).symm
where
  any_perm {α : Type} {l l' : List α} (h : l.Perm l') (p : α → Bool) : l.any p = l'.any p := by
    rw [Bool.eq_iff_iff, List.any_eq_true, List.any_eq_true]
    constructor
    · rintro ⟨x, h1, h2⟩; exact ⟨x, h.subset h1, h2⟩
    · rintro ⟨x, h1, h2⟩; exact ⟨x, h.symm.subset h1, h2⟩
  List.find?_isSome' {α : Type} {l : List α} {p : α → Bool} : (l.find? p).isSome = l.any p := by
    rw [Bool.eq_iff_iff, List.find?_isSome, List.any_eq_true]

/-- find against the specification -/
theorem R.find {t : Table K V} {o : Obj K V} (h : R t o) (k : K) :
    (∃ g j y, t.find k = some (some (g, j)) ∧ t.arr.slot g j = some y ∧ t.fns.eq k y.1 = true ∧
      Spec.lookup o k = some y) ∨
    (t.find k = some none ∧ Spec.lookup o k = none ∧ ∀ y ∈ t.contents, t.fns.eq k y.1 = false) := by
  rcases h.inv.find_spec k with ⟨g, j, y, h1, h2, h3⟩ | ⟨h1, h2⟩
  · left
    exact ⟨g, j, y, h1, h2, h3, h.lookup_some (h.inv.mem.mpr ⟨g, j, h2⟩) h3⟩
  · right
    have : ∀ y ∈ t.contents, t.fns.eq k y.1 = false := by
      intro y hy
      obtain ⟨g, j, hs⟩ := h.inv.mem.mp hy
      exact h2 g j y hs
    exact ⟨h1, h.lookup_none this, this⟩

theorem R.lookup {t : Table K V} {o : Obj K V} (h : R t o) (k : K) : t.lookup k = some (Spec.lookup o k) := by
  unfold Table.lookup
  rcases h.find k with ⟨g, j, y, h1, h2, _, h4⟩ | ⟨h1, h2, _⟩
  · simp only [h1, Table.deref, h2, h4]
  · simp only [h1, h2]

/-- insertion against the specification -/
theorem R.emplace {t : Table K V} {o : Obj K V} (h : R t o) (cfg : Cfg) (x : K × V) :
    ∃ t' p b e, t.emplaceImpl cfg x = some (t', p, b) ∧ t'.deref p = some e ∧
      Spec.insert o x = ((Spec.insert o x).1, .ins e b) ∧ R t' (Spec.insert o x).1 ∧
      (b = false → t' = t ∧ Spec.lookup o x.1 = some e ∧ t.fns.eq x.1 e.1 = true) ∧
      (b = true → e = x ∧ Spec.lookup o x.1 = none) := by
  rcases emplaceImpl_spec cfg h.inv x with ⟨g, j, y, h1, _, h3, h4⟩ | ⟨t', g, j, h1, h2, h3, h4, h5, h6, h7, _⟩
  · have hl := h.lookup_some (h.inv.mem.mpr ⟨g, j, h3⟩) h4
    refine ⟨t, (g, j), false, y, h1, h3, ?_, ?_, fun _ => ⟨rfl, hl, h4⟩, fun h => by cases h⟩
    · unfold Spec.insert; rw [hl]
    · unfold Spec.insert; rw [hl]; exact h
  · have hl := h.lookup_none h5
    refine ⟨t', (g, j), true, x, h1, h6, ?_, ?_, (fun h => by cases h), fun _ => ⟨rfl, hl⟩⟩
    · unfold Spec.insert; rw [hl]
    · unfold Spec.insert; rw [hl]
      exact ⟨h2, by rw [h3]; exact h.eq, by rw [h4]; exact h.al, h7.trans (h.elems.cons x)⟩

theorem R.insertRange (cfg : Cfg) : ∀ (xs : List (K × V)) (t : Table K V) (o : Obj K V), R t o →
    ∃ t', Table.insertRange cfg xs t = some t' ∧ R t' (xs.foldl (fun o x => (Spec.insert o x).1) o) := by
  intro xs
  induction xs with
  | nil => intro t o h; exact ⟨t, rfl, h⟩
  | cons x xs ih =>
    intro t o h
    obtain ⟨t', p, b, e, h1, _, _, h4, _⟩ := h.emplace cfg x
    obtain ⟨t2, e1, e2⟩ := ih t' _ h4
    refine ⟨t2, ?_, e2⟩
    unfold Table.insertRange
    rw [h1]; exact e1

theorem filter_of_remove {t : Table K V} {o : Obj K V} (h : R t o) {k : K} {y : K × V} {rest : List (K × V)}
    (hp : t.contents.Perm (y :: rest)) (he : t.fns.eq k y.1 = true) : rest.Perm (Spec.remove o k).elems := by
  unfold Spec.remove
  simp only
  rw [← h.eq]
  have h1 := (hp.symm.trans h.elems).filter (fun e => !t.fns.eq k e.1)
  rw [List.filter_cons_of_neg (by simp [he])] at h1
  have h2 : rest.filter (fun e => !t.fns.eq k e.1) = rest := by
    rw [List.filter_eq_self]
    intro z hz
    have hpw := hp.pairwise (contents_pairwise h.inv) (fun hxy => hxy.symm h.lawful)
    rw [List.pairwise_cons] at hpw
    have := hpw.1 z hz
    unfold Ineq at this
    by_contra hc
    have hc : t.fns.eq k z.1 = true := by simpa using hc
    rw [h.lawful.trans _ _ _ (h.lawful.symm _ _ he) hc] at this; cases this
  rwa [h2] at h1

theorem R.erase_at {t : Table K V} {o : Obj K V} (h : R t o) {k : K} {g j : Nat} {y : K × V}
    (hs : t.arr.slot g j = some y) (he : t.fns.eq k y.1 = true) :
    ∃ t', t.eraseAt (g, j) = some t' ∧ R t' (Spec.remove o k) := by
  obtain ⟨t', h1, h2, h3, h4, _, _, _, _, h9, _⟩ := eraseAt_spec h.inv hs
  exact ⟨t', h1, h2, by rw [h3]; exact h.eq, by rw [h4]; exact h.al, filter_of_remove h h9 he⟩

theorem R.remove_none {t : Table K V} {o : Obj K V} (h : R t o) {k : K}
    (hn : ∀ y ∈ t.contents, t.fns.eq k y.1 = false) : R t (Spec.remove o k) := by
  refine ⟨h.inv, h.eq, h.al, ?_⟩
  unfold Spec.remove
  simp only
  rw [← h.eq]
  have : o.elems.filter (fun e => !t.fns.eq k e.1) = o.elems := by
    rw [List.filter_eq_self]
    intro z hz
    rw [hn z (h.elems.symm.subset hz)]; rfl
  rw [this]; exact h.elems

theorem R.insertOrAssign {t : Table K V} {o : Obj K V} (h : R t o) (cfg : Cfg) (k : K) (v : V) :
    ∃ t' e b, t.opInsertOrAssign cfg k v = some (t', .ins e b) ∧
      ((∃ e', Spec.lookup o k = some e' ∧ e = (e'.1, v) ∧ b = false ∧ R t' (Spec.assign o k v)) ∨
       (Spec.lookup o k = none ∧ e = (k, v) ∧ b = true ∧ R t' (Spec.insert o (k, v)).1)) := by
  obtain ⟨t', ⟨g, j⟩, b, e, h1, h2, _, h4, h5, h6⟩ := h.emplace cfg (k, v)
  unfold Table.opInsertOrAssign
  cases b with
  | true =>
    obtain ⟨rfl, hl⟩ := h6 rfl
    refine ⟨t', (k, v), true, by simp only [h1, h2], Or.inr ⟨hl, rfl, rfl, h4⟩⟩
  | false =>
    obtain ⟨rfl, hl, he⟩ := h5 rfl
    obtain ⟨t2, e1, e2, e3, e4, e5, e6⟩ := assignAt_spec h.inv (g := g) (j := j) h2 v
    refine ⟨t2, (e.1, v), false, by simp only [h1, e1, Table.deref, e5], Or.inl ⟨e, hl, rfl, rfl, e2, ?_, ?_, ?_⟩⟩
    · rw [e3]; exact h.eq
    · rw [e4]; exact h.al
    · rw [e6]
      unfold Spec.assign
      simp only
      rw [← h.eq]
      refine (h.elems.map _).trans (List.Perm.of_eq ?_)
      apply List.map_congr_left
      intro z _
      have : t'.fns.eq e.1 z.1 = t'.fns.eq k z.1 := by
        rw [Bool.eq_iff_iff]
        exact ⟨fun hz => h.lawful.trans _ _ _ he hz, fun hz => h.lawful.trans _ _ _ (h.lawful.symm _ _ he) hz⟩
      rw [this]

theorem derefAll_eq (t : Table K V) : ∀ ps : List Pos, (∀ p ∈ ps, ∃ x, t.arr.slot p.1 p.2 = some x) →
    t.derefAll ps = some (ps.filterMap (fun p => t.arr.slot p.1 p.2)) := by
  intro ps
  induction ps with
  | nil => intro _; rfl
  | cons p ps ih =>
    intro h
    obtain ⟨x, hx⟩ := h p (by simp)
    unfold Table.derefAll
    rw [List.filterMap_cons_some (f := fun p : Pos => t.arr.slot p.1 p.2) (b := x) hx]
    simp only [Table.deref, hx, ih (fun q hq => h q (by simp [hq])), Option.map_some]

theorem occ_length {t : Table K V} (hi : t.Inv) : t.arr.occ.length = t.size := by
  rw [hi.size]; exact (Inv.length_contents hi.arr).symm

theorem opIterate_eq {t : Table K V} (hi : t.Inv) (regular : Bool) :
    t.opIterate regular = some (.list t.contents) := by
  unfold Table.opIterate
  rw [walk_begin hi.arr regular (Nat.le_of_eq (occ_length hi))]
  simp only [derefAll_eq t _ (slots_of_occ hi.arr), Option.map_some]
  rfl

theorem opEraseWalk_eq {t : Table K V} (hi : t.Inv) (regular : Bool) (pr : K × V → Bool) :
    ∃ t', t.opEraseWalk regular pr = some (t', .list t.contents) ∧ t'.Inv ∧ t'.fns = t.fns ∧ t'.al = t.al ∧
      t'.contents = t.contents.filter (fun x => !pr x) := by
  obtain ⟨it, h1, h2⟩ := begin_isAt hi.arr regular
  obtain ⟨t', e1, e2, e3, e4, e5⟩ := eraseWalk_spec regular pr t.size t it [] t.arr.occ hi rfl h2
    (Nat.le_of_eq (occ_length hi))
  refine ⟨t', ?_, e2, e3, e4, by rw [e5]; rfl⟩
  unfold Table.opEraseWalk
  simp only [h1, e1, Option.map_some]
  rfl

/-! ### Lifting to several variables -/

/-- all variables related -/
def RS (s : Nat → Table K V) (a : Nat → Obj K V) : Prop := ∀ r, R (s r) (a r)

theorem RS.upd {s : Nat → Table K V} {a : Nat → Obj K V} (h : RS s a) {r : Nat} {t : Table K V} {o : Obj K V}
    (ht : R t o) : RS (upd s r t) (upd a r o) := by
  intro i
  unfold Spec.upd
  split
  · exact ht
  · exact h i

theorem R.destroy {t : Table K V} {o : Obj K V} (h : R t o) : t.destroy = some () := h.inv.delete_

theorem upd_same {α : Type} (s : Nat → α) (r : Nat) : upd s r (s r) = s := by
  funext i; unfold Spec.upd; split
  · next h => rw [h]
  · rfl

/-- One call simulates the specification. -/
theorem step_refines (c : MCfg) (veq : K × V → K × V → Bool) {s : Nat → Table K V} {a : Nat → Obj K V} (h : RS s a)
    (op : Op K V) (hpre : Spec.Pre c.traits op a) :
    ∃ s' o, step c veq s op = some (s', o) ∧ o.Agrees (Spec.step c.traits veq op a).2 ∧
      RS s' (Spec.step c.traits veq op a).1 := by
  cases op with
  | construct r hs e al n =>
    refine ⟨_, _, ?_, Res.Agrees.refl _, h.upd ⟨mk_inv c.toCfg (lawful_iff hpre) al n, rfl, rfl, ?_⟩⟩
    · simp only [step, ctor, (h r).destroy, Option.map_some]; rfl
    · rw [mk_contents]
  | insert r x =>
    obtain ⟨t', p, b, e, h1, h2, h3, h4, _⟩ := (h r).emplace c.toCfg x
    refine ⟨upd s r t', .ins e b, ?_, ?_, h.upd h4⟩
    · simp only [step, on1, Table.opInsert, h1, h2, Option.map_some]
    · simp only [Spec.step]
      rw [h3]
  | insertRange r xs =>
    obtain ⟨t', h1, h2⟩ := R.insertRange c.toCfg xs (s r) (a r) (h r)
    exact ⟨_, _, by simp only [step, on1, h1, Option.map_some]; rfl, Res.Agrees.refl _, h.upd h2⟩
  | insertOrAssign r k v =>
    obtain ⟨t', e, b, h1, h2⟩ := (h r).insertOrAssign c.toCfg k v
    rcases h2 with ⟨e', h2, rfl, rfl, h4⟩ | ⟨h2, rfl, rfl, h4⟩
    · refine ⟨_, _, by simp only [step, on1, h1, Option.map_some]; rfl, ?_, ?_⟩
      · simp only [Spec.step, h2]; rfl
      · simp only [Spec.step, h2]; exact h.upd h4
    · refine ⟨_, _, by simp only [step, on1, h1, Option.map_some]; rfl, ?_, ?_⟩
      · simp only [Spec.step, h2]; rfl
      · simp only [Spec.step, h2]; exact h.upd h4
  | index r k d =>
    obtain ⟨t', p, b, e, h1, h2, h3, h4, h5, h6⟩ := (h r).emplace c.toCfg (k, d)
    refine ⟨_, _, by simp only [step, on1, Table.opIndex, h1, h2, Option.map_some]; rfl, ?_, ?_⟩
    · cases b with
      | false => simp only [Spec.step, (h5 rfl).2.1]; rfl
      | true => obtain ⟨rfl, hl⟩ := h6 rfl; simp only [Spec.step, hl]; rfl
    · cases b with
      | false =>
        obtain ⟨rfl, hl, _⟩ := h5 rfl
        simp only [Spec.step, hl]
        rw [upd_same]; exact h
      | true =>
        obtain ⟨rfl, hl⟩ := h6 rfl
        simp only [Spec.step, hl]; exact h.upd h4
  | «at» r k =>
    exact ⟨_, _, by simp only [step, on0, (h r).lookup, Option.map_some]; rfl, Res.Agrees.refl _, h⟩
  | find r k =>
    exact ⟨_, _, by simp only [step, on0, (h r).lookup, Option.map_some]; rfl, Res.Agrees.refl _, h⟩
  | count r k =>
    rcases (h r).find k with ⟨g, j, y, h1, h2, _, h4⟩ | ⟨h1, h2, _⟩
    · exact ⟨_, _, by simp only [step, on0, h1, Option.map_some]; rfl, by simp only [Spec.step, h4]; rfl, h⟩
    · exact ⟨_, _, by simp only [step, on0, h1, Option.map_some]; rfl, by simp only [Spec.step, h2]; rfl, h⟩
  | contains r k =>
    rcases (h r).find k with ⟨g, j, y, h1, h2, _, h4⟩ | ⟨h1, h2, _⟩
    · exact ⟨_, _, by simp only [step, on0, h1, Option.map_some]; rfl, by simp only [Spec.step, h4]; rfl, h⟩
    · exact ⟨_, _, by simp only [step, on0, h1, Option.map_some]; rfl, by simp only [Spec.step, h2]; rfl, h⟩
  | erase r k =>
    rcases (h r).find k with ⟨g, j, y, h1, h2, h3, h4⟩ | ⟨h1, h2, h3⟩
    · obtain ⟨t', e1, e2⟩ := (h r).erase_at h2 h3
      exact ⟨_, _, by simp only [step, on1, Table.eraseKey, h1, e1, Option.map_some]; rfl,
        by simp only [Spec.step, h4]; rfl, h.upd e2⟩
    · exact ⟨_, _, by simp only [step, on1, Table.eraseKey, h1, Option.map_some]; rfl,
        by simp only [Spec.step, h2]; rfl, h.upd ((h r).remove_none h3)⟩
  | eraseIt r k =>
    rcases (h r).find k with ⟨g, j, y, h1, h2, h3, h4⟩ | ⟨h1, h2, h3⟩
    · obtain ⟨t', e1, e2⟩ := (h r).erase_at h2 h3
      have hj : j < 15 := by
        have := (h r).inv.mem.mpr ⟨g, j, h2⟩
        rcases (h r).inv.arr with ⟨_, hl⟩ | ⟨_, hd⟩
        · exact (hl.slot_valid h2).1.2.1
        · rw [hd.slot] at h2; cases h2
      exact ⟨_, _, by simp only [step, on1, Table.opEraseIt, h1, eraseBytes_itAt _ hj, e1, Option.map_some]; rfl,
        Res.Agrees.refl _, h.upd e2⟩
    · exact ⟨_, _, by simp only [step, on1, Table.opEraseIt, h1, Option.map_some]; rfl,
        Res.Agrees.refl _, h.upd ((h r).remove_none h3)⟩
  | extract r k =>
    rcases (h r).find k with ⟨g, j, y, h1, h2, h3, h4⟩ | ⟨h1, h2, h3⟩
    · obtain ⟨t', e1, e2⟩ := (h r).erase_at h2 h3
      exact ⟨_, _, by simp only [step, on1, Table.opExtract, Table.deref, h1, h2, e1, Option.map_some]; rfl,
        by simp only [Spec.step, h4]; rfl, h.upd e2⟩
    · exact ⟨_, _, by simp only [step, on1, Table.opExtract, h1, Option.map_some]; rfl,
        by simp only [Spec.step, h2]; rfl, h.upd ((h r).remove_none h3)⟩
  | eraseIf r pr =>
    obtain ⟨t', h1, h2, h3, h4, h5⟩ := eraseIf_spec (h r).inv pr
    refine ⟨_, _, by simp only [step, on1, h1, Option.map_some]; rfl, ?_, h.upd ⟨h2, ?_, ?_, ?_⟩⟩
    · simp only [Spec.step]
      show _ = _
      rw [((h r).elems.filter pr).length_eq]
    · rw [h3]; exact (h r).eq
    · rw [h4]; exact (h r).al
    · exact h5.trans ((h r).elems.filter _)
  | eraseWalk r pr =>
    obtain ⟨t', h1, h2, h3, h4, h5⟩ := opEraseWalk_eq (h r).inv c.regular pr
    refine ⟨_, _, by simp only [step, on1, h1, Option.map_some]; rfl, ?_, h.upd ⟨h2, ?_, ?_, ?_⟩⟩
    · exact (h r).elems
    · rw [h3]; exact (h r).eq
    · rw [h4]; exact (h r).al
    · rw [h5]; exact (h r).elems.filter _
  | clear r =>
    obtain ⟨h1, h2, h3, h4, _⟩ := clear_spec (h r).inv
    refine ⟨_, _, by simp only [step, on1, Option.map_some]; rfl, Res.Agrees.refl _, h.upd ⟨h1, ?_, ?_, ?_⟩⟩
    · rw [h3]; exact (h r).eq
    · rw [h4]; exact (h r).al
    · rw [h2]
  | rehash r n =>
    obtain ⟨t', h1, h2, h3, h4, h5, _⟩ := rehash_spec c.toCfg (h r).inv n
    refine ⟨_, _, by simp only [step, on1, h1, Option.map_some]; rfl, Res.Agrees.refl _, ?_⟩
    have := h.upd (r := r) (o := a r) (t := t') ⟨h2, by rw [h3]; exact (h r).eq, by rw [h4]; exact (h r).al,
      h5.trans (h r).elems⟩
    rwa [upd_same] at this
  | reserve r n =>
    obtain ⟨t', h1, h2, h3, h4, h5, _⟩ := reserve_spec c.toCfg (h r).inv n
    refine ⟨_, _, by simp only [step, on1, h1, Option.map_some]; rfl, Res.Agrees.refl _, ?_⟩
    have := h.upd (r := r) (o := a r) (t := t') ⟨h2, by rw [h3]; exact (h r).eq, by rw [h4]; exact (h r).al,
      h5.trans (h r).elems⟩
    rwa [upd_same] at this
  | copyConstruct r q al =>
    obtain ⟨t', h1, h2, h3, h4, h5⟩ := copyCtor_spec c.toCfg (h q).inv al
    refine ⟨_, _, by simp only [step, ctor, (h r).destroy, h1, Option.map_some]; rfl, Res.Agrees.refl _, h.upd ⟨h2, ?_, h4, ?_⟩⟩
    · rw [h3]; exact (h q).eq
    · exact h5.trans (h q).elems
  | moveConstruct r q =>
    obtain ⟨h1, h2, h3, h4, h5⟩ := moveCtor_spec c.toCfg (h q).inv
    refine ⟨_, _, by simp only [step, on2, (h r).destroy, Option.map_some]; rfl, Res.Agrees.refl _, (h.upd ?_).upd ⟨h2, ?_, ?_, ?_⟩⟩
    · rw [h1]; exact h q
    · rw [h4]; exact (h q).eq
    · rw [h5]; exact (h q).al
    · rw [h3]
  | moveConstructAlloc r q al =>
    obtain ⟨t', x', h1, h2, h3, h4, h5, h6, h7, h8, h9⟩ := moveCtorAlloc_spec c.toCfg (h q).inv al
    refine ⟨_, _, by simp only [step, on2, (h r).destroy, h1, Option.map_some]; rfl, Res.Agrees.refl _,
      (h.upd ⟨h2, ?_, h4, ?_⟩).upd ⟨h6, ?_, ?_, ?_⟩⟩
    · rw [h3]; exact (h q).eq
    · exact h5.trans (h q).elems
    · rw [h7]; exact (h q).eq
    · rw [h8]; exact (h q).al
    · rw [h9]
  | copyAssign r q =>
    by_cases hrq : r = q
    · subst hrq
      refine ⟨s, .unit, by simp only [step, if_true], Res.Agrees.refl _, ?_⟩
      simp only [Spec.step]
      have : ({ a r with al := if c.traits.pocca = true then (a r).al else (a r).al } : Obj K V) = a r := by
        rw [ite_self]
      rw [this, upd_same]; exact h
    · obtain ⟨t', h1, h2, h3, h4, h5⟩ := copyAssign_spec c.toCfg (h r).inv (h q).inv
      refine ⟨_, _, by simp only [step, hrq, if_false, on1, h1, Option.map_some]; rfl, Res.Agrees.refl _, h.upd ⟨h2, ?_, ?_, ?_⟩⟩
      · rw [h3]; exact (h q).eq
      · rw [h4, (h q).al, (h r).al]; rfl
      · exact h5.trans (h q).elems
  | moveAssign r q =>
    by_cases hrq : r = q
    · refine ⟨s, .unit, by simp only [step, hrq, if_true], by simp only [Spec.step, hrq, if_true]; rfl, ?_⟩
      simp only [Spec.step, hrq, if_true]; exact h
    · obtain ⟨t', x', h1, h2, h3, h4, h5, h6, h7, h8, h9⟩ := moveAssign_spec c.toCfg (h r).inv (h q).inv
      refine ⟨_, _, by simp only [step, hrq, if_false, on2, h1, Option.map_some]; rfl,
        by simp only [Spec.step, hrq, if_false]; rfl, ?_⟩
      simp only [Spec.step, hrq, if_false]
      refine (h.upd ⟨h2, ?_, ?_, ?_⟩).upd ⟨h6, ?_, ?_, ?_⟩
      · rw [h3]; exact (h q).eq
      · rw [h4, (h q).al, (h r).al]; rfl
      · exact h5.trans (h q).elems
      · rw [h7]; exact (h r).eq
      · rw [h8]; exact (h q).al
      · rw [h9]
  | swap r q =>
    have hsw := swap_spec c.toCfg (h r).inv (h q).inv (by rw [(h r).al, (h q).al]; exact hpre)
    exact ⟨_, _, by simp only [step, on2, hsw, Option.map_some]; rfl, Res.Agrees.refl _, (h.upd (h q)).upd (h r)⟩
  | merge r q =>
    by_cases hrq : r = q
    · subst hrq
      have hm := mergeSelf_spec c.toCfg (h r).inv (s r).arr.occ (slots_of_occ (h r).inv.arr)
      refine ⟨s, .unit, ?_, by simp only [Spec.step, if_true]; rfl, by simp only [Spec.step, if_true]; exact h⟩
      simp only [step, if_true, on1, hm, Option.map_some, upd_same]
    · have hpre : (a r).eq = (a q).eq := hpre
      obtain ⟨t', x', h1, h2, h3, h4, h5, h6, h7, h8, h9⟩ := merge_spec c.toCfg (h r).inv (h q).inv
        (by rw [(h r).eq, (h q).eq]; exact hpre)
      refine ⟨_, _, by simp only [step, hrq, if_false, on2, h1, Option.map_some]; rfl,
        by simp only [Spec.step, hrq, if_false]; rfl, ?_⟩
      simp only [Spec.step, hrq, if_false]
      refine (h.upd ⟨h2, ?_, ?_, ?_⟩).upd ⟨h3, ?_, ?_, ?_⟩
      · rw [h4]; exact (h r).eq
      · rw [h5]; exact (h r).al
      · refine h8.trans ?_
        refine List.Perm.append ?_ (h r).elems
        refine ((h q).elems.filter _).trans (List.Perm.of_eq ?_)
        apply List.filter_congr
        intro e _
        rw [← (h r).lookup_isSome]; simp
      · rw [h6]; exact (h q).eq
      · rw [h7]; exact (h q).al
      · refine h9.trans (((h q).elems.filter _).trans (List.Perm.of_eq ?_))
        apply List.filter_congr
        intro e _
        rw [← (h r).lookup_isSome]
  | size r =>
    refine ⟨_, _, rfl, ?_, h⟩
    show _ = _
    rw [(h r).inv.size, (h r).elems.length_eq]; rfl
  | isEmpty r =>
    refine ⟨_, _, rfl, ?_, h⟩
    show _ = _
    rw [(h r).inv.size, (h r).elems.length_eq]; rfl
  | iterate r =>
    refine ⟨_, _, by simp only [step, on0, opIterate_eq (h r).inv, Option.map_some]; rfl, ?_, h⟩
    exact (h r).elems
  | equal r q =>
    refine ⟨_, _, by simp only [step, on0, equal_spec veq (h r).inv (h q).inv, Option.map_some]; rfl, ?_, h⟩
    show _ = _
    congr 1
    rw [(h r).elems.length_eq, (h q).elems.length_eq]
    congr 1
    rw [Bool.eq_iff_iff, List.all_eq_true, List.all_eq_true]
    have key : ∀ e, ((s q).contents.any (fun e' => (s q).fns.eq e.1 e'.1 && veq e e')) =
        (match Spec.lookup (a q) e.1 with | some e' => veq e e' | none => false) := by
      intro e
      rcases (h q).find e.1 with ⟨g, j, y, h1, h2, h3, h4⟩ | ⟨h1, h2, h3⟩
      · rw [h4]
        simp only
        rw [Bool.eq_iff_iff, List.any_eq_true]
        constructor
        · rintro ⟨z, hz, hz2⟩
          rw [Bool.and_eq_true] at hz2
          have := (h q).lookup_some hz hz2.1
          rw [h4] at this; cases this
          exact hz2.2
        · intro hv
          exact ⟨y, (h q).inv.mem.mpr ⟨g, j, h2⟩, by rw [h3, hv]; rfl⟩
      · rw [h2]
        simp only
        rw [Bool.eq_false_iff]
        intro hc
        rw [List.any_eq_true] at hc
        obtain ⟨z, hz, hz2⟩ := hc
        rw [h3 z hz] at hz2
        simp at hz2
    constructor
    · intro hh e he; exact (key e).symm.trans (hh e ((h r).elems.symm.subset he))
    · intro hh e he; exact (key e).trans (hh e ((h r).elems.subset he))

/-- Answers of two runs agree one by one. -/
def AgreeAll : List (Res K V) → List (Res K V) → Prop := List.Forall₂ Res.Agrees

theorem run_refines (c : MCfg) (veq : K × V → K × V → Bool) : ∀ (ops : List (Op K V)) (s : Nat → Table K V)
    (a : Nat → Obj K V), RS s a → Spec.PreAll c.traits veq ops a →
    ∃ s' outs, run c veq ops s = some (s', outs) ∧ AgreeAll outs (Spec.run c.traits veq ops a).2 ∧
      RS s' (Spec.run c.traits veq ops a).1 := by
  intro ops
  induction ops with
  | nil => intro s a h _; exact ⟨s, [], rfl, List.Forall₂.nil, h⟩
  | cons op ops ih =>
    intro s a h hp
    obtain ⟨s1, o, h1, h2, h3⟩ := step_refines c veq h op hp.1
    obtain ⟨s2, os, e1, e2, e3⟩ := ih s1 _ h3 hp.2
    refine ⟨s2, o :: os, ?_, List.Forall₂.cons h2 e2, e3⟩
    unfold run
    simp only [h1, e1, Option.map_some]

end Foa

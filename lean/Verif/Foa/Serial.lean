/-
Model of serialization of the open-addressing containers.
Sources: /repo/include/boost/unordered/detail/serialize_container.hpp (unordered_flat_*, unordered_node_*),
/repo/include/boost/unordered/detail/foa/concurrent_table.hpp:1839-1973 (concurrent_flat_*, concurrent_node_*).

Simplifications: version numbers are left out; the key and the mapped value of a map element (two reads) are one item, so
that an archive ending between them ends before the item; an item constructed from the archive is a value (what
`archive_constructed` provides), its destruction is not modelled; element construction, hashing and allocation do not throw
here. The archive's address tracking is represented by the list of positions given to it.
-/
import Verif.SpecSer
import Verif.Foa.Refine

namespace Foa
open SpecSer (Archive Outcome Loads NoDup)
open Spec (Obj)
variable {K V : Type}

namespace Table

/-- `load_or_save_unordered_set<Set,true>` / `..._map<Map,true>` (serialize_container.hpp:50-70, 104-139): the count is
`size()`, the items are those met by iteration. Also returns the tracked positions (`serialization_track(ar,first)`), the
`i`-th for the `i`-th item. -/
def saveTracked (regular : Bool) (t : Table K V) : Option (Archive (K × V) × List Pos) :=
  match (t.arr.begin_ regular).bind (t.arr.walk regular t.size) with
  | none => none
  | some ps => (t.derefAll ps).map (fun l => (⟨t.size, l⟩, ps))

/-- The loop of `load_or_save_unordered_set<Set,false>` / `..._map<Map,false>` (serialize_container.hpp:89-98, 163-178).
`n` rounds to go. Also returns the tracked positions. -/
def loadLoop (cfg : Cfg) : Nat → List (K × V) → Table K V → Option (Table K V × Outcome × List Pos)
  | 0, _, t => some (t, .done, [])
  | _ + 1, [], t => some (t, .archiveError, [])
  | n + 1, x :: xs, t =>
    match t.emplaceImpl cfg x with
    | none => none
    | some (t', _, false) => some (t', .badArchive, [])
    | some (t', p, true) => (loadLoop cfg n xs t').map (fun r => (r.1, r.2.1, p :: r.2.2))

/-- Loading (serialize_container.hpp:72-100, 141-180): `clear`, `reserve(count)`, then the loop. -/
def load (cfg : Cfg) (t : Table K V) (ar : Archive (K × V)) : Option (Table K V × Outcome × List Pos) :=
  (t.clear.reserve cfg ar.count).bind (loadLoop cfg ar.count ar.items)

/-- `concurrent_table::save` (concurrent_table.hpp:1854-1901), under the exclusive lock: `for_all_elements` in place of
iterators. -/
def concSave (t : Table K V) : Option (Archive (K × V)) :=
  (t.derefAll t.arr.occ).map (fun l => ⟨t.size, l⟩)

/-- The loop of `concurrent_table::load` (concurrent_table.hpp:1924-1933, 1955-1972): `find` followed by
`unchecked_emplace_at`, without looking at the maximum load. -/
def concLoadLoop : Nat → List (K × V) → Table K V → Option (Table K V × Outcome × List Pos)
  | 0, _, t => some (t, .done, [])
  | _ + 1, [], t => some (t, .archiveError, [])
  | n + 1, x :: xs, t =>
    match t.find x.1 with
    | none => none
    | some (some _) => some (t, .badArchive, [])
    | some none =>
      match t.uncheckedInsert x with
      | none => none
      | some (t', p) => (concLoadLoop n xs t').map (fun r => (r.1, r.2.1, p :: r.2.2))

/-- `concurrent_table::load` (concurrent_table.hpp:1911-1973), under the exclusive lock. -/
def concLoad (cfg : Cfg) (t : Table K V) (ar : Archive (K × V)) : Option (Table K V × Outcome × List Pos) :=
  (t.clear.reserve cfg ar.count).bind (concLoadLoop ar.count ar.items)

end Table

/-! ### Facts -/

theorem saveTracked_eq {t : Table K V} (hi : t.Inv) (regular : Bool) :
    t.saveTracked regular = some (⟨t.size, t.contents⟩, t.arr.occ) := by
  unfold Table.saveTracked
  rw [walk_begin hi.arr regular (Nat.le_of_eq (occ_length hi))]
  simp only [derefAll_eq t _ (slots_of_occ hi.arr), Option.map_some]
  rfl

theorem concSave_eq {t : Table K V} (hi : t.Inv) : t.concSave = some ⟨t.size, t.contents⟩ := by
  unfold Table.concSave
  simp only [derefAll_eq t _ (slots_of_occ hi.arr), Option.map_some]
  rfl

theorem size_eq {t : Table K V} (hi : t.Inv) : t.size = t.contents.length := hi.size

/-- below the maximum load, what `load` and the concurrent `load` do is the same -/
theorem loadLoop_conc (cfg : Cfg) : ∀ (n : Nat) (xs : List (K × V)) (t : Table K V), t.Inv → t.size + n ≤ t.ml →
    Table.concLoadLoop n xs t = Table.loadLoop cfg n xs t := by
  intro n
  induction n with
  | zero => intro xs t _ _; cases xs <;> rfl
  | succ n ih =>
    intro xs t hi hn
    cases xs with
    | nil => rfl
    | cons x xs =>
      have hlt : t.size < t.ml := by omega
      simp only [Table.concLoadLoop, Table.loadLoop]
      rcases emplaceImpl_spec cfg hi x with ⟨g, j, y, h1, h2, h3, h4⟩ | ⟨t', g, j, h1, h2, h3, h4, h5, h6, h7, h8, h9⟩
      · rw [h1, h2]
      · rw [h1]
        have hf : t.find x.1 = some none := by
          rcases hi.find_spec x.1 with ⟨g', j', y', e1, e2, e3⟩ | ⟨e1, _⟩
          · have := h5 y' (hi.mem.mpr ⟨g', j', e2⟩)
            rw [this] at e3; cases e3
          · exact e1
        have hu : t.uncheckedInsert x = some (t', (g, j)) := by
          unfold Table.emplaceImpl at h1
          rw [hf] at h1
          simp only [if_pos hlt] at h1
          cases hq : t.uncheckedInsert x with
          | none => rw [hq] at h1; cases h1
          | some q => rw [hq] at h1; simp only [Option.map_some, Option.some.injEq, Prod.mk.injEq] at h1
                      obtain ⟨h1, h2', _⟩ := h1
                      rw [← h1, ← h2']
        rw [hf, hu]
        simp only
        rw [ih xs t' h2 (by
          rw [size_eq h2, h7.length_eq, List.length_cons, ← size_eq hi, (h8 hlt).1]; omega)]

theorem perm_snoc {α : Type} {l pre : List α} {x : α} (h : l.Perm pre) : (x :: l).Perm (pre ++ [x]) :=
  (List.Perm.cons x h).trans (List.perm_append_singleton x pre).symm

/-- The loop, started with the items `pre` already loaded. -/
theorem loadLoop_spec (cfg : Cfg) : ∀ (n : Nat) (xs pre : List (K × V)) (tr : List Pos) (t : Table K V) (o : Obj K V),
    R t o → o.elems.Perm pre → NoDup o.eq pre → t.size + n ≤ t.ml →
    List.Forall₂ (fun p x => t.deref p = some x) tr pre →
    ∃ t' out tr' l, Table.loadLoop cfg n xs t = some (t', out, tr') ∧
      R t' { o with elems := l } ∧ Loads true o.eq ⟨pre.length + n, pre ++ xs⟩ out l ∧
      t'.ml = t.ml ∧ t'.capacity = t.capacity ∧
      (∃ m, l.Perm ((pre ++ xs).take m) ∧
        List.Forall₂ (fun p x => t'.deref p = some x) (tr ++ tr') ((pre ++ xs).take m)) := by
  intro n
  induction n with
  | zero =>
    intro xs pre tr t o hr hp hd _ htr
    refine ⟨t, .done, [], pre, by cases xs <;> rfl, ⟨hr.inv, hr.eq, hr.al, hr.elems.trans hp⟩, ?_, rfl, rfl, pre.length, ?_, ?_⟩
    · refine .done (by simp) (fun _ => ?_) ?_ <;> simp [hd]
    · simp
    · simpa using htr
  | succ n ih =>
    intro xs pre tr t o hr hp hd hn htr
    cases xs with
    | nil =>
      refine ⟨t, .archiveError, [], pre, rfl, ⟨hr.inv, hr.eq, hr.al, hr.elems.trans hp⟩, ?_, rfl, rfl, pre.length, ?_, ?_⟩
      · refine .short (by simp) (fun _ => ?_) ?_ <;> simp [hd]
      · simp
      · simpa using htr
    | cons x xs =>
      simp only [Table.loadLoop]
      have hlt : t.size < t.ml := by omega
      have hlaw := hr.lawful
      rcases emplaceImpl_spec cfg hr.inv x with ⟨g, j, y, h1, h2, h3, h4⟩ | ⟨t', g, j, h1, h2, h3, h4, h5, h6, h7, h8, h9⟩
      · rw [h1]
        refine ⟨t, .badArchive, [], pre, rfl, ⟨hr.inv, hr.eq, hr.al, hr.elems.trans hp⟩, ?_, rfl, rfl, pre.length, ?_, ?_⟩
        · refine .dup pre.length x (by simp) (by simp) rfl (by simpa using hd) ?_ (by simp)
          refine ⟨y, ?_, by rw [← hr.eq]; exact h4⟩
          simp only [List.take_left']
          exact (hr.elems.trans hp).subset (hr.inv.mem.mpr ⟨g, j, h3⟩)
        · simp
        · simpa using htr
      · rw [h1]
        obtain ⟨hml, hk, hel, hpl⟩ := h8 hlt
        have hcap : t'.capacity = t.capacity := hpl.capacity
        have hcp : t'.contents.Perm (pre ++ [x]) := h7.trans (perm_snoc (hr.elems.trans hp))
        have hd' : NoDup o.eq (pre ++ [x]) := by
          have := hcp.pairwise (contents_pairwise h2) (fun hxy => hxy.symm h2.law)
          refine this.imp ?_
          intro a b hab
          unfold Ineq at hab
          rw [h3, hr.eq] at hab; exact hab
        have hsz : t'.size = t.size + 1 := by
          rw [size_eq h2, h7.length_eq, List.length_cons, ← size_eq hr.inv]
        have htr' : List.Forall₂ (fun p x => t'.deref p = some x) (tr ++ [(g, j)]) (pre ++ [x]) := by
          refine List.rel_append ?_ (List.Forall₂.cons h6 .nil)
          refine htr.imp ?_
          intro p y hy
          exact slot_kept hpl hy
        have hfin : (pre ++ [x]).length + n = pre.length + (n + 1) := by simp; omega
        have happ : (pre ++ [x]) ++ xs = pre ++ x :: xs := by simp
        obtain ⟨t2, out, tr', l, e1, e2, e3, e4, e5, m, e6, e7⟩ := ih xs (pre ++ [x]) (tr ++ [(g, j)]) t'
          { o with elems := pre ++ [x] } ⟨h2, by rw [h3]; exact hr.eq, by rw [h4]; exact hr.al, hcp⟩ (List.Perm.refl _) hd'
          (by omega) htr'
        rw [hfin, happ] at e3
        rw [happ] at e6 e7
        refine ⟨t2, out, (g, j) :: tr', l, ?_, e2, e3, e4.trans hml, e5.trans hcap, m, e6, ?_⟩
        · simp only; rw [e1]; rfl
        · rw [List.append_cons]; exact e7
where
  slot_kept {a a' : Arrays K V} {h g j : Nat} {x : K × V} (hp : Placed a a' h x g j) {p : Pos} {y : K × V}
      (hy : a.slot p.1 p.2 = some y) : a'.slot p.1 p.2 = some y := by
    rw [hp.slot, if_neg]
    · exact hy
    · rintro ⟨h1, h2⟩
      rw [h1, h2, hp.free] at hy; cases hy

theorem bind_of_eq {α β : Type} {a : Option α} {t : α} (h : a = some t) (f : α → Option β) : a.bind f = f t := by
  subst h; rfl

theorem load_eq {cfg : Cfg} {t t1 : Table K V} {ar : Archive (K × V)} (h : t.clear.reserve cfg ar.count = some t1) :
    t.load cfg ar = Table.loadLoop cfg ar.count ar.items t1 :=
  bind_of_eq h _

theorem concLoad_eq {cfg : Cfg} {t t1 : Table K V} {ar : Archive (K × V)} (h : t.clear.reserve cfg ar.count = some t1) :
    t.concLoad cfg ar = Table.concLoadLoop ar.count ar.items t1 :=
  bind_of_eq h _

theorem initMl_congr2 {a b : Arrays K V} (h1 : a.k = b.k) (h2 : a.hasElems = b.hasElems) : Table.initMl a = Table.initMl b := by
  unfold Table.initMl Arrays.capacity; rw [h1, h2]

/-- `clear(); reserve(n)` -/
theorem clear_reserve (cfg : Cfg) {t : Table K V} {o : Obj K V} (hr : R t o) (n : Nat) :
    ∃ t1, t.clear.reserve cfg n = some t1 ∧ R t1 { o with elems := [] } ∧ t1.size = 0 ∧ n ≤ t1.ml := by
  obtain ⟨c1, c2, c3, c4, c5, c6, c7, c8⟩ := clear_spec hr.inv
  obtain ⟨t1, e1, e2, e3, e4, e5, e6⟩ := reserve_spec cfg c1 n
  have hcont : t1.contents = [] := by rw [c2] at e5; exact e5.eq_nil
  exact ⟨t1, e1, ⟨e2, by rw [e3, c3]; exact hr.eq, by rw [e4, c4]; exact hr.al, by rw [hcont]⟩,
    by rw [size_eq e2, hcont]; rfl, (e6 (c7.trans (initMl_congr2 c5.symm c6.symm))).2⟩

/-- Loading an arbitrary archive into any valid container. -/
theorem load_spec (cfg : Cfg) {t : Table K V} {o : Obj K V} (hr : R t o) (ar : Archive (K × V)) :
    ∃ t' out tr l, t.load cfg ar = some (t', out, tr) ∧ t.concLoad cfg ar = some (t', out, tr) ∧
      R t' { o with elems := l } ∧ Loads true o.eq ar out l ∧
      ∃ m, l.Perm (ar.items.take m) ∧ List.Forall₂ (fun p x => t'.deref p = some x) tr (ar.items.take m) := by
  obtain ⟨t1, e1, hr1, hsz, hn⟩ := clear_reserve cfg hr ar.count
  obtain ⟨t', out, tr, l, f1, f2, f3, _, _, m, f6, f7⟩ := loadLoop_spec cfg ar.count ar.items [] [] t1 { o with elems := [] }
    hr1 (List.Perm.refl _) List.Pairwise.nil (by omega) .nil
  have hn' : t1.size + ar.count ≤ t1.ml := by omega
  refine ⟨t', out, tr, l, (load_eq e1).trans f1, (concLoad_eq e1).trans ?_, f2, by simpa using f3, m, f6, f7⟩
  rw [loadLoop_conc cfg _ _ _ hr1.inv hn']; exact f1

end Foa

/-
Property theorems C56: arbitrary archives, when addresses are tracked.
-/
import Verif.Serial.TrackLoad
import Verif.Props.SerialIter
import Verif.Props.SerialIterC

namespace Props.SerAny
open SpecSer SpecTrack Track
variable {K V : Type}

/-- An archive with the given count and items, each item followed by `w` tracked objects; their numbers are arbitrary. -/
def Written {X : Type} (w : Nat) (ar : Archive X) (toks : List (Tok X)) : Prop :=
  ∃ xs : List (X × List Nat), xs.map Prod.fst = ar.items ∧ (∀ x ∈ xs, x.2.length = w) ∧ toks = .count ar.count :: spell xs

theorem perm_loads {u : Bool} {eq : K → K → Bool} {ar : Archive (K × V)} {out : Outcome} {l l' : List (K × V)}
    (h : Loads u eq ar out l) (hp : l'.Perm l) : Loads u eq ar out l' := by
  cases h with
  | done h hu hl => exact .done h hu (hp.trans hl)
  | dup m x hm hx hu hd he hl => exact .dup m x hm hx hu hd he (hp.trans hl)
  | short h hu hl => exact .short h hu (hp.trans hl)

/-! ### Open addressing -/

theorem foa_ins (cfg : Foa.Cfg) (f : Foa.Fns K) :
    InsOk true f.eq 2 (Foa.Table.loadIns (V := V) cfg) (fun t l => t.Inv ∧ t.fns = f ∧ t.contents.Perm l) := by
  rintro t pre x ⟨hi, hf, hp⟩
  subst hf
  rcases Foa.emplaceImpl_spec cfg hi x with ⟨g, j, y, h1, _, h3, h4⟩ | ⟨t', g, j, h1, h2, h3, _, h5, _, h7, _⟩
  · refine .inr ⟨t, by simp [Foa.Table.loadIns, h1], ⟨hi, rfl, hp⟩, rfl, y, hp.subset (hi.mem.mpr ⟨g, j, h3⟩), h4⟩
  · refine .inl ⟨t', (Foa.itAt (g, j)).tracked, by simp [Foa.Table.loadIns, h1], rfl, ⟨h2, h3, ?_⟩, fun _ e he => ?_⟩
    · exact h7.trans ((hp.cons x).trans (List.perm_append_singleton x pre).symm)
    · have := h5 e (hp.symm.subset he)
      cases h : t.fns.eq e.1 x.1 with
      | false => rfl
      | true => rw [hi.law.symm _ _ h] at this; cases this

/-- C56 (arbitrary archives, open addressing). Whatever the items of an archive are and whatever their number - not only what saving a
container writes -, and whatever objects are tracked, loading it into a container runs without undefined behaviour and ends as without
tracking (C33): normally, with all announced items; or with `bad_archive_exception` at the first item equivalent to an earlier one; or with
the archive's own exception when it ends too early. The container then holds the items before, and can be iterated. -/
theorem C56_any_archive (c : Foa.MCfg) (y : Foa.Table K V) (hy : Props.Reachable c y) (ar : Archive (K × V)) (toks : List (Tok (K × V)))
    (ht : Written 2 ar toks) :
    ∃ t out l, Foa.Table.loadSession c.toCfg 0 [y] toks = some ([t], [], out) ∧ Props.Iterates c t l ∧ Loads true y.fns.eq ar out l := by
  obtain ⟨xs, e1, e2, rfl⟩ := ht
  have hr : Foa.R y ⟨y.fns.eq, y.al, y.contents⟩ := ⟨hy.inv, rfl, rfl, List.Perm.refl _⟩
  obtain ⟨t1, g1, hr1, _, _⟩ := Foa.clear_reserve c.toCfg hr ar.count
  obtain ⟨t, i', out, l, f1, ⟨f2, _, f3⟩, f4⟩ := loadLoop_any ((foa_ins (V := V) c.toCfg t1.fns).tagged 0) ar.count xs [] [] t1
    ⟨hr1.inv, rfl, hr1.elems⟩ e2 (fun _ => List.Pairwise.nil)
  refine ⟨t, out, t.contents, loadSession_one g1 f1, Foa.opIterate_eq f2 c.regular, ?_⟩
  rw [hr1.eq, e1] at f4
  simp only [List.length_nil, Nat.zero_add, List.nil_append] at f4
  exact perm_loads f4 f3

/-- the third item is equivalent to the first one -/
def exAr : Archive (Nat × Nat) := ⟨4, [(1, 10), (2, 20), (1, 11), (3, 30)]⟩
def exToks (w : Nat) : List (Tok (Nat × Nat)) := .count 4 :: spell (exAr.items.map (fun x => (x, List.range' 7 w)))

theorem exToks_written (w : Nat) : Written w exAr (exToks w) := by
  refine ⟨exAr.items.map (fun x => (x, List.range' 7 w)), rfl, fun x hx => ?_, rfl⟩
  obtain ⟨y, _, rfl⟩ := List.mem_map.1 hx
  simp

set_option maxRecDepth 100000 in
/-- The hypotheses are met by a container of 36 elements and this archive; what loading it does. -/
example : (∃ y : Foa.Table Nat Nat, Props.Reachable {} y ∧ y.size = 36 ∧ Written 2 exAr (exToks 2)) ∧
    (Foa.Table.loadSession {} 0 [Foa.start {} Props.sampleHash Props.natEq 0] (exToks 2)).map
      (fun r => (r.2.2, r.1.map (fun t => t.contents))) = some (.badArchive, [[(1, 10), (2, 20)]]) := by
  refine ⟨?_, by decide +kernel⟩
  obtain ⟨t, h1, h2⟩ := Props.sample_reachable
  exact ⟨t, h1, h2, exToks_written 2⟩

/-! ### Closed addressing -/

open Fca Fca.Table Props.SerIterC in
theorem fca_ins (u : Bool) (f : Fca.Fns K) :
    InsOk u f.eq 3 (Fca.Table.loadInsC (V := V) u) (fun t l => Closed.Good u t ∧ t.fns = f ∧ (t.contents.map plain).Perm l) := by
  rintro t pre x ⟨hg, hf, hp⟩
  subst hf
  have done : ∀ t' q, Added t (x.1, x.2, t.size) t' → Shape u t.fns t'.b → Node t'.b q (x.1, x.2, t.size) →
      t.loadInsC u x = (t'.b.deref q).map (fun e => (t', some (CIt.mk (addr e) q.1).tracked)) →
      (u = true → ∀ e ∈ t.contents, t.fns.eq x.1 e.1 = false) →
      ∃ t' as, t.loadInsC u x = some (t', some as) ∧ as.length = 3 ∧
        (Closed.Good u t' ∧ t'.fns = t.fns ∧ (t'.contents.map plain).Perm (pre ++ [x])) ∧ (u = true → ∀ e ∈ pre, t.fns.eq e.1 x.1 = false) := by
    intro t' q h1 h2 h3 h4 h5
    obtain ⟨L, hL⟩ := h1.inv.ginv_of_mem (Node.mem h1.inv h3)
    have hd : t'.b.deref q = some (x.1, x.2, t.size) := h3.deref hL
    refine ⟨t', _, by rw [h4, hd]; rfl, by simp [CIt.tracked, h3.1], ⟨⟨h1.inv, by rw [h1.fns]; exact hg.law, by rw [h1.fns]; exact h2⟩, h1.fns, ?_⟩,
      fun hu e he => ?_⟩
    · refine (h1.perm.map plain).trans ?_
      exact (hp.cons x).trans (List.perm_append_singleton x pre).symm
    · obtain ⟨e', he', rfl⟩ := List.mem_map.1 (hp.symm.subset he)
      have := h5 hu e' he'
      cases h : t.fns.eq (plain e').1 x.1 with
      | false => rfl
      | true =>
        have h6 := hg.law.symm _ _ h
        rw [show (plain e').1 = e'.1 from rfl, this] at h6; cases h6
  cases u with
  | true =>
    rcases emplaceUnique_spec hg.inv hg.law hg.shape (x.1, x.2, t.size) with ⟨q, e, h1, h2, h3⟩ | ⟨t', q, h1, h2, h3, h4, h5⟩
    · refine .inr ⟨t, by simp [Fca.Table.loadInsC, h1], ⟨hg, rfl, hp⟩, rfl, plain e, hp.subset (List.mem_map_of_mem (Node.mem hg.inv h2)), h3⟩
    · exact .inl (done t' q h3 h4 h5 (by simp [Fca.Table.loadInsC, h1]) (fun _ => h2))
  | false =>
    obtain ⟨t', q, h1, h2, h3, h4⟩ := emplaceEquiv_spec hg.inv hg.law hg.shape (x.1, x.2, t.size)
    exact .inl (done t' q h2 h3 h4 (by simp [Fca.Table.loadInsC, h1]) (fun h => by cases h))

open Fca Fca.Table Props.SerIterC in
theorem clear_reserve {u : Bool} {t : Table K (V × Nat)} (hg : Closed.Good u t) (n : Nat) :
    ∃ t0, loadPrepC t n = some t0 ∧ Closed.Good u t0 ∧ t0.contents = [] ∧ t0.fns = t.fns := by
  obtain ⟨t1, xs, h1, h2, h3⟩ := clear_spec hg.inv
  obtain ⟨t2, r1, r2, r3⟩ := rehash_spec h2.inv (minBuckets n t1.mlf)
  have r1' : t1.reserve n = some t2 := r1
  have g1 : Closed.Good u t1 := ⟨h2.inv, by rw [h2.fns]; exact hg.law, by rw [h2.fns]; exact h2.shape _ _ hg.law hg.shape⟩
  have hz : t2.contents.length = 0 := by
    rw [← r2.inv.len, r2.size, h2.inv.len, h3]; rfl
  refine ⟨t2, ?_, ⟨r2.inv, by rw [r2.fns]; exact g1.law, by rw [r2.fns]; exact r2.shape _ g1.law g1.shape⟩, List.length_eq_zero_iff.1 hz,
    r2.fns.trans h2.fns⟩
  unfold loadPrepC
  rw [h1]
  exact r1'

/-- C56 (arbitrary archives, closed addressing); `c.u`: unique keys. -/
theorem C56_closed_any_archive (c : Fca.MCfg K (V × Nat)) (y : Fca.Table K (V × Nat)) (hy : Closed.Reachable c y) (ar : Archive (K × V))
    (toks : List (Tok (K × V))) (ht : Written 3 ar toks) :
    ∃ t out l, Fca.Table.loadSessionC c.u 0 [y] toks = some ([t], [], out) ∧ t.iterate = some l ∧
      Loads c.u y.fns.eq ar out (l.map Fca.Table.plain) := by
  obtain ⟨xs, e1, e2, rfl⟩ := ht
  obtain ⟨t0, g1, g2, g3, g4⟩ := clear_reserve hy.good ar.count
  obtain ⟨t, i', out, l, f1, ⟨f2, _, f3⟩, f4⟩ := loadLoop_any ((fca_ins (V := V) c.u t0.fns).tagged 0) ar.count xs [] [] t0
    ⟨g2, rfl, by rw [g3]; exact List.Perm.refl _⟩ e2 (fun _ => List.Pairwise.nil)
  obtain ⟨l', h1, h2, _⟩ := Fca.iterate_spec f2.inv
  refine ⟨t, out, l', loadSession_one g1 f1, h1, ?_⟩
  rw [g4, e1] at f4
  simp only [List.length_nil, Nat.zero_add, List.nil_append] at f4
  exact perm_loads f4 ((h2.map _).trans f3)

open Props.SerIterC in
set_option maxRecDepth 100000 in
/-- The hypotheses are met; the same archive loaded into containers with unique keys and with equivalent keys. -/
example : (∃ y : Fca.Table Nat (Nat × Nat), Closed.Reachable (numbers true) y ∧ Written 3 exAr (exToks 3)) ∧
    (∃ y : Fca.Table Nat (Nat × Nat), Closed.Reachable (numbers false) y ∧ Written 3 exAr (exToks 3)) := by
  obtain ⟨x, y, h1, _⟩ := reach2 true [(0, .insert (29, 290, 0))] (by simp [Closed.EasyL]) (f := fun x _ => x.size) (y := 1) (by decide +kernel)
  obtain ⟨x', y', h1', _⟩ := reach2 false [(0, .insert (29, 290, 0))] (by simp [Closed.EasyL]) (f := fun x _ => x.size) (y := 1) (by decide +kernel)
  exact ⟨⟨x, h1, exToks_written 3⟩, ⟨x', h1', exToks_written 3⟩⟩

end Props.SerAny

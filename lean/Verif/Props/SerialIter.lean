/-
Property theorems C56: iterators in archives.
-/
import Verif.Foa.SerialIter
import Verif.Props.Serial

namespace Props.SerIter
open SpecSer SpecTrack Track
variable {K V : Type}

/-! ### Open addressing -/

/-- `it` is the iterator of `t` to its element `e` (as `find`, `begin`, `++` return it) -/
def Points (t : Foa.Table K V) (it : Foa.It) (e : K × V) : Prop := ∃ p, it = Foa.itAt p ∧ t.deref p = some e

/-- the elements of `x` as saved -/
def elemsOf (x : Foa.Table K V) : List ((K × V) × List Foa.Addr) :=
  x.contents.zip (x.arr.occ.map (fun p => (Foa.itAt p).tracked))

theorem elemsOf_length {x : Foa.Table K V} (hi : x.Inv) : (elemsOf x).length = x.size := by
  unfold elemsOf
  rw [List.length_zip, List.length_map, Foa.occ_length hi, Foa.size_eq hi, Nat.min_self]

theorem elemsOf_fst {x : Foa.Table K V} (hi : x.Inv) : (elemsOf x).map Prod.fst = x.contents := by
  unfold elemsOf
  rw [List.map_fst_zip]
  rw [List.length_map, Foa.occ_length hi, Foa.size_eq hi]

theorem saveCont_eq {x : Foa.Table K V} (hi : x.Inv) (regular : Bool) :
    x.saveCont regular = some ((elemsOf x).length, elemsOf x) := by
  unfold Foa.Table.saveCont
  rw [Foa.saveTracked_eq hi, elemsOf_length hi]
  rfl

theorem saveConts_eq (regular : Bool) : ∀ {xs : List (Foa.Table K V)}, (∀ x ∈ xs, x.Inv) →
    Foa.Table.saveConts regular xs = some ((xs.map elemsOf).map (fun es => (es.length, es)))
  | [], _ => rfl
  | x :: xs, h => by
    have ih := saveConts_eq regular (xs := xs) (fun y hy => h y (by simp [hy]))
    simp only [Foa.Table.saveConts, saveCont_eq (h x (by simp)), ih,
      Option.bind_some, Option.map_some, List.map_cons]

theorem mem_occ {t : Foa.Table K V} (hi : t.Inv) {p : Foa.Pos} {e : K × V} (h : t.deref p = some e) : p ∈ t.arr.occ := by
  rcases hi.arr with ⟨he, hl⟩ | ⟨_, hd⟩
  · exact (hl.mem_occ he).2 ⟨e, h⟩
  · have : t.arr.slot p.1 p.2 = some e := h
    rw [hd.slot] at this; cases this

theorem occ_lt {t : Foa.Table K V} : ∀ p ∈ t.arr.occ, p.2 < 15 := fun _ hp => (Foa.mem_occ_iff.1 hp).2.1.2.1

/-- what is known of a loaded container: its elements, and where the saved iterators lead -/
structure Restored (c : Foa.MCfg) (x y t' : Foa.Table K V) (tr : List Foa.Pos) : Prop where
  loaded : Loaded (Foa.Table.loadPrep c.toCfg) (Foa.Table.loadIns c.toCfg) y (elemsOf x) t' (tr.map (fun p => (Foa.itAt p).tracked))
  inv : t'.Inv
  perm : t'.contents.Perm x.contents
  its : List.Forall₂ (fun p p' => ∃ e, x.deref p = some e ∧ t'.deref p' = some e) x.arr.occ tr

theorem restored (c : Foa.MCfg) (x y : Foa.Table K V) (hx : Props.Reachable c x) (hy : Props.Reachable c y) (he : x.fns.eq = y.fns.eq) :
    ∃ t' tr, Restored c x y t' tr := by
  obtain ⟨ar, its, t', tr, e1, e2, e3, e4, _, _, e5, e6⟩ := Props.Ser.C33_round_trip c x y hx hy he (fun _ _ => true) (fun _ => rfl)
  rw [Foa.saveTracked_eq hx.inv] at e1
  simp only [Option.some.injEq, Prod.mk.injEq] at e1
  obtain ⟨rfl, rfl⟩ := e1
  have hr : Foa.R y ⟨y.fns.eq, y.al, y.contents⟩ := ⟨hy.inv, rfl, rfl, List.Perm.refl _⟩
  obtain ⟨t2, out, tr2, l, f1, f2, f3, f4, _⟩ := Foa.load_spec c.toCfg hr ⟨x.size, x.contents⟩
  rw [e3] at f1
  simp only [Option.some.injEq, Prod.mk.injEq] at f1
  obtain ⟨rfl, rfl, rfl⟩ := f1
  refine ⟨t', tr, ⟨?_, ?_⟩, f3.inv, ?_, e5⟩
  · rw [elemsOf_length hx.inv, elemsOf_fst hx.inv]
    obtain ⟨t1, g1, _⟩ := Foa.clear_reserve c.toCfg hr x.size
    refine ⟨t1, g1, Foa.loadLoop_inserts c.toCfg _ ?_⟩
    rw [Foa.load_eq (ar := ⟨x.size, x.contents⟩) g1] at e3
    rw [← Foa.size_eq hx.inv]
    exact e3
  · have hl : x.contents.length = x.arr.occ.length := by rw [Foa.occ_length hx.inv, Foa.size_eq hx.inv]
    unfold elemsOf
    have : ∀ {ps qs : List Foa.Pos}, List.Forall₂ (fun p p' => ∃ e, x.deref p = some e ∧ t'.deref p' = some e) ps qs →
        ∀ xs : List (K × V), xs.length = ps.length → List.Forall₂ (fun (e : (K × V) × List Foa.Addr) b => e.2.length = b.length)
          (xs.zip (ps.map (fun p => (Foa.itAt p).tracked))) (qs.map (fun p => (Foa.itAt p).tracked)) := by
      intro ps qs hf
      induction hf with
      | nil => intro xs hl; cases xs <;> exact .nil
      | cons _ _ ih =>
        intro xs hl
        cases xs with
        | nil => cases hl
        | cons z zs => exact .cons rfl (ih zs (by simpa using hl))
    exact this e5 _ hl
  · cases f4 with
    | done _ _ hl =>
      refine f3.elems.trans ?_
      rw [Foa.size_eq hx.inv] at hl
      simpa using hl

theorem Restored.target {c : Foa.MCfg} {x y t' : Foa.Table K V} {tr : List Foa.Pos} (hx : x.Inv) (h : Restored c x y t' tr) {it : Foa.It}
    {e : K × V} (hp : Points x it e) : ∃ it', Points t' it' e ∧
      assoc (.ctrl it.pc) (pairs (elemsOf x) (tr.map (fun p => (Foa.itAt p).tracked))) = some (.ctrl it'.pc) ∧
      ∃ i j, it.p = some i ∧ it'.p = some j ∧
        assoc (.elem i) (pairs (elemsOf x) (tr.map (fun p => (Foa.itAt p).tracked))) = some (.elem j) := by
  obtain ⟨p, rfl, hd⟩ := hp
  have hl : x.contents.length = x.arr.occ.length := by rw [Foa.occ_length hx, Foa.size_eq hx]
  obtain ⟨q, e1, e2, e3⟩ := Foa.assoc_pairs (qs := tr) x.contents h.its.length_eq hl occ_lt (mem_occ hx hd)
  have : ∀ {ps qs : List Foa.Pos}, List.Forall₂ (fun p p' => ∃ e, x.deref p = some e ∧ t'.deref p' = some e) ps qs → (p, q) ∈ ps.zip qs →
      ∃ e, x.deref p = some e ∧ t'.deref q = some e := by
    intro ps qs hf
    induction hf with
    | nil => intro hm; cases hm
    | cons h1 _ ih =>
      intro hm
      simp only [List.zip_cons_cons, List.mem_cons, Prod.mk.injEq] at hm
      rcases hm with ⟨rfl, rfl⟩ | hm
      · exact h1
      · exact ih hm
  obtain ⟨e', d1, d2⟩ := this h.its e1
  rw [hd] at d1
  cases d1
  exact ⟨Foa.itAt q, ⟨q, rfl, d2⟩, e2, _, _, rfl, rfl, e3⟩

/-- A saved iterator: the end iterator (of whatever container; `pc_` may be anything) or an iterator to an element of container `r`. -/
def Saved (xs : List (Foa.Table K V)) (i : Nat × Foa.It) : Prop := i.2.p = none ∨ ∃ x e, xs[i.1]? = some x ∧ Points x i.2 e

/-- The loaded iterator corresponds to the saved one: end to end; otherwise it is the iterator to the same element, in the corresponding
container, and it can be used: `++` is defined and `erase` removes exactly that element. -/
def Same (c : Foa.MCfg) (xs ts : List (Foa.Table K V)) (i i' : Nat × Foa.It) : Prop :=
  (i.2.p = none ∧ i'.2.p = none) ∨
  ∃ x t e, i'.1 = i.1 ∧ xs[i.1]? = some x ∧ ts[i.1]? = some t ∧ Points x i.2 e ∧ Points t i'.2 e ∧
    (∃ nx, t.arr.inc c.regular i'.2 = some nx) ∧
    ∃ t2 nx, t.eraseIt c.regular i'.2 = some (t2, nx) ∧ t.contents.Perm (e :: t2.contents)

theorem allRestored (c : Foa.MCfg) : ∀ {xs ys : List (Foa.Table K V)}, (∀ x ∈ xs, Props.Reachable c x) → (∀ y ∈ ys, Props.Reachable c y) →
    List.Forall₂ (fun x y => x.fns.eq = y.fns.eq) xs ys →
    ∃ (ts : List (Foa.Table K V)) (trs : List (List Foa.Pos)), AllLoaded (Foa.Table.loadPrep c.toCfg) (Foa.Table.loadIns c.toCfg) ys (xs.map elemsOf) ts
        (trs.map (fun tr => tr.map (fun p => (Foa.itAt p).tracked))) ∧
      List.Forall₂ (fun x t => ∃ lx lt, Props.Iterates c x lx ∧ Props.Iterates c t lt ∧ lt.Perm lx) xs ts ∧
      ∀ (r : Nat) x, xs[r]? = some x → ∃ t tr y, ts[r]? = some t ∧ trs[r]? = some tr ∧ Restored c x y t tr
  | [], _, _, _, hf => by
    cases hf
    exact ⟨[], [], .nil, .nil, fun r x h => by simp at h⟩
  | x :: xs, _, hx, hy, hf => by
    cases hf with
    | cons h1 h2 =>
      rename_i y ys
      obtain ⟨t, tr, hr⟩ := restored c x y (hx x (by simp)) (hy y (by simp)) h1
      obtain ⟨ts, trs, a1, a2, a3⟩ := allRestored c (fun z hz => hx z (by simp [hz])) (fun z hz => hy z (by simp [hz])) h2
      refine ⟨t :: ts, tr :: trs, .cons hr.loaded a1, .cons ⟨_, _, Foa.opIterate_eq (hx x (by simp)).inv c.regular,
        Foa.opIterate_eq hr.inv c.regular, hr.perm⟩ a2, ?_⟩
      intro r z hz
      cases r with
      | zero =>
        simp only [List.getElem?_cons_zero, Option.some.injEq] at hz
        subst hz
        exact ⟨t, tr, y, rfl, rfl, hr⟩
      | succ r =>
        simp only [List.getElem?_cons_succ] at hz ⊢
        exact a3 r z hz

theorem use {c : Foa.MCfg} {t : Foa.Table K V} (hi : t.Inv) {it : Foa.It} {e : K × V} (hp : Points t it e) :
    (∃ nx, t.arr.inc c.regular it = some nx) ∧
      ∃ t2 nx, t.eraseIt c.regular it = some (t2, nx) ∧ t.contents.Perm (e :: t2.contents) := by
  obtain ⟨p, rfl, hd⟩ := hp
  have hm := mem_occ hi hd
  obtain ⟨he, hv, _⟩ := Foa.mem_occ_iff.1 hm
  have hl : Foa.Live t.fns t.arr := by
    rcases hi.arr with ⟨_, hl⟩ | ⟨hc, _⟩
    · exact hl
    · rw [he] at hc; cases hc
  refine ⟨?_, ?_⟩
  · obtain ⟨_, _, _, _, _, nx, h, _⟩ := Foa.inc_spec hl c.regular hv
    exact ⟨nx, h⟩
  · obtain ⟨pre, post, hs⟩ := List.append_of_mem hm
    obtain ⟨t2, nx, x, e1, e2, e3, e4, e5, e6, e7, e8, e9⟩ := Foa.eraseIt_spec hi hs c.regular
    refine ⟨t2, nx, e1, ?_⟩
    obtain ⟨g, j⟩ := p
    have hx : t.arr.slot g j = some e := hd
    obtain ⟨t3, h1, h2, h3, h4, h5, h6, h7, h8, h9, h10⟩ := Foa.eraseAt_spec hi hx
    rw [e9] at h1
    cases h1
    exact h9

/-- where the saved pointers lead, given the positions of the loaded elements -/
def lead (xs : List (Foa.Table K V)) (trs : List (List Foa.Pos)) : Nat × Foa.Addr → Option (Nat × Foa.Addr) :=
  target 0 (xs.map elemsOf) (trs.map (fun tr => tr.map (fun p => (Foa.itAt p).tracked)))

theorem lead_one {c : Foa.MCfg} {xs ts : List (Foa.Table K V)} {trs : List (List Foa.Pos)} (hx : ∀ x ∈ xs, x.Inv)
    (a3 : ∀ (r : Nat) x, xs[r]? = some x → ∃ t tr y, ts[r]? = some t ∧ trs[r]? = some tr ∧ Restored c x y t tr) (i : Nat × Foa.It)
    (h : Saved xs i) : ∃ i', Same c xs ts i i' ∧ (∀ q, some q ∈ i.2.ptrs i.1 → lead xs trs q ≠ none) ∧
      (i.2.ptrs i.1).map (fun o => o.bind (lead xs trs)) = i'.2.ptrs i'.1 := by
  obtain ⟨r, it⟩ := i
  rcases h with h | ⟨x, e, h1, h2⟩
  · simp only at h
    refine ⟨(r, it), Or.inl ⟨h, h⟩, ?_, ?_⟩
    · intro q hq; simp [Foa.It.ptrs, h] at hq
    · simp [Foa.It.ptrs, h]
  · simp only at h1 h2
    obtain ⟨t, tr, y, b1, b2, b3⟩ := a3 r x h1
    obtain ⟨it', c1, c2, i, j, c3, c4, c5⟩ := b3.target (hx x (List.mem_of_getElem? h1)) h2
    have k1 : ∀ a, lead xs trs (r, a) = (assoc a (pairs (elemsOf x) (tr.map (fun p => (Foa.itAt p).tracked)))).map (tag r) := by
      intro a
      have := target_get (r0 := 0) (a := a) (r := r) (ess := xs.map elemsOf)
        (bss := trs.map (fun tr => tr.map (fun p => (Foa.itAt p).tracked))) (es := elemsOf x) (bs := tr.map (fun p => (Foa.itAt p).tracked))
        (by simp [h1]) (by simp [b2])
      rw [Nat.zero_add] at this
      exact this
    refine ⟨(r, it'), Or.inr ⟨x, t, e, rfl, h1, b1, h2, c1, use b3.inv c1⟩, ?_, ?_⟩
    · intro q hq
      simp only [Foa.It.ptrs, c3, List.mem_cons, Option.some.injEq, List.not_mem_nil, or_false] at hq
      rcases hq with rfl | rfl
      · rw [k1, c2]; simp
      · rw [k1, c5]; simp
    · simp only [Foa.It.ptrs, c3, c4, List.map_cons, List.map_nil, Option.bind_some, k1, c2, c5, Option.map_some, tag]

theorem lead_all {c : Foa.MCfg} {xs ts : List (Foa.Table K V)} {trs : List (List Foa.Pos)} (hx : ∀ x ∈ xs, x.Inv)
    (a3 : ∀ (r : Nat) x, xs[r]? = some x → ∃ t tr y, ts[r]? = some t ∧ trs[r]? = some tr ∧ Restored c x y t tr) :
    ∀ (its : List (Nat × Foa.It)), (∀ i ∈ its, Saved xs i) → ∃ its' : List (Nat × Foa.It), List.Forall₂ (Same c xs ts) its its' ∧
      (∀ p ∈ its.map (fun i => i.2.ptrs i.1), p.length = 2 ∧ ∀ q, some q ∈ p → lead xs trs q ≠ none) ∧
      (its.map (fun i => i.2.ptrs i.1)).map (fun p => p.map (fun o => o.bind (lead xs trs))) = its'.map (fun i => i.2.ptrs i.1)
  | [], _ => ⟨[], .nil, (fun p hp => by cases hp), rfl⟩
  | i :: its, h => by
    obtain ⟨i', s1, s2, s3⟩ := lead_one hx a3 i (h i (by simp))
    obtain ⟨its', u1, u2, u3⟩ := lead_all hx a3 its (fun j hj => h j (by simp [hj]))
    refine ⟨i' :: its', .cons s1 u1, ?_, ?_⟩
    · intro p hp
      simp only [List.map_cons, List.mem_cons] at hp
      rcases hp with rfl | hp
      · refine ⟨?_, s2⟩
        unfold Foa.It.ptrs; split <;> rfl
      · exact u2 p hp
    · simp only [List.map_cons]
      rw [u3, s3]

/-- C56. Several open-addressing containers are saved to one archive, followed by any iterators - to elements of these containers, or end
iterators -, and the archive is loaded into as many containers with the same key equalities, followed by as many iterators. All of it
succeeds; each loaded container has exactly the elements of the saved one, and each loaded iterator corresponds to the saved one: it is
the iterator to the same element, in the container loaded in the place of the saved one, and can be used as such. -/
theorem C56_iterators_restored (c : Foa.MCfg) (xs ys : List (Foa.Table K V)) (hx : ∀ x ∈ xs, Props.Reachable c x)
    (hy : ∀ y ∈ ys, Props.Reachable c y) (he : List.Forall₂ (fun x y => x.fns.eq = y.fns.eq) xs ys) (its : List (Nat × Foa.It))
    (hi : ∀ i ∈ its, Saved xs i) :
    ∃ ar ts its', Foa.Table.saveSession c.regular xs its = some ar ∧
      Foa.Table.loadSession c.toCfg its.length ys ar = some (ts, its'.map (fun i => i.2.ptrs i.1), .done) ∧
      List.Forall₂ (fun x t => ∃ lx lt, Props.Iterates c x lx ∧ Props.Iterates c t lt ∧ lt.Perm lx) xs ts ∧
      List.Forall₂ (Same c xs ts) its its' := by
  obtain ⟨ts, trs, a1, a2, a3⟩ := allRestored c hx hy he
  obtain ⟨its', u1, u2, u3⟩ := lead_all (fun x h => (hx x h).inv) a3 its hi
  refine ⟨Track.saveSession ((xs.map elemsOf).map (fun es => (es.length, es))) (its.map (fun i => i.2.ptrs i.1)), ts, its', ?_, ?_, a2, u1⟩
  · unfold Foa.Table.saveSession
    rw [saveConts_eq c.regular (fun x h => (hx x h).inv)]
    rfl
  · have := session_eq a1 2 _ u2
    unfold Foa.Table.loadSession
    rw [List.length_map] at this
    exact this.trans (by rw [← u3]; rfl)

/-- C56 (stray iterators). If one of the saved iterators points to an element of a container that is not in the archive, loading it throws
`bad_archive_exception`: no pointer to memory of a foreign container comes out of an archive. The containers and the iterators before
are loaded as they should. -/
theorem C56_stray_iterator_rejected (c : Foa.MCfg) (xs ys : List (Foa.Table K V)) (hx : ∀ x ∈ xs, Props.Reachable c x)
    (hy : ∀ y ∈ ys, Props.Reachable c y) (he : List.Forall₂ (fun x y => x.fns.eq = y.fns.eq) xs ys) (its its2 : List (Nat × Foa.It))
    (hi : ∀ i ∈ its, Saved xs i) (r : Nat) (hr : xs.length ≤ r) (z : Foa.Table K V) (it : Foa.It) (e : K × V) (hz : Points z it e) :
    ∃ ar ts its', Foa.Table.saveSession c.regular xs (its ++ (r, it) :: its2) = some ar ∧
      Foa.Table.loadSession c.toCfg (its.length + (its2.length + 1)) ys ar = some (ts, its'.map (fun i => i.2.ptrs i.1), .badArchive) ∧
      List.Forall₂ (fun x t => ∃ lx lt, Props.Iterates c x lx ∧ Props.Iterates c t lt ∧ lt.Perm lx) xs ts ∧
      List.Forall₂ (Same c xs ts) its its' := by
  obtain ⟨ts, trs, a1, a2, a3⟩ := allRestored c hx hy he
  obtain ⟨its', u1, u2, u3⟩ := lead_all (fun x h => (hx x h).inv) a3 its hi
  refine ⟨Track.saveSession ((xs.map elemsOf).map (fun es => (es.length, es))) ((its ++ (r, it) :: its2).map (fun i => i.2.ptrs i.1)), ts, its', ?_, ?_, a2, u1⟩
  · unfold Foa.Table.saveSession
    rw [saveConts_eq c.regular (fun x h => (hx x h).inv)]
    rfl
  · obtain ⟨p, rfl, _⟩ := hz
    have := session_stray a1 2 (its.map (fun i => i.2.ptrs i.1)) (its2.map (fun i => i.2.ptrs i.1)) u2 (r, .ctrl (Foa.itAt p).pc)
      [some (r, .elem (15 * p.1 + p.2))] rfl (target_ge (by simpa using hr))
    unfold Foa.Table.loadSession
    rw [List.length_map, List.length_map] at this
    rw [List.map_append, List.map_cons]
    exact this.trans (by rw [← u3]; rfl)

/-- the hypotheses are met: two containers of 36 elements, an iterator into the second, an end iterator, and an iterator into a container that is
not saved -/
example : ∃ (x : Foa.Table Nat Nat) (it : Foa.It) (e : Nat × Nat), Props.Reachable {} x ∧ x.size = 36 ∧ Points x it e ∧
    (∀ i ∈ [(1, it), (0, ⟨0, none⟩)], Saved [x, x] i) ∧ List.Forall₂ (fun x y : Foa.Table Nat Nat => x.fns.eq = y.fns.eq) [x, x] [x, x] := by
  obtain ⟨t, h1, h2⟩ := Props.sample_reachable
  have hl := Foa.occ_length h1.inv
  cases ho : t.arr.occ with
  | nil => rw [ho] at hl; simp at hl; omega
  | cons p ps =>
    have hm : p ∈ t.arr.occ := by rw [ho]; simp
    obtain ⟨_, _, _⟩ := Foa.mem_occ_iff.1 hm
    have he : ∃ e, t.deref p = some e := by
      rcases h1.inv.arr with ⟨he, hl⟩ | ⟨hc, hd⟩
      · exact (hl.mem_occ he).1 hm
      · rename_i he _ _
        rw [he] at hc; cases hc
    obtain ⟨e, he⟩ := he
    refine ⟨t, Foa.itAt p, e, h1, h2, ⟨p, rfl, he⟩, ?_, .cons rfl (.cons rfl .nil)⟩
    intro i hi
    simp only [List.mem_cons, List.not_mem_nil, or_false] at hi
    rcases hi with rfl | rfl
    · exact Or.inr ⟨t, e, rfl, p, rfl, he⟩
    · exact Or.inl rfl

set_option maxRecDepth 100000 in
/-- a concrete session: 20 elements in a table reserved for 100, with an iterator to each; loaded into a container with another capacity -/
example : ((Foa.run {} Props.pairEq [.reserve 0 100, .insertRange 0 ((List.range 20).map (fun i => (i, 10 * i))), .insert 1 (5, 5)]
      (Foa.start {} Props.sampleHash Props.natEq)).bind (fun p =>
    (Foa.Table.saveSession false [p.1 0] ((p.1 0).arr.occ.map (fun q => (0, Foa.itAt q)))).bind (fun ar =>
    (Foa.Table.loadSession {} 20 [p.1 1] ar).map (fun r => (r.2.2, r.2.1.length, r.1.map (fun t => t.size), (p.1 0).arr.occ.length)))))
    = some (.done, 20, [20], 20) := by
  decide +kernel

end Props.SerIter

/-
Property theorems C56 for the closed-addressing containers: iterators in archives.
-/
import Verif.Fca.SerialIter
import Verif.Props.FcaReserve

namespace Props.SerIterC
open SpecSer SpecTrack Track Fca Fca.Table Props.Closed
variable {K V : Type}

/-- `it` is the iterator of `t` to its element `e` (as `find`, `begin`, `++` return it): the address of the node and the bucket it is in -/
def Points (t : Table K (V × Nat)) (it : CIt) (e : K × V × Nat) : Prop := ∃ q, Node t.b q e ∧ it = ⟨addr e, q.1⟩

theorem pos_eq {t t' : Table K (V × Nat)} (h : t.b.WF) (h' : t'.b.WF) (hb : t'.b.size = t.b.size) (hz : t.b.size ≠ 0)
    (hf : t'.fns.hash = t.fns.hash) : t'.pos = t.pos := by
  obtain ⟨L, hg⟩ := h.ginv hz
  obtain ⟨L', hg'⟩ := h'.ginv (by omega)
  have i1 := hg.idx
  have i2 := hg'.idx
  have l38 : PrimeFmod.sizes.length = 38 := by decide
  rw [l38] at i1 i2
  have e : t'.b.si = t.b.si := by
    have s1 := hg.sz
    have s2 := hg'.sz
    rcases Nat.lt_trichotomy t'.b.si t.b.si with h | h | h
    · exfalso
      have := size_ratio _ i2 _ i1 h
      have := hg.pos
      omega
    · exact h
    · exfalso
      have := size_ratio _ i1 _ i2 h
      have := hg'.pos
      omega
  funext k
  unfold Table.pos Gba.position
  rw [e, hf]

/-- what loading tracks for the items `xs`, the first one being number `n` -/
def newEnc (pos : K → Nat) : Nat → List (K × V) → List (List CAddr)
  | _, [] => []
  | n, x :: xs => [.node n, .bucket (pos x.1), .group (pos x.1 / 64)] :: newEnc pos (n + 1) xs

/-- the new elements -/
def newElems : Nat → List (K × V) → List (K × V × Nat)
  | _, [] => []
  | n, x :: xs => (x.1, x.2, n) :: newElems (n + 1) xs

theorem Points.fields {t : Table K (V × Nat)} (hp : Placed t.fns t.b) {it : CIt} {e : K × V × Nat} (h : Points t it e) :
    it = ⟨addr e, ⟨t.pos e.1, some (t.pos e.1 / 64)⟩⟩ := by
  obtain ⟨⟨⟨p, g⟩, i⟩, ⟨h1, h2⟩, rfl⟩ := h
  have : t.pos e.1 = p := hp _ _ (List.mem_of_getElem? h2)
  simp only at h1
  rw [this, h1]

theorem Points.mk' {t : Table K (V × Nat)} (hs : SInv t) (hp : Placed t.fns t.b) {e : K × V × Nat} (h : e ∈ t.contents) :
    Points t ⟨addr e, ⟨t.pos e.1, some (t.pos e.1 / 64)⟩⟩ e := by
  obtain ⟨b, hb⟩ := (Gba.mem_contents hs.wf).1 h
  obtain ⟨i, hi⟩ := List.getElem?_of_mem hb
  have : t.pos e.1 = b := hp _ _ hb
  exact ⟨(⟨t.pos e.1, some (t.pos e.1 / 64)⟩, i), ⟨rfl, by rw [this]; exact hi⟩, rfl⟩

theorem Points.mem {t : Table K (V × Nat)} (hs : SInv t) {it : CIt} {e : K × V × Nat} (h : Points t it e) : e ∈ t.contents := by
  obtain ⟨q, h1, _⟩ := h
  exact Node.mem hs h1

/-- inserting one item -/
theorem loadInsC_spec {u : Bool} {N : Nat} (hN : N ≤ sizeMax) {t : Table K (V × Nat)} (hg : Good u t) (hf : Fits N t) (x : K × V)
    (hle : t.size + 1 ≤ N) (ha : u = true → ∀ e ∈ t.contents, t.fns.eq x.1 e.1 = false) :
    ∃ t', t.loadInsC u x = some (t', some [.node t.size, .bucket (t'.pos x.1), .group (t'.pos x.1 / 64)]) ∧ Good u t' ∧ Fits N t' ∧
      t'.b.size = t.b.size ∧ t'.fns = t.fns ∧ t'.size = t.size + 1 ∧ t'.contents.Perm ((x.1, x.2, t.size) :: t.contents) := by
  have key : ∃ t' q, Added t (x.1, x.2, t.size) t' ∧ Shape u t.fns t'.b ∧ Node t'.b q (x.1, x.2, t.size) ∧ Grown t t' ∧ MlOk t' ∧
      t.loadInsC u x = (t'.b.deref q).map (fun e => (t', some (CIt.mk (addr e) q.1).tracked)) := by
    cases u with
    | true =>
      rcases emplaceUnique_spec hg.inv hg.law hg.shape (x.1, x.2, t.size) with ⟨q, e, h1, h2, h3⟩ | ⟨t', q, h1, h2, h3, h4, h5⟩
      · have := ha rfl e (Node.mem hg.inv h2)
        rw [h3] at this; cases this
      · refine ⟨t', q, h3, h4, h5, ?_, emplaceUnique_ok h1 hf.ok, ?_⟩
        · rcases emplaceUnique_grown h1 with rfl | h
          · have := h3.size; omega
          · exact h
        · unfold Table.loadInsC
          rw [if_pos rfl, h1]
    | false =>
      obtain ⟨t', q, h1, h2, h3, h4⟩ := emplaceEquiv_spec hg.inv hg.law hg.shape (x.1, x.2, t.size)
      refine ⟨t', q, h2, h3, h4, emplaceEquiv_grown h1, emplaceEquiv_ok h1 hf.ok, ?_⟩
      unfold Table.loadInsC
      rw [if_neg (by decide), h1]
  obtain ⟨t', q, h1, h2, h3, h4, h5, h6⟩ := key
  obtain ⟨g1, g2, g3⟩ := h4.stable hg.inv hf hN (by rw [h1.size]; exact hle)
  obtain ⟨L, hL⟩ := h1.inv.ginv_of_mem (Node.mem h1.inv h3)
  have hd : t'.b.deref q = some (x.1, x.2, t.size) := h3.deref hL
  have hp : t'.pos x.1 = q.1.p := by
    have := h2.1 _ _ (List.mem_of_getElem? h3.2)
    unfold Table.pos
    rw [h1.fns]
    exact this
  refine ⟨t', ?_, ⟨h1.inv, by rw [h1.fns]; exact hg.law, by rw [h1.fns]; exact h2⟩, hf.next h5 g1 g3, g1, h1.fns, h1.size, h1.perm⟩
  rw [h6, hd, hp]
  simp only [Option.map_some, CIt.tracked, addr, h3.1, Option.toList_some]

/-- inserting all items -/
theorem inserts_spec {u : Bool} {N : Nat} (hN : N ≤ sizeMax) : ∀ (xs : List (K × V)) {t : Table K (V × Nat)}, Good u t → Fits N t →
    t.size + xs.length ≤ N → (u = true → xs.Pairwise (fun a b => t.fns.eq a.1 b.1 = false)) →
    (u = true → ∀ x ∈ xs, ∀ e ∈ t.contents, t.fns.eq x.1 e.1 = false) →
    ∃ t', Inserts (loadInsC u) t xs (newEnc t'.pos t.size xs) t' ∧ Good u t' ∧ t'.b.size = t.b.size ∧ t'.fns = t.fns ∧
      t'.contents.Perm (newElems t.size xs ++ t.contents)
  | [], t, hg, hf, _, _, _ => ⟨t, .nil t, hg, rfl, rfl, List.Perm.refl _⟩
  | x :: xs, t, hg, hf, hle, hd, ha => by
    simp only [List.length_cons] at hle
    obtain ⟨t1, e1, e2, e3, e4, e5, e6, e7⟩ := loadInsC_spec hN hg hf x (by omega) (fun hu => ha hu x (by simp))
    obtain ⟨t', f1, f2, f3, f4, f5⟩ := inserts_spec hN xs e2 e3 (by omega)
      (by intro hu; rw [e5]; exact (List.pairwise_cons.1 (hd hu)).2)
      (by
        intro hu y hy e he
        rw [e5]
        rcases List.mem_cons.1 (e7.subset he) with rfl | he
        · have := (List.pairwise_cons.1 (hd hu)).1 y hy
          cases h : t.fns.eq y.1 x.1 with
          | false => rfl
          | true =>
            have := hg.law.symm _ _ h
            simp_all
        · exact ha hu y (by simp [hy]) e he)
    have hz : t1.b.size ≠ 0 := e2.inv.pos (by omega)
    have hpos : t'.pos = t1.pos := pos_eq e2.inv.wf f2.inv.wf f3 hz (by rw [f4])
    refine ⟨t', ?_, f2, f3.trans e4, f4.trans e5, ?_⟩
    · rw [e6] at f1
      refine .cons ?_ f1
      rw [hpos]; exact e1
    · refine f5.trans ?_
      rw [e6]
      refine (e7.append_left _).trans ?_
      exact List.perm_middle

theorem clear_reserve {u : Bool} {t : Table K (V × Nat)} (hg : Good u t) (hok : MlOk t) (n : Nat) :
    ∃ t0, loadPrepC t n = some t0 ∧ Good u t0 ∧ Fits n t0 ∧ t0.size = 0 ∧ t0.fns = t.fns := by
  obtain ⟨t1, xs, h1, h2, h3⟩ := clear_spec hg.inv
  obtain ⟨t2, r1, r2, r3⟩ := rehash_spec h2.inv (minBuckets n t1.mlf)
  have r1' : t1.reserve n = some t2 := r1
  have hz : t1.size = 0 := by rw [h2.inv.len, h3]; rfl
  have g1 : Good u t1 := ⟨h2.inv, by rw [h2.fns]; exact hg.law, by rw [h2.fns]; exact h2.shape _ _ hg.law hg.shape⟩
  have ok1 : MlOk t1 := by
    have := h2.maxLoad
    unfold MlOk at *
    rw [this, hok, h2.mlf, h2.bsize]
  refine ⟨t2, ?_, ⟨r2.inv, by rw [r2.fns]; exact g1.law, by rw [r2.fns]; exact r2.shape _ g1.law g1.shape⟩,
    ⟨reserve_ok r1' ok1, ?_⟩, by rw [r2.size]; exact hz, r2.fns.trans h2.fns⟩
  · unfold loadPrepC
    rw [h1]
    exact r1'
  · rw [r3, r2.mlf, hz, Nat.max_eq_right (minBuckets_mono _ (Nat.zero_le n))]

theorem newElems_plain (n : Nat) (xs : List (K × V)) : (newElems n xs).map plain = xs := by
  induction xs generalizing n with
  | nil => rfl
  | cons x xs ih => simp only [newElems, List.map_cons, ih, plain]

theorem newElems_addr (n : Nat) (xs : List (K × V)) : (newElems n xs).map addr = List.range' n xs.length := by
  induction xs generalizing n with
  | nil => rfl
  | cons x xs ih => simp only [newElems, List.map_cons, ih, addr, List.length_cons, List.range'_succ]

theorem newElems_get {n i : Nat} {xs : List (K × V)} {x : K × V} (h : xs[i]? = some x) : (x.1, x.2, n + i) ∈ newElems n xs := by
  induction xs generalizing n i with
  | nil => simp at h
  | cons y xs ih =>
    cases i with
    | zero =>
      simp only [List.getElem?_cons_zero, Option.some.injEq] at h
      subst h
      simp [newElems]
    | succ i =>
      simp only [List.getElem?_cons_succ] at h
      have := ih (n := n + 1) h
      rw [show n + 1 + i = n + (i + 1) by omega] at this
      simp [newElems, this]

theorem newEnc_length (pos : K → Nat) (n : Nat) (xs : List (K × V)) : (newEnc pos n xs).length = xs.length := by
  induction xs generalizing n with
  | nil => rfl
  | cons x xs ih => simp only [newEnc, List.length_cons, ih]

/-- the tracked addresses, when the elements `l` were saved and then loaded -/
theorem pairs_enc (pos pos' : K → Nat) (n : Nat) (e : K × V × Nat) (l : List (K × V × Nat)) :
    pairs ((e :: l).map (enc pos)) (newEnc pos' n ((e :: l).map plain)) =
      (CAddr.node (addr e), CAddr.node n) :: (CAddr.bucket (pos e.1), CAddr.bucket (pos' e.1)) ::
        (CAddr.group (pos e.1 / 64), CAddr.group (pos' e.1 / 64)) :: pairs (l.map (enc pos)) (newEnc pos' (n + 1) (l.map plain)) := by
  simp only [List.map_cons, newEnc]
  rw [pairs_cons _ _ _ _ (by simp [enc])]
  rfl

theorem assoc_bucket (pos pos' : K → Nat) (b : Nat) : ∀ (n : Nat) (l : List (K × V × Nat)),
    assoc (.bucket b) (pairs (l.map (enc pos)) (newEnc pos' n (l.map plain))) =
      (l.find? (fun e => pos e.1 == b)).map (fun e => .bucket (pos' e.1))
  | _, [] => rfl
  | n, e :: l => by
    rw [pairs_enc]
    simp only [assoc, reduceCtorEq, if_false, CAddr.bucket.injEq]
    rw [assoc_bucket pos pos' b (n + 1) l, List.find?_cons]
    by_cases h : pos e.1 = b
    · simp [h]
    · rw [if_neg h, beq_eq_false_iff_ne.2 h]

theorem assoc_group (pos pos' : K → Nat) (g : Nat) : ∀ (n : Nat) (l : List (K × V × Nat)),
    assoc (.group g) (pairs (l.map (enc pos)) (newEnc pos' n (l.map plain))) =
      (l.find? (fun e => pos e.1 / 64 == g)).map (fun e => .group (pos' e.1 / 64))
  | _, [] => rfl
  | n, e :: l => by
    rw [pairs_enc]
    simp only [assoc, reduceCtorEq, if_false, CAddr.group.injEq]
    rw [assoc_group pos pos' g (n + 1) l, List.find?_cons]
    by_cases h : pos e.1 / 64 = g
    · simp [h]
    · rw [if_neg h, beq_eq_false_iff_ne.2 h]

theorem assoc_node (pos pos' : K → Nat) : ∀ (n i : Nat) (l : List (K × V × Nat)), (l.map addr).Nodup → ∀ e, l[i]? = some e →
    assoc (.node (addr e)) (pairs (l.map (enc pos)) (newEnc pos' n (l.map plain))) = some (.node (n + i))
  | _, _, [], _, e, h => by simp at h
  | n, 0, e' :: l, _, e, h => by
    rw [pairs_enc]
    simp only [List.getElem?_cons_zero, Option.some.injEq] at h
    subst h
    simp [assoc]
  | n, i + 1, e' :: l, hn, e, h => by
    rw [pairs_enc]
    simp only [List.getElem?_cons_succ] at h
    simp only [List.map_cons, List.nodup_cons] at hn
    have ih := assoc_node pos pos' (n + 1) i l hn.2 e h
    simp only [assoc, reduceCtorEq, if_false, CAddr.node.injEq]
    rw [if_neg, ih, show n + 1 + i = n + (i + 1) by omega]
    intro he
    exact hn.1 (he ▸ List.mem_map.2 ⟨e, List.mem_of_getElem? h, rfl⟩)

/-- what is known of a loaded container: the elements, and what was tracked -/
structure Restored (u : Bool) (x y t' : Table K (V × Nat)) (l : List (K × V × Nat)) : Prop where
  iter : x.iterate = some l
  perm : l.Perm x.contents
  good : Good u t'
  fns : t'.fns = y.fns
  elems : t'.contents.Perm (newElems 0 (l.map plain))
  loaded : Loaded loadPrepC (loadInsC u) y (l.map (enc x.pos)) t' (newEnc t'.pos 0 (l.map plain))

theorem enc_plain (pos : K → Nat) (l : List (K × V × Nat)) : (l.map (enc pos)).map Prod.fst = l.map plain := by
  simp [enc]

theorem restored {u : Bool} {x y : Table K (V × Nat)} (hx : Good u x) (hy : Good u y) (hok : MlOk y) (he : x.fns.eq = y.fns.eq)
    (hsz : x.size ≤ sizeMax) : ∃ t' l, Restored u x y t' l := by
  obtain ⟨l, h1, h2, h3⟩ := saveContC_spec hx.inv hx.shape.1
  obtain ⟨l', h1', _, hlen, harr⟩ := iterate_spec hx.inv
  rw [h1] at h1'
  cases h1'
  obtain ⟨t0, p1, p2, p3, p4, p5⟩ := clear_reserve hy hok l.length
  have hnil : t0.contents = [] := p2.inv.contents_nil p4
  obtain ⟨t', i1, i2, i3, i4, i5⟩ := inserts_spec (u := u) (by omega) (l.map plain) p2 p3 (by rw [p4]; simp)
    (by
      intro hu
      have ha := harr u hx.law hx.shape
      subst hu
      rw [p5, ← he]
      unfold Arranged at ha
      simp only [if_true] at ha
      rw [List.pairwise_map]
      exact ha)
    (by intro _ a _ e he; rw [hnil] at he; cases he)
  rw [p4] at i1 i5
  rw [hnil, List.append_nil] at i5
  refine ⟨t', l, h1, h2, i2, i4.trans p5, i5, ⟨t0, ?_, ?_⟩, ?_⟩
  · rw [List.length_map]; exact p1
  · rw [enc_plain]; exact i1
  · have : ∀ (n : Nat) (l : List (K × V × Nat)), List.Forall₂ (fun (e : (K × V) × List CAddr) b => e.2.length = b.length)
        (l.map (enc x.pos)) (newEnc t'.pos n (l.map plain)) := by
      intro n l
      induction l generalizing n with
      | nil => exact .nil
      | cons e l ih => exact .cons rfl (ih _)
    exact this 0 l

/-- the addresses of the loaded nodes are distinct -/
theorem Restored.nodup {u : Bool} {x y t' : Table K (V × Nat)} {l : List (K × V × Nat)} (h : Restored u x y t' l) :
    (t'.contents.map addr).Nodup := by
  rw [(h.elems.map addr).nodup_iff, newElems_addr]
  exact List.nodup_range'

/-- the pointers of a saved iterator, after loading -/
theorem Restored.lead {u : Bool} {x y t' : Table K (V × Nat)} {l : List (K × V × Nat)} (h : Restored u x y t' l) (hx : Good u x)
    (hn : (x.contents.map addr).Nodup) {it : CIt} {e : K × V × Nat} (hp : Points x it e) :
    ∃ e1 e2 e', e' ∈ t'.contents ∧ plain e' = plain e ∧
      l.find? (fun d => x.pos d.1 == x.pos e.1) = some e1 ∧ l.find? (fun d => x.pos d.1 / 64 == x.pos e.1 / 64) = some e2 ∧
      it = ⟨addr e, ⟨x.pos e.1, some (x.pos e.1 / 64)⟩⟩ ∧
      assoc (.node (addr e)) (pairs (l.map (enc x.pos)) (newEnc t'.pos 0 (l.map plain))) = some (.node (addr e')) ∧
      assoc (.bucket (x.pos e.1)) (pairs (l.map (enc x.pos)) (newEnc t'.pos 0 (l.map plain))) = some (.bucket (t'.pos e1.1)) ∧
      assoc (.group (x.pos e.1 / 64)) (pairs (l.map (enc x.pos)) (newEnc t'.pos 0 (l.map plain))) = some (.group (t'.pos e2.1 / 64)) := by
  have hm : e ∈ l := h.perm.symm.subset (hp.mem hx.inv)
  obtain ⟨i, hi⟩ := List.getElem?_of_mem hm
  have hpl : (l.map plain)[i]? = some (plain e) := by simp [hi]
  have f1 : ∃ e1, l.find? (fun d => x.pos d.1 == x.pos e.1) = some e1 := by
    rw [← Option.isSome_iff_exists, List.find?_isSome]
    exact ⟨e, hm, by simp⟩
  have f2 : ∃ e2, l.find? (fun d => x.pos d.1 / 64 == x.pos e.1 / 64) = some e2 := by
    rw [← Option.isSome_iff_exists, List.find?_isSome]
    exact ⟨e, hm, by simp⟩
  obtain ⟨e1, f1⟩ := f1
  obtain ⟨e2, f2⟩ := f2
  refine ⟨e1, e2, (e.1, e.2.1, 0 + i), h.elems.symm.subset (newElems_get hpl), rfl, f1, f2, hp.fields hx.shape.1, ?_, ?_, ?_⟩
  · exact assoc_node _ _ 0 i l (by rw [(h.perm.map addr).nodup_iff]; exact hn) e hi
  · rw [assoc_bucket, f1]; rfl
  · rw [assoc_group, f2]; rfl

/-- `it` can be used as the iterator to `e`: `*it` is the element, `++it` the iterator that follows in the iteration, `erase(it)` removes
exactly this element. -/
structure Usable (t : Table K (V × Nat)) (it : CIt) (e : K × V × Nat) : Prop where
  deref : t.derefC it = some (plain e)
  next : ∃ q nx, Node t.b q e ∧ t.b.incIt q = some nx ∧ t.incC it = some (nx.bind (toC t.b))
  erase : ∃ t2, t.eraseC it = some t2 ∧ t.contents.Perm (e :: t2.contents)

theorem Points.usable {t : Table K (V × Nat)} (hs : SInv t) (hn : (t.contents.map addr).Nodup) {it : CIt} {e : K × V × Nat}
    (h : Points t it e) : Usable t it e := by
  obtain ⟨q, h1, rfl⟩ := h
  obtain ⟨L, hg⟩ := hs.ginv_of_mem (Node.mem hs h1)
  obtain ⟨nx, n1, n2⟩ := incC_eq hs hn h1
  obtain ⟨t2, r1, r2⟩ := eraseC_eq hs hn h1
  have hlt : q.1.p < t.b.size := hg.nonempty_lt (fun e => by have := h1.2; rw [e] at this; simp at this)
  exact ⟨derefC_eq hn hlt h1.2 _, ⟨q, nx, h1, n1, n2⟩, t2, r1, by simpa using r2.perm⟩

/-- A saved iterator: the end iterator or an iterator to an element of container `r`. -/
def Saved (xs : List (Table K (V × Nat))) (i : Nat × Option CIt) : Prop :=
  i.2 = none ∨ ∃ x it e, xs[i.1]? = some x ∧ i.2 = some it ∧ Points x it e

/-- The elements that shared a bucket with `e`, or a group of buckets, do so in the other container. -/
def Together (x t : Table K (V × Nat)) (e : K × V × Nat) : Prop :=
  ∀ d ∈ x.contents, (x.pos d.1 = x.pos e.1 → t.pos d.1 = t.pos e.1) ∧ (x.pos d.1 / 64 = x.pos e.1 / 64 → t.pos d.1 / 64 = t.pos e.1 / 64)

/-- The loaded iterator corresponds to the saved one: end to end; otherwise `*it` is the same element, of the corresponding container. If the
elements in the bucket, and in the group, of that element have stayed together - for example because the bucket counts and the hash functions are
the same -, it is the iterator to this element, and can be used as such. -/
def Same (xs ts : List (Table K (V × Nat))) (i i' : Nat × Option CIt) : Prop :=
  (i.2 = none ∧ i'.2 = none) ∨
  ∃ x t it it' e e', i'.1 = i.1 ∧ xs[i.1]? = some x ∧ ts[i.1]? = some t ∧ i.2 = some it ∧ i'.2 = some it' ∧ Points x it e ∧
    e' ∈ t.contents ∧ plain e' = plain e ∧ it'.node = addr e' ∧ t.derefC it' = some (plain e) ∧
    (Together x t e → Points t it' e' ∧ Usable t it' e') ∧
    (x.bucketCount = t.bucketCount → x.fns.hash = t.fns.hash → Points t it' e' ∧ Usable t it' e')

/-- saved and loaded containers -/
inductive AllRestored (u : Bool) : List (Table K (V × Nat)) → List (Table K (V × Nat)) → List (Table K (V × Nat)) → List (List (K × V × Nat)) → Prop
  | nil : AllRestored u [] [] [] []
  | cons {x y t l xs ys ts ls} : Restored u x y t l → AllRestored u xs ys ts ls → AllRestored u (x :: xs) (y :: ys) (t :: ts) (l :: ls)

/-- the elements as saved -/
def savedElems : List (Table K (V × Nat)) → List (List (K × V × Nat)) → List (List ((K × V) × List CAddr))
  | x :: xs, l :: ls => l.map (enc x.pos) :: savedElems xs ls
  | _, _ => []

/-- what was tracked when loading -/
def loadedElems : List (Table K (V × Nat)) → List (List (K × V × Nat)) → List (List (List CAddr))
  | t :: ts, l :: ls => newEnc t.pos 0 (l.map plain) :: loadedElems ts ls
  | _, _ => []

theorem AllRestored.loaded {u : Bool} {xs ys ts : List (Table K (V × Nat))} {ls : List (List (K × V × Nat))} (h : AllRestored u xs ys ts ls) :
    AllLoaded loadPrepC (loadInsC u) ys (savedElems xs ls) ts (loadedElems ts ls) := by
  induction h with
  | nil => exact .nil
  | cons h1 _ ih => exact .cons h1.loaded ih

theorem AllRestored.save {u : Bool} {xs ys ts : List (Table K (V × Nat))} {ls : List (List (K × V × Nat))} (h : AllRestored u xs ys ts ls)
    (hx : ∀ x ∈ xs, Good u x) : saveContsC xs = some ((savedElems xs ls).map (fun es => (es.length, es))) := by
  induction h with
  | nil => rfl
  | @cons x y t l xs ys ts ls h1 _ ih =>
    have hg := hx x (by simp)
    obtain ⟨l', e1, e2, e3⟩ := saveContC_spec hg.inv hg.shape.1
    rw [h1.iter] at e1
    cases e1
    simp only [saveContsC, e3, ih (fun z hz => hx z (by simp [hz])), Option.bind_some, Option.map_some, savedElems, List.map_cons, List.length_map]

theorem AllRestored.get {u : Bool} {xs ys ts : List (Table K (V × Nat))} {ls : List (List (K × V × Nat))} (h : AllRestored u xs ys ts ls) :
    ∀ {r : Nat} {x}, xs[r]? = some x → ∃ y t l, ys[r]? = some y ∧ ts[r]? = some t ∧ Restored u x y t l ∧
      (savedElems xs ls)[r]? = some (l.map (enc x.pos)) ∧ (loadedElems ts ls)[r]? = some (newEnc t.pos 0 (l.map plain)) := by
  induction h with
  | nil => intro r x h; simp at h
  | cons h1 _ ih =>
    intro r x h
    cases r with
    | zero =>
      simp only [List.getElem?_cons_zero, Option.some.injEq] at h
      subst h
      exact ⟨_, _, _, rfl, rfl, h1, rfl, rfl⟩
    | succ r =>
      simp only [List.getElem?_cons_succ] at h
      exact ih h

theorem AllRestored.length {u : Bool} {xs ys ts : List (Table K (V × Nat))} {ls : List (List (K × V × Nat))} (h : AllRestored u xs ys ts ls) :
    (savedElems xs ls).length = xs.length := by
  induction h with
  | nil => rfl
  | cons _ _ ih => simp only [savedElems, List.length_cons, ih]

theorem allRestored {u : Bool} : ∀ {xs ys : List (Table K (V × Nat))}, (∀ x ∈ xs, Good u x) → (∀ y ∈ ys, Good u y ∧ MlOk y) →
    List.Forall₂ (fun x y => x.fns.eq = y.fns.eq) xs ys → (∀ x ∈ xs, x.size ≤ sizeMax) → ∃ ts ls, AllRestored u xs ys ts ls
  | [], _, _, _, hf, _ => by cases hf; exact ⟨[], [], .nil⟩
  | x :: xs, _, hx, hy, hf, hs => by
    cases hf with
    | cons h1 h2 =>
      rename_i y ys
      obtain ⟨t, l, hr⟩ := restored (hx x (by simp)) (hy y (by simp)).1 (hy y (by simp)).2 h1 (hs x (by simp))
      obtain ⟨ts, ls, a⟩ := allRestored (fun z hz => hx z (by simp [hz])) (fun z hz => hy z (by simp [hz])) h2 (fun z hz => hs z (by simp [hz]))
      exact ⟨t :: ts, l :: ls, .cons hr a⟩

theorem together_of_eq {u : Bool} {x t : Table K (V × Nat)} (hx : Good u x) (ht : Good u t) (hb : x.bucketCount = t.bucketCount)
    (hf : x.fns.hash = t.fns.hash) {e : K × V × Nat} (he : e ∈ x.contents) : Together x t e := by
  have hz : x.b.size ≠ 0 := by
    obtain ⟨L, hg⟩ := hx.inv.ginv_of_mem he
    have := hg.pos
    omega
  have : t.pos = x.pos := pos_eq hx.inv.wf ht.inv.wf (by exact hb.symm) hz hf.symm
  intro d _
  rw [this]
  exact ⟨id, id⟩

theorem lead_one {u : Bool} {xs ys ts : List (Table K (V × Nat))} {ls : List (List (K × V × Nat))} (h : AllRestored u xs ys ts ls)
    (hx : ∀ x ∈ xs, Good u x) (hn : ∀ x ∈ xs, (x.contents.map addr).Nodup) (i : Nat × Option CIt) (hi : Saved xs i) :
    ∃ i', Same xs ts i i' ∧ (∀ q, some q ∈ CIt.ptrs i.1 i.2 → target 0 (savedElems xs ls) (loadedElems ts ls) q ≠ none) ∧
      (CIt.ptrs i.1 i.2).map (fun o => o.bind (target 0 (savedElems xs ls) (loadedElems ts ls))) = CIt.ptrs i'.1 i'.2 := by
  obtain ⟨r, i⟩ := i
  rcases hi with hi | ⟨x, it, e, h1, h2, h3⟩
  · simp only at hi
    subst hi
    refine ⟨(r, none), Or.inl ⟨rfl, rfl⟩, ?_, rfl⟩
    intro q hq; simp [CIt.ptrs] at hq
  · simp only at h1 h2
    subst h2
    have hxm := List.mem_of_getElem? h1
    have hgx := hx x hxm
    obtain ⟨y, t, l, _, b1, b2, b3, b4⟩ := h.get h1
    obtain ⟨e1, e2, e', c1, c2, c3, c4, c5, c6, c7, c8⟩ := b2.lead hgx (hn x hxm) h3
    have k1 : ∀ a, target 0 (savedElems xs ls) (loadedElems ts ls) (r, a) =
        (assoc a (pairs (l.map (enc x.pos)) (newEnc t.pos 0 (l.map plain)))).map (tag r) := by
      intro a
      have := target_get (r0 := 0) (a := a) b3 b4
      rw [Nat.zero_add] at this
      exact this
    have hus : Together x t e → Points t ⟨addr e', ⟨t.pos e1.1, some (t.pos e2.1 / 64)⟩⟩ e' ∧
        Usable t ⟨addr e', ⟨t.pos e1.1, some (t.pos e2.1 / 64)⟩⟩ e' := by
      intro ht
      have m1 := List.mem_of_find?_eq_some c3
      have m2 := List.mem_of_find?_eq_some c4
      have p1 : x.pos e1.1 = x.pos e.1 := by simpa using List.find?_some c3
      have p2 : x.pos e2.1 / 64 = x.pos e.1 / 64 := by simpa using List.find?_some c4
      have q1 := (ht e1 (b2.perm.subset m1)).1 p1
      have q2 := (ht e2 (b2.perm.subset m2)).2 p2
      have hk : e.1 = e'.1 := by
        have := congrArg Prod.fst c2
        exact this.symm
      rw [q1, q2, hk]
      have hp := Points.mk' b2.good.inv b2.good.shape.1 c1
      exact ⟨hp, hp.usable b2.good.inv b2.nodup⟩
    refine ⟨(r, some ⟨addr e', ⟨t.pos e1.1, some (t.pos e2.1 / 64)⟩⟩), Or.inr ⟨x, t, it, _, e, e', rfl, h1, b1, rfl, rfl, h3, c1, c2, rfl, ?_, hus,
      fun hb hf => hus (together_of_eq hgx b2.good hb hf (h3.mem hgx.inv))⟩, ?_, ?_⟩
    · obtain ⟨⟨qb, qi⟩, n1, _⟩ := Points.mk' b2.good.inv b2.good.shape.1 c1
      obtain ⟨L, hg⟩ := b2.good.inv.ginv_of_mem c1
      have hlt : qb.p < t.b.size := hg.nonempty_lt (fun e => by have := n1.2; rw [e] at this; simp at this)
      rw [derefC_eq b2.nodup hlt n1.2, c2]
    · intro q hq
      subst c5
      simp only [CIt.ptrs, Option.map_some, List.mem_cons, Option.some.injEq, List.not_mem_nil, or_false] at hq
      rcases hq with rfl | rfl | rfl
      · rw [k1, c6]; simp
      · rw [k1, c7]; simp
      · rw [k1, c8]; simp
    · subst c5
      simp only [CIt.ptrs, List.map_cons, List.map_nil, Option.bind_some, Option.map_some, k1, c6, c7, c8, tag]

theorem lead_all {u : Bool} {xs ys ts : List (Table K (V × Nat))} {ls : List (List (K × V × Nat))} (h : AllRestored u xs ys ts ls)
    (hx : ∀ x ∈ xs, Good u x) (hn : ∀ x ∈ xs, (x.contents.map addr).Nodup) : ∀ (its : List (Nat × Option CIt)), (∀ i ∈ its, Saved xs i) →
    ∃ its' : List (Nat × Option CIt), List.Forall₂ (Same xs ts) its its' ∧
      (∀ p ∈ its.map (fun i => CIt.ptrs i.1 i.2), p.length = 3 ∧ ∀ q, some q ∈ p → target 0 (savedElems xs ls) (loadedElems ts ls) q ≠ none) ∧
      (its.map (fun i => CIt.ptrs i.1 i.2)).map (fun p => p.map (fun o => o.bind (target 0 (savedElems xs ls) (loadedElems ts ls)))) =
        its'.map (fun i => CIt.ptrs i.1 i.2)
  | [], _ => ⟨[], .nil, (fun p hp => by cases hp), rfl⟩
  | i :: its, hi => by
    obtain ⟨i', s1, s2, s3⟩ := lead_one h hx hn i (hi i (by simp))
    obtain ⟨its', u1, u2, u3⟩ := lead_all h hx hn its (fun j hj => hi j (by simp [hj]))
    refine ⟨i' :: its', .cons s1 u1, ?_, ?_⟩
    · intro p hp
      simp only [List.map_cons, List.mem_cons] at hp
      rcases hp with rfl | hp
      · refine ⟨?_, s2⟩
        obtain ⟨r, i⟩ := i
        cases i <;> rfl
      · exact u2 p hp
    · simp only [List.map_cons]
      rw [u3, s3]

theorem AllRestored.contents {u : Bool} {xs ys ts : List (Table K (V × Nat))} {ls : List (List (K × V × Nat))} (h : AllRestored u xs ys ts ls) :
    List.Forall₂ (fun x t => ∃ lx lt, x.iterate = some lx ∧ t.iterate = some lt ∧ (lt.map plain).Perm (lx.map plain)) xs ts := by
  induction h with
  | nil => exact .nil
  | cons h1 _ ih =>
    refine .cons ?_ ih
    obtain ⟨lt, e1, e2, _⟩ := iterate_spec h1.good.inv
    refine ⟨_, lt, h1.iter, e1, ?_⟩
    have := (e2.trans h1.elems).map plain
    rw [newElems_plain] at this
    exact this

/-- C56, closed addressing (partial). Several closed-addressing containers are saved to one archive, followed by any iterators, and the archive
is loaded into as many containers with the same key equalities, followed by as many iterators. All of it succeeds; each loaded container has the
elements of the saved one, and `*it` of each loaded iterator is the element the saved one points to, in the corresponding container.
Missing: that the loaded iterator can be incremented and used for erasure. This holds if the loaded container has as many buckets as the saved one
and the same hash function (last line of `Same`), and is false in general (`C56_closed_iterator_wrong_bucket`). -/
theorem C56_closed_iterators_restored_partial (c : MCfg K (V × Nat)) (xs ys : List (Table K (V × Nat))) (hx : ∀ x ∈ xs, Closed.Reachable c x)
    (hn : ∀ x ∈ xs, (x.contents.map addr).Nodup) (hs : ∀ x ∈ xs, x.size ≤ sizeMax)
    (hy : ∀ y ∈ ys, ReachableNP c y) (he : List.Forall₂ (fun x y => x.fns.eq = y.fns.eq) xs ys) (its : List (Nat × Option CIt))
    (hi : ∀ i ∈ its, Saved xs i) :
    ∃ ar ts its', saveSessionC xs its = some ar ∧
      loadSessionC c.u its.length ys ar = some (ts, its'.map (fun i => CIt.ptrs i.1 i.2), .done) ∧
      List.Forall₂ (fun x t => ∃ lx lt, x.iterate = some lx ∧ t.iterate = some lt ∧ (lt.map plain).Perm (lx.map plain)) xs ts ∧
      List.Forall₂ (Same xs ts) its its' := by
  have hg : ∀ x ∈ xs, Good c.u x := fun x h => (hx x h).good
  obtain ⟨ts, ls, ha⟩ := allRestored hg (fun y h => (hy y h).good) he hs
  obtain ⟨its', u1, u2, u3⟩ := lead_all ha hg hn its hi
  refine ⟨Track.saveSession ((savedElems xs ls).map (fun es => (es.length, es))) (its.map (fun i => CIt.ptrs i.1 i.2)), ts, its', ?_, ?_, ha.contents, u1⟩
  · unfold saveSessionC
    rw [ha.save hg]
    rfl
  · have := session_eq ha.loaded 3 _ u2
    unfold loadSessionC
    rw [List.length_map] at this
    exact this.trans (by rw [← u3])

/-- C56 (stray iterators), closed addressing: if one of the saved iterators points to an element of a container that is not in the archive, loading
it throws `bad_archive_exception`. -/
theorem C56_closed_stray_iterator_rejected (c : MCfg K (V × Nat)) (xs ys : List (Table K (V × Nat))) (hx : ∀ x ∈ xs, Closed.Reachable c x)
    (hn : ∀ x ∈ xs, (x.contents.map addr).Nodup) (hs : ∀ x ∈ xs, x.size ≤ sizeMax)
    (hy : ∀ y ∈ ys, ReachableNP c y) (he : List.Forall₂ (fun x y => x.fns.eq = y.fns.eq) xs ys) (its its2 : List (Nat × Option CIt))
    (hi : ∀ i ∈ its, Saved xs i) (r : Nat) (hr : xs.length ≤ r) (it : CIt) :
    ∃ ar ts its', saveSessionC xs (its ++ (r, some it) :: its2) = some ar ∧
      loadSessionC c.u (its.length + (its2.length + 1)) ys ar = some (ts, its'.map (fun i => CIt.ptrs i.1 i.2), .badArchive) ∧
      List.Forall₂ (fun x t => ∃ lx lt, x.iterate = some lx ∧ t.iterate = some lt ∧ (lt.map plain).Perm (lx.map plain)) xs ts ∧
      List.Forall₂ (Same xs ts) its its' := by
  have hg : ∀ x ∈ xs, Good c.u x := fun x h => (hx x h).good
  obtain ⟨ts, ls, ha⟩ := allRestored hg (fun y h => (hy y h).good) he hs
  obtain ⟨its', u1, u2, u3⟩ := lead_all ha hg hn its hi
  refine ⟨Track.saveSession ((savedElems xs ls).map (fun es => (es.length, es))) ((its ++ (r, some it) :: its2).map (fun i => CIt.ptrs i.1 i.2)), ts, its',
    ?_, ?_, ha.contents, u1⟩
  · unfold saveSessionC
    rw [ha.save hg]
    rfl
  · have := session_stray ha.loaded 3 (its.map (fun i => CIt.ptrs i.1 i.2)) (its2.map (fun i => CIt.ptrs i.1 i.2)) u2 (r, .node it.node)
      [some (r, .bucket it.itb.p), it.itb.g.map (fun g => (r, .group g))] rfl (target_ge (by rw [ha.length]; simpa using hr))
    unfold loadSessionC
    rw [List.length_map, List.length_map] at this
    rw [List.map_append, List.map_cons]
    exact this.trans (by rw [← u3])

/-! ### Concrete cases, and the negative result -/

/-- a map from numbers to numbers whose hash function is the identity; the mapped values carry the address of the node -/
def numbers (u : Bool) : MCfg Nat (Nat × Nat) := ⟨u, ⟨false, false, false⟩, id, fun a b => a.1 == b.1 && a.2 == b.2⟩

/-- the hash function: the number itself -/
def ident (k : Nat) : Nat := k % 2 ^ 64

theorem numbers_lawful : Spec.Lawful ident (fun a b : Nat => a == b) where
  hash_lt k := Nat.mod_lt _ (by decide)
  refl := by simp
  symm := by intro a b h; simpa using (Eq.symm (by simpa using h))
  trans := by intro a b c h1 h2; simp_all
  compat := by intro a b h; simp at h; rw [h]

theorem insertsAll_eq {u : Bool} {o o' : SpecC.Obj K V} {xs : List (K × V)} (h : SpecC.InsertsAll u o xs o') : o'.eq = o.eq := by
  induction h with
  | nil => rfl
  | cons h1 _ ih =>
    refine ih.trans ?_
    grind [SpecC.Inserts]

theorem lstep_eq {u : Bool} {o o' : SpecC.Obj K V} {op : SpecC.LOp K V} {r : Spec.Res K V} (h : SpecC.LStep u o op r o') : o'.eq = o.eq := by
  cases op <;> simp only [SpecC.LStep] at h
  case insertRange => exact insertsAll_eq h.1
  all_goals grind [SpecC.Inserts]

/-- containers 0 and 1 after a program that calls member functions of single containers -/
theorem reach2 (u : Bool) (ops : List (Nat × SpecC.LOp Nat (Nat × Nat))) (he : ∀ op ∈ ops, EasyL u op.2) {β : Type}
    {f : Table Nat (Nat × Nat) → Table Nat (Nat × Nat) → β} {y : β}
    (h : ((Fca.run (numbers u) (ops.map (fun p => .on p.1 p.2)) (Fca.start ident (fun a b => a == b))).map (fun p => f (p.1 0) (p.1 1))) = some y) :
    ∃ t t' : Table Nat (Nat × Nat), Closed.Reachable (numbers u) t ∧ ReachableNP (numbers u) t' ∧ t.fns.eq = t'.fns.eq ∧ f t t' = y := by
  have he' : ∀ op ∈ ops.map (fun p => SpecC.Op.on p.1 p.2), Easy u op := by
    intro op hop
    obtain ⟨p, hp, rfl⟩ := List.mem_map.1 hop
    exact he p hp
  obtain ⟨s, outs, a, e1, e2, e3⟩ := run_refines (numbers u) (ops.map (fun p => .on p.1 p.2)) _ _ (start_rs u numbers_lawful)
    (easy_safe _ _ he' (start_plain _))
  rw [e1] at h
  simp only [Option.map_some, Option.some.injEq] at h
  have hq : ∀ (ops : List (Nat × SpecC.LOp Nat (Nat × Nat))) (b a : Nat → SpecC.Obj Nat (Nat × Nat)) (outs : List (Spec.Res Nat (Nat × Nat))),
      SpecC.Run u (numbers u).tr (numbers u).veq b (ops.map (fun p => .on p.1 p.2)) outs a → (∀ r, (b r).eq = (b 0).eq) → ∀ r, (a r).eq = (a 0).eq := by
    intro ops
    induction ops with
    | nil => intro b a outs h hb; cases h; exact hb
    | cons op ops ih =>
      intro b a outs h hb
      cases h with
      | cons h1 h2 =>
        refine ih _ _ _ h2 ?_
        obtain ⟨o', g1, rfl⟩ := h1
        have key : ∀ r, (Spec.upd b op.1 o' r).eq = (b r).eq := by
          intro r
          unfold Spec.upd
          split
          · rename_i h; rw [h]; exact lstep_eq g1
          · rfl
        intro r
        rw [key, key]; exact hb r
  exact ⟨s 0, s 1, ⟨_, _, _, s, outs, 0, numbers_lawful, easy_safe _ _ he' (start_plain _), e1, rfl,
      fun a ha => (easy_plain ha he' (start_plain _) 0).1⟩, .of_no_pocca rfl ⟨_, _, _, s, outs, 1, numbers_lawful, easy_safe _ _ he' (start_plain _), e1, rfl,
      fun a ha => (easy_plain ha he' (start_plain _) 1).1⟩, by rw [(e3 0).eq, (e3 1).eq, hq ops _ _ _ e2 (fun r => rfl) 1], h⟩

/-- saving a container and an iterator, loading both: the loaded table, the iterator, the outcome -/
def trip (u : Bool) (x y : Table Nat (Nat × Nat)) (it : CIt) : Option (Table Nat (Nat × Nat) × CIt × Outcome) :=
  (saveSessionC [x] [(0, some it)]).bind (fun ar =>
    match loadSessionC u 1 [y] ar with
    | some ([t], [[some (0, .node n), some (0, .bucket b), some (0, .group g)]], o) => some (t, ⟨n, ⟨b, some g⟩⟩, o)
    | _ => none)

theorem trip_eq {u : Bool} {x y t : Table Nat (Nat × Nat)} {it it' : CIt} {o : Outcome} (h : trip u x y it = some (t, it', o)) :
    ∃ ar, saveSessionC [x] [(0, some it)] = some ar ∧ loadSessionC u 1 [y] ar = some ([t], [CIt.ptrs 0 (some it')], o) := by
  unfold trip at h
  rw [Option.bind_eq_some_iff] at h
  obtain ⟨ar, h1, h2⟩ := h
  refine ⟨ar, h1, ?_⟩
  split at h2
  · rename_i e
    cases h2
    exact e
  · cases h2

/-- what can be observed of the loaded iterator: `*it`, `++it`, `*++it`, whether `erase(it)` is defined, the elements -/
def look (r : Table Nat (Nat × Nat) × CIt × Outcome) :
    Outcome × Option (Nat × Nat) × Option (Option CIt) × Option (Nat × Nat) × Bool × Option (List (Nat × Nat)) × Nat :=
  (r.2.2, r.1.derefC r.2.1, r.1.incC r.2.1, ((r.1.incC r.2.1).bind id).bind r.1.derefC, (r.1.eraseC r.2.1).isSome,
    r.1.iterate.map (fun l => l.map plain), r.1.bucketCount)

set_option synthInstance.maxSize 100000 in
set_option synthInstance.maxHeartbeats 200000 in
set_option maxRecDepth 100000 in
/-- C56 is false of the closed-addressing containers: an `unordered_map` with 29 buckets (because of `reserve(20)`) has the elements 29 and 0, both
in bucket 0. It is saved together with the iterator to 29. The map loaded has 13 buckets, with 0 in bucket 0 and 29 in bucket 3, and the iterator
loaded with it has the node of 29 but bucket 0: incrementing it leads to 29 again although the iteration order is 0, 29, so that a loop to
`end()` with this iterator visits 29 twice; and `erase(it)` looks for the node in the wrong bucket, which is undefined. -/
theorem C56_closed_iterator_wrong_bucket : ∃ (x y t : Table Nat (Nat × Nat)) (it it' : CIt) (e : Nat × Nat × Nat) (ar : List (Tok (Nat × Nat))),
    Closed.Reachable (numbers true) x ∧ ReachableNP (numbers true) y ∧ (x.contents.map addr).Nodup ∧ x.fns.eq = y.fns.eq ∧ Points x it e ∧ plain e = (29, 290) ∧
    saveSessionC [x] [(0, some it)] = some ar ∧ loadSessionC true 1 [y] ar = some ([t], [CIt.ptrs 0 (some it')], .done) ∧
    t.iterate.map (fun l => l.map plain) = some [(0, 5), (29, 290)] ∧ t.derefC it' = some (29, 290) ∧
    (∃ it2, t.incC it' = some (some it2) ∧ t.derefC it2 = some (29, 290)) ∧ t.eraseC it' = none := by
  obtain ⟨x, y, h1, h2, h3, h4⟩ := reach2 true [(0, .reserve 20), (0, .insert (29, 290, 0)), (0, .insert (0, 5, 1))]
    (by simp [EasyL]) (f := fun x y => (x.contents.map addr, x.b.deref (⟨0, some 0⟩, 1), (trip true x y ⟨0, ⟨0, some 0⟩⟩).map look))
    (y := ([1, 0], some (29, 290, 0), some (.done, some (29, 290), some (some ⟨1, ⟨3, some 0⟩⟩), some (29, 290), false, some [(0, 5), (29, 290)], 13)))
    (by decide +kernel)
  simp only [Prod.mk.injEq] at h4
  obtain ⟨k1, k2, k3⟩ := h4
  rw [Option.map_eq_some_iff] at k3
  obtain ⟨⟨t, it', o⟩, k3, k4⟩ := k3
  obtain ⟨ar, m1, m2⟩ := trip_eq k3
  simp only [look, Prod.mk.injEq] at k4
  obtain ⟨rfl, k5, k6, k7, k8, k9, _⟩ := k4
  refine ⟨x, y, t, ⟨0, ⟨0, some 0⟩⟩, it', (29, 290, 0), ar, h1, h2, by rw [k1]; decide, h3, ⟨(⟨0, some 0⟩, 1), ⟨rfl, ?_⟩, rfl⟩, rfl, m1, m2, k9, k5,
    ⟨_, k6, ?_⟩, ?_⟩
  · unfold Gba.deref Gba.get at k2
    split at k2
    · cases k2
    · rename_i l e
      split at e
      · cases e; exact k2
      · cases e
  · rw [k6] at k7; exact k7
  · simpa using k8

set_option synthInstance.maxSize 100000 in
set_option synthInstance.maxHeartbeats 200000 in
set_option maxRecDepth 100000 in
/-- the hypotheses of `C56_closed_iterators_restored_partial` are met: a multimap whose equal keys share a bucket, with 13 buckets before and after;
the loaded iterator can be used -/
example : ∃ (x y : Table Nat (Nat × Nat)) (it : CIt) (e : Nat × Nat × Nat), Closed.Reachable (numbers false) x ∧ ReachableNP (numbers false) y ∧
    (x.contents.map addr).Nodup ∧ x.size ≤ sizeMax ∧ x.fns.eq = y.fns.eq ∧ Saved [x] (0, some it) ∧ Points x it e ∧
    (trip false x y it).map look = some (.done, some (16, 32), some (some ⟨3, ⟨5, some 0⟩⟩), some (5, 50), true, some [(3, 30), (3, 31), (16, 32), (5, 50)], 13) := by
  obtain ⟨x, y, h1, h2, h3, h4⟩ := reach2 false [(0, .insert (3, 30, 0)), (0, .insert (3, 31, 1)), (0, .insert (5, 50, 2)), (0, .insert (16, 32, 3)),
      (1, .insert (8, 8, 8))]
    (by simp [EasyL]) (f := fun x y => (x.contents.map addr, x.size, x.b.deref (⟨3, some 0⟩, 0), (trip false x y ⟨3, ⟨3, some 0⟩⟩).map look))
    (y := ([3, 0, 1, 2], 4, some (16, 32, 3), some (.done, some (16, 32), some (some ⟨3, ⟨5, some 0⟩⟩), some (5, 50), true, some [(3, 30), (3, 31), (16, 32), (5, 50)], 13)))
    (by decide +kernel)
  simp only [Prod.mk.injEq] at h4
  obtain ⟨k1, k2, k3, k4⟩ := h4
  have hp : Points x ⟨3, ⟨3, some 0⟩⟩ (16, 32, 3) := by
    refine ⟨(⟨3, some 0⟩, 0), ⟨rfl, ?_⟩, rfl⟩
    unfold Gba.deref Gba.get at k3
    split at k3
    · cases k3
    · rename_i l e
      split at e
      · cases e; exact k3
      · cases e
  exact ⟨x, y, ⟨3, ⟨3, some 0⟩⟩, _, h1, h2, by rw [k1]; decide, by rw [k2]; decide, h3, Or.inr ⟨x, _, _, rfl, rfl, hp⟩, hp, k4⟩

end Props.SerIterC

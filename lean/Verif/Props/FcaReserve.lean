/-
Property theorem C47: `reserve(n)` on the closed-addressing containers. Positive for insertion of elements one at a time,
negative for node insertion, merge and insertion of a forward range into a multimap.
-/
import Verif.Props.FcaLoad
import Verif.Fca.Reserve

namespace Props.Closed
open Fca
open Spec (Res Traits)
open SpecC (Op LOp)
open Props (sampleHash natEq pairEq sample_lawful)
variable {K V : Type}

/-- Calls whose position arguments are in range, and that are not calls meant to change the bucket count. Of the range
insertions only those that insert element by element: all of map and set, input iterators for multimap and multiset. -/
def Ordinary (u : Bool) (t : Table K V) : LOp K V → Prop
  | .insertHint i _ => i ≤ t.size
  | .insertRange fwd _ => u = true ∨ fwd = false
  | .insertOrAssign _ _ => u = true
  | .index _ _ => u = true
  | .at _ => u = true
  | .eraseAt i => i < t.size
  | .eraseRange i n => i + n ≤ t.size
  | .rehash _ => False
  | .reserve _ => False
  | .maxLoadFactor _ => False
  | _ => True

/-- `t'` results from `t` by calls that never leave more than `N` elements in the container -/
inductive Calls (u : Bool) (N : Nat) : Table K V → List (LOp K V) → Table K V → Prop
  | nil (t) : Calls u N t [] t
  | cons {t t1 t2 : Table K V} {op ops res} : Ordinary u t op → t.lstep u op = some (t1, res) → t1.size ≤ N →
      Calls u N t1 ops t2 → Calls u N t (op :: ops) t2

/-- calls that neither insert nor rehash -/
def NoGrow : LOp K V → Prop
  | .insert _ => False
  | .insertHint _ _ => False
  | .insertRange _ _ => False
  | .insertOrAssign _ _ => False
  | .index _ _ => False
  | .rehash _ => False
  | .reserve _ => False
  | .maxLoadFactor _ => False
  | _ => True

theorem withNode_same {t : Table K V} {b' : Gba (K × V)} {n : Nat} (h : b'.size = t.b.size) :
    SameLoad t { t with b := b', size := n } := ⟨rfl, rfl, h⟩

/-- calls that neither insert nor rehash leave the buckets and the load data alone -/
theorem noGrow_same {u : Bool} {t t' : Table K V} {op : LOp K V} {res : Res K V} (hg : Good u t) (ho : NoGrow op)
    (h : t.lstep u op = some (t', res)) : SameLoad t t' := by
  have hs := hg.inv
  have rd : ∀ {β : Type} {o : Option β} {f : β → Res K V}, o.map (fun e => (t, f e)) = some (t', res) → SameLoad t t' := by
    intro β o f h
    rw [Option.map_eq_some_iff] at h
    obtain ⟨_, _, h2⟩ := h; cases h2; exact .refl t
  cases op <;> simp only [NoGrow] at ho
  case «at» k => exact rd h
  case find k => exact rd h
  case count k => exact rd h
  case contains k => exact rd h
  case equalRange k => exact rd h
  case iterate => exact rd h
  case size => cases h; exact .refl t
  case isEmpty => cases h; exact .refl t
  case erase k =>
    simp only [Table.lstep, Table.opErase] at h
    rw [Option.map_eq_some_iff] at h
    obtain ⟨⟨y, n⟩, h1, h2⟩ := h; cases h2
    split at h1
    · unfold Table.eraseKeyUnique at h1
      dsimp only at h1
      split at h1
      · split at h1
        · cases h1
        · split at h1
          · cases h1; exact .refl t
          · split at h1
            · rename_i e _
              cases h1
              exact withNode_same (Gba.extractNode_size e)
            · cases h1
      · cases h1; exact .refl t
    · rename_i hu
      obtain ⟨t2, gone, f1, f2, _⟩ := eraseKeyEquiv_spec hs hg.law (by
        have : u = false := by simpa using hu
        have g2 := hg.shape
        rw [this] at g2; exact g2) k
      rw [h1] at f1; cases f1
      exact f2.sameLoad
  case eraseAt i =>
    simp only [Table.lstep, Table.opEraseAt] at h
    split at h
    · cases h
    · cases h
    · split at h
      · rename_i e _ _ _ e2
        cases h
        unfold Table.eraseNode at e2
        split at e2
        · cases e2
        · rename_i e
          split at e2
          · cases e2
          · split at e2
            · cases e2
            · cases e2; exact withNode_same (Gba.extractIt_size e)
      · cases h
  case eraseRange i n =>
    simp only [Table.lstep, Table.opEraseRange] at h
    rw [Option.map_eq_some_iff] at h
    obtain ⟨y, h1, h2⟩ := h; cases h2
    have key : ∀ (rem : Nat) (t t' : Table K V) (b : BIt) (i : Nat), Table.eraseRangeLoop rem t b i = some t' → SameLoad t t' := by
      intro rem
      induction rem with
      | zero => intro t t' b i h; cases h; exact .refl t
      | succ rem ih =>
        intro t t' b i h
        unfold Table.eraseRangeLoop at h
        split at h
        · cases h
        · split at h
          · cases h
          · split at h
            · cases h
            · dsimp only at h
              split at h
              · split at h
                · cases h
                · split at h
                  · cases h
                  · rename_i b'' e
                    refine SameLoad.trans ?_ (ih _ _ _ _ h)
                    have : b''.size = t.b.size := by
                      split at e
                      · have := Gba.unlinkBucket_size e; exact this
                      · cases e; rfl
                    exact withNode_same (t := t) (n := t.size - 1) this
              · refine SameLoad.trans ?_ (ih _ _ _ _ h)
                exact ⟨rfl, rfl, rfl⟩
    split at h1
    · cases h1
    · unfold Table.eraseRange at h1
      split at h1
      · split at h1
        · cases h1; exact .refl t
        · cases h1
      · exact key _ _ _ _ _ h1
  case extract k =>
    simp only [Table.lstep, Table.opExtract] at h
    rw [Option.map_eq_some_iff] at h
    obtain ⟨⟨y, n⟩, h1, h2⟩ := h; cases h2
    split at h1
    · cases h1
    · cases h1; exact .refl t
    · rw [Option.map_eq_some_iff] at h1
      obtain ⟨⟨y', n'⟩, h1, h2⟩ := h1; cases h2
      unfold Table.extractAt at h1
      split at h1
      · cases h1
      · split at h1
        · cases h1
        · rename_i e
          split at h1
          · cases h1
          · cases h1; exact withNode_same (Gba.extractNode_size e)
  case eraseIf pr =>
    obtain ⟨t2, xs, ys, f1, f2, _⟩ := eraseIf_spec pr hs
    simp only [Table.lstep, f1] at h
    cases h; exact f2.sameLoad
  case clear =>
    obtain ⟨t2, xs, f1, f2, _⟩ := clear_spec hs
    simp only [Table.lstep, f1] at h
    cases h; exact f2.sameLoad

/-- buckets and maximum load factor fit `N` elements -/
structure Fits (N : Nat) (t : Table K V) : Prop where
  ok : MlOk t
  bs : t.b.size = Gba.bucketCountFor (minBuckets N t.mlf)

theorem Grown.stable {t t' : Table K V} {N : Nat} (hs : SInv t) (hf : Fits N t) (hN : N ≤ sizeMax) (h : Grown t t')
    (h2 : t'.size ≤ N) : t'.b.size = t.b.size ∧ t'.size = t.size + 1 ∧ t'.mlf = t.mlf := by
  obtain ⟨t1, g1, g2, g3, g4⟩ := h
  have hk : t1.size = t.size := by
    unfold Table.growForOne at g1
    split at g1
    · obtain ⟨t1', h1, h2, _⟩ := rehash_spec hs (minBuckets (t.size + 1) t.mlf)
      have h1' : t.reserve (t.size + 1) = some t1' := h1
      rw [g1] at h1'; cases h1'
      exact h2.size
    · cases g1; rfl
  have := growForOne_stable hs hf.ok (by omega) hN hf.bs g1
  subst this
  exact ⟨g2, g3, g4⟩

theorem Fits.next {N : Nat} {t t' : Table K V} (h : Fits N t) (hok : MlOk t') (hb : t'.b.size = t.b.size) (hm : t'.mlf = t.mlf) :
    Fits N t' := ⟨hok, by rw [hb, hm]; exact h.bs⟩

theorem good_R {u : Bool} {t : Table K V} (h : Good u t) : R u t ⟨t.fns.eq, t.al, t.contents, true⟩ :=
  ⟨h.inv, h.law, rfl, rfl, fun _ => h.shape, fun _ => List.Perm.refl _⟩

theorem R.good {u : Bool} {t : Table K V} {o : SpecC.Obj K V} (h : R u t o) (hd : o.defined = true) : Good u t :=
  ⟨h.inv, h.law, h.shape hd⟩

theorem emplaceUnique_good {t t' : Table K V} {x : K × V} {r} (hg : Good true t) (h : t.emplaceUnique x = some (t', r)) :
    Good true t' := by
  obtain ⟨t1, q, e, b, o', h1, h2, h3, _⟩ := emplaceUnique_refines (good_R hg) rfl x
  rw [h] at h1; cases h1
  exact R.good h3 (Fca.Inserts.defined h2)

theorem emplaceEquiv_good {t t' : Table K V} {x : K × V} {r} (hg : Good false t) (h : t.emplaceEquiv x = some (t', r)) :
    Good false t' := by
  obtain ⟨t1, q, h1, h2, h3, _⟩ := emplaceEquiv_spec hg.inv hg.law hg.shape x
  rw [h] at h1; cases h1
  exact ⟨h2.inv, by rw [h2.fns]; exact hg.law, by rw [h2.fns]; exact h3⟩

theorem rangeUnique_size : ∀ {xs : List (K × V)} {t t' : Table K V}, Good true t → Table.insertRangeUnique xs t = some t' →
    t.size ≤ t'.size := by
  intro xs
  induction xs with
  | nil => intro t t' _ h; cases h; exact Nat.le_refl _
  | cons x xs ih =>
    intro t t' hg h
    unfold Table.insertRangeUnique at h
    split at h
    · cases h
    · rename_i t1 r e
      have hg1 := emplaceUnique_good hg e
      refine Nat.le_trans ?_ (ih hg1 h)
      obtain ⟨t2, q, e', b, o', h1, h2, h3, _⟩ := emplaceUnique_refines (good_R hg) rfl x
      rw [e] at h1; cases h1
      rw [h3.size (Fca.Inserts.defined h2), hg.inv.len]
      rcases h2 with ⟨_, _, _, rfl⟩ | ⟨_, _, _, rfl⟩ <;> simp

theorem rangeEquiv1_size : ∀ {xs : List (K × V)} {t t' : Table K V}, Good false t → Table.insertRangeEquiv1 xs t = some t' →
    t.size ≤ t'.size := by
  intro xs
  induction xs with
  | nil => intro t t' _ h; cases h; exact Nat.le_refl _
  | cons x xs ih =>
    intro t t' hg h
    unfold Table.insertRangeEquiv1 at h
    split at h
    · cases h
    · rename_i t1 r e
      have hg1 := emplaceEquiv_good hg e
      refine Nat.le_trans ?_ (ih hg1 h)
      obtain ⟨t2, q, h1, h2, h3, _⟩ := emplaceEquiv_spec hg.inv hg.law hg.shape x
      rw [e] at h1; cases h1
      rw [hg.inv.len, h2.inv.len, h2.perm.length_eq]; simp

theorem rangeUnique_fits {N : Nat} (hN : N ≤ sizeMax) : ∀ {xs : List (K × V)} {t t' : Table K V}, Good true t → Fits N t →
    Table.insertRangeUnique xs t = some t' → t'.size ≤ N → Fits N t' ∧ t'.b.size = t.b.size := by
  intro xs
  induction xs with
  | nil => intro t t' _ hf h _; cases h; exact ⟨hf, rfl⟩
  | cons x xs ih =>
    intro t t' hg hf h hle
    unfold Table.insertRangeUnique at h
    split at h
    · cases h
    · rename_i t1 r e
      have hg1 := emplaceUnique_good hg e
      have hsz := rangeUnique_size hg1 h
      rcases emplaceUnique_grown e with rfl | hgr
      · exact ih hg hf h hle
      · obtain ⟨a1, a2, a3⟩ := hgr.stable hg.inv hf hN (by omega)
        obtain ⟨b1, b2⟩ := ih hg1 (hf.next (emplaceUnique_ok e hf.ok) a1 a3) h hle
        exact ⟨b1, b2.trans a1⟩

theorem rangeEquiv1_fits {N : Nat} (hN : N ≤ sizeMax) : ∀ {xs : List (K × V)} {t t' : Table K V}, Good false t → Fits N t →
    Table.insertRangeEquiv1 xs t = some t' → t'.size ≤ N → Fits N t' ∧ t'.b.size = t.b.size := by
  intro xs
  induction xs with
  | nil => intro t t' _ hf h _; cases h; exact ⟨hf, rfl⟩
  | cons x xs ih =>
    intro t t' hg hf h hle
    unfold Table.insertRangeEquiv1 at h
    split at h
    · cases h
    · rename_i t1 r e
      have hg1 := emplaceEquiv_good hg e
      have hsz := rangeEquiv1_size hg1 h
      obtain ⟨a1, a2, a3⟩ := (emplaceEquiv_grown e).stable hg.inv hf hN (by omega)
      obtain ⟨b1, b2⟩ := ih hg1 (hf.next (emplaceEquiv_ok e hf.ok) a1 a3) h hle
      exact ⟨b1, b2.trans a1⟩

theorem insertsAll_defined {u : Bool} {o o' : SpecC.Obj K V} {xs : List (K × V)} (h : SpecC.InsertsAll u o xs o') :
    o'.defined = o.defined := by
  induction h with
  | nil => rfl
  | cons h1 _ ih => exact ih.trans (Fca.Inserts.defined h1)

theorem call_good {u : Bool} {t t' : Table K V} {op : LOp K V} {res : Res K V} (hg : Good u t) (ho : Ordinary u t op)
    (h : t.lstep u op = some (t', res)) : Good u t' := by
  have hr := good_R hg
  have hp : SpecC.LPre u ⟨t.fns.eq, t.al, t.contents, true⟩ op := by
    have hl := hg.inv.len
    cases op <;> simp only [Ordinary] at ho <;> simp only [SpecC.LPre] <;>
      first | trivial | exact ⟨trivial, ho⟩ | (refine ⟨trivial, ?_⟩; rw [← hl]; exact ho)
  obtain ⟨t1, r1, o', h1, h2, h3⟩ := lstep_refines hr op hp
  rw [h] at h1; cases h1
  refine R.good h3 ?_
  cases op <;> simp only [SpecC.LStep] at h2
  case insertRange => exact insertsAll_defined h2.1
  all_goals grind [SpecC.Inserts, Inserts.defined]

theorem call_fits {u : Bool} {N : Nat} (hN : N ≤ sizeMax) {t t' : Table K V} {op : LOp K V} {res : Res K V} (hg : Good u t)
    (hf : Fits N t) (ho : Ordinary u t op) (h : t.lstep u op = some (t', res)) (hle : t'.size ≤ N) :
    Fits N t' ∧ t'.b.size = t.b.size := by
  have hok : MlOk t' := lstep_ok hg.inv (fun _ => Or.inl ⟨hg.law, hg.shape⟩) h hf.ok
  by_cases h1 : SingleInsert op
  · rcases single_cases h1 h with ⟨a1, a2, a3⟩ | hgr
    · exact ⟨hf.next hok a1 a3, a1⟩
    · obtain ⟨a1, a2, a3⟩ := hgr.stable hg.inv hf hN hle
      exact ⟨hf.next hok a1 a3, a1⟩
  · by_cases h2 : NoGrow op
    · have := noGrow_same hg h2 h
      exact ⟨hf.next hok this.bs this.mlf, this.bs⟩
    · cases op <;> simp only [SingleInsert, NoGrow, Ordinary, not_true_eq_false] at ho h1 h2
      case insertRange fwd xs =>
        simp only [Table.lstep, Table.opInsertRange] at h
        rw [Option.map_eq_some_iff] at h
        obtain ⟨y, e1, e2⟩ := h; cases e2
        cases u with
        | true => exact rangeUnique_fits hN hg hf (by simpa using e1) hle
        | false =>
          have : fwd = false := by simpa using ho
          subst this
          exact rangeEquiv1_fits hN hg hf (by simpa using e1) hle

theorem calls_fits {u : Bool} {N : Nat} (hN : N ≤ sizeMax) {t t' : Table K V} {ops : List (LOp K V)} (h : Calls u N t ops t') :
    Good u t → Fits N t → t'.b.size = t.b.size := by
  induction h with
  | nil t => intro _ _; rfl
  | cons ho hs hle _ ih =>
    intro hg hf
    obtain ⟨a1, a2⟩ := call_fits hN hg hf ho hs hle
    exact (ih (call_good hg ho hs) a1).trans a2

/-- C47 (partial). `reserve(n)` on any reachable unordered_map/set/multimap/multiset, with any maximum load factor, followed by
any sequence of calls that insert elements one at a time (insert, emplace, hints, insert_or_assign, operator[], ranges of
map/set, input ranges), erase or read, and that never take the container above `max(n, size())` elements: `bucket_count()`
stays what it was after `reserve`, so no rehash happens.
Missing: node insertion, merge and forward ranges of multimap/multiset, for which it is false (the two theorems below); and
containers that are the target of a copy assignment that propagates an unequal allocator (C19, C23). -/
theorem C47_reserve_then_insert_no_rehash_partial (c : MCfg K V) (t : Table K V) (h : ReachableNP c t) (n : Nat) (t0 : Table K V)
    (hr : t.reserve n = some t0) (hn : max n t.size ≤ sizeMax) (ops : List (LOp K V)) (t' : Table K V)
    (hc : Calls c.u (max n t.size) t0 ops t') : t'.bucketCount = t0.bucketCount := by
  obtain ⟨hg, hok⟩ := h.good
  obtain ⟨t1, h1, h2, h3⟩ := rehash_spec hg.inv (minBuckets n t.mlf)
  have h1' : t.reserve n = some t1 := h1
  rw [hr] at h1'; cases h1'
  have hg0 : Good c.u t0 := ⟨h2.inv, by rw [h2.fns]; exact hg.law, by rw [h2.fns]; exact h2.shape _ hg.law hg.shape⟩
  refine calls_fits hn hc hg0 ⟨reserve_ok hr hok, ?_⟩
  rw [h3, h2.mlf]
  congr 1
  rcases Nat.le_total n t.size with hle | hle
  · rw [Nat.max_eq_left (minBuckets_mono _ hle), Nat.max_eq_right hle]
  · rw [Nat.max_eq_right (minBuckets_mono _ hle), Nat.max_eq_left hle]

set_option synthInstance.maxSize 100000 in
set_option maxRecDepth 100000 in
/-- the hypotheses are met, with the awkward maximum load factor 0.886792421...: `reserve(47)` gives 53 buckets, and 46 and then
one more element can be inserted, one erased and another inserted without a rehash -/
example : ∃ (t t0 t' : Table Nat Nat) (ops : List (LOp Nat Nat)), ReachableNP uniq t ∧ t.reserve 47 = some t0 ∧
    max 47 t.size ≤ sizeMax ∧ Calls true (max 47 t.size) t0 ops t' ∧ t.bucketCount = 0 ∧ t0.bucketCount = 53 ∧
    t'.size = 47 ∧ t'.bucketCount = 53 := by
  obtain ⟨t, h1, h2⟩ := reach_easy uniq [.on 0 (.maxLoadFactor (some badMlf))]
    (by simp [Easy, EasyL]) 0
    (f := fun t => (t.size, t.bucketCount, (t.reserve 47).bind (fun t0 =>
      (t0.lstep true (.insertRange true ((List.range 46).map (fun i => (i, 0))))).bind (fun p1 =>
      (p1.1.lstep true (.insert (46, 0))).bind (fun p2 =>
      (p2.1.lstep true (.erase 3)).bind (fun p3 =>
      (p3.1.lstep true (.index 50 0)).map (fun p4 =>
        (t0.bucketCount, p1.1.size, p2.1.size, p3.1.size, p4.1.size, p4.1.bucketCount))))))))
    (y := (0, 0, some (53, 46, 47, 46, 47, 53))) (by decide +kernel)
  injection h2 with h2 h3
  injection h3 with h3 h4
  simp only [Option.bind_eq_some_iff, Option.map_eq_some_iff] at h4
  obtain ⟨t0, e0, ⟨t1, r1⟩, e1, ⟨t2, r2⟩, e2, ⟨t3, r3⟩, e3, ⟨t4, r4⟩, e4, e5⟩ := h4
  simp only [Prod.mk.injEq] at e5
  obtain ⟨a0, a1, a2, a3, a4, a5⟩ := e5
  have hm : max 47 t.size = 47 := by omega
  refine ⟨t, t0, t4, [.insertRange true ((List.range 46).map (fun i => (i, 0))), .insert (46, 0), .erase 3, .index 50 0],
    .of_no_pocca rfl h1, e0, by rw [hm]; decide, ?_, h3, a0, a4, a5⟩
  rw [hm]
  exact .cons (Or.inl rfl) e1 (by omega) (.cons trivial e2 (by omega) (.cons trivial e3 (by omega)
    (.cons rfl e4 (by omega) (.nil _))))

set_option synthInstance.maxSize 100000 in
set_option maxRecDepth 100000 in
/-- Negative result for C47: `reserve(47)` was called and the container has 46 elements, in 53 buckets; inserting a node
extracted from another container, or merging one, rehashes to 97 buckets: these calls compare with a stored maximum load that,
through rounding, is 46. -/
theorem C47_node_insertion_rehashes_after_reserve :
    ∃ s s1 s2 outs o1 o2, Fca.run uniq [.on 0 (.maxLoadFactor (some badMlf)), .on 0 (.reserve 47),
        .on 0 (.insertRange false ((List.range 46).map (fun i => (i, 0)))), .on 1 (.insert (100, 0))]
        (Fca.start sampleHash natEq) = some (s, outs) ∧ (s 0).size = 46 ∧ (s 0).bucketCount = 53 ∧
      Fca.step uniq s (.transfer 0 1 100) = some (s1, o1) ∧ (s1 0).size = 47 ∧ (s1 0).bucketCount = 97 ∧
      Fca.step uniq s (.merge 0 1) = some (s2, o2) ∧ (s2 0).size = 47 ∧ (s2 0).bucketCount = 97 := by
  have h : ((Fca.run uniq [.on 0 (.maxLoadFactor (some badMlf)), .on 0 (.reserve 47),
        .on 0 (.insertRange false ((List.range 46).map (fun i => (i, 0)))), .on 1 (.insert (100, 0))]
        (Fca.start sampleHash natEq)).bind (fun p =>
      (Fca.step uniq p.1 (.transfer 0 1 100)).bind (fun p1 =>
      (Fca.step uniq p.1 (.merge 0 1)).map (fun p2 =>
        ((p.1 0).size, (p.1 0).bucketCount, (p1.1 0).size, (p1.1 0).bucketCount, (p2.1 0).size, (p2.1 0).bucketCount))))) =
      some (46, 53, 47, 97, 47, 97) := by decide +kernel
  simp only [Option.bind_eq_some_iff, Option.map_eq_some_iff] at h
  obtain ⟨⟨s, o⟩, e0, ⟨s1, o1⟩, e1, ⟨s2, o2⟩, e2, e3⟩ := h
  simp only [Prod.mk.injEq] at e3
  obtain ⟨a0, a1, a2, a3, a4, a5⟩ := e3
  exact ⟨s, s1, s2, o, o1, o2, e0, a0, a1, e1, a2, a3, e2, a4, a5⟩

set_option synthInstance.maxSize 100000 in
set_option maxRecDepth 100000 in
/-- Negative result for C47: after `reserve(47)` on an empty multimap, inserting a forward range of 47 elements rehashes. -/
theorem C47_forward_range_rehashes_after_reserve :
    ∃ s s1 outs o1, Fca.run multi [.on 0 (.maxLoadFactor (some badMlf)), .on 0 (.reserve 47)]
        (Fca.start sampleHash natEq) = some (s, outs) ∧ (s 0).size = 0 ∧ (s 0).bucketCount = 53 ∧
      Fca.step multi s (.on 0 (.insertRange true ((List.range 47).map (fun i => (i, 0))))) = some (s1, o1) ∧
      (s1 0).size = 47 ∧ (s1 0).bucketCount = 97 := by
  have h : ((Fca.run multi [.on 0 (.maxLoadFactor (some badMlf)), .on 0 (.reserve 47)]
        (Fca.start sampleHash natEq)).bind (fun p =>
      (Fca.step multi p.1 (.on 0 (.insertRange true ((List.range 47).map (fun i => (i, 0)))))).map (fun p1 =>
        ((p.1 0).size, (p.1 0).bucketCount, (p1.1 0).size, (p1.1 0).bucketCount)))) =
      some (0, 53, 47, 97) := by decide +kernel
  simp only [Option.bind_eq_some_iff, Option.map_eq_some_iff] at h
  obtain ⟨⟨s, o⟩, e0, ⟨s1, o1⟩, e1, e3⟩ := h
  simp only [Prod.mk.injEq] at e3
  obtain ⟨a0, a1, a2, a3⟩ := e3
  exact ⟨s, s1, o, o1, e0, a0, a1, e1, a2, a3⟩

end Props.Closed

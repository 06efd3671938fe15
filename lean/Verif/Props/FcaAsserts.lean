/-
Property theorems C65: the library's own assertions on sizes and loads in the closed-addressing containers.
-/
import Verif.Props.FcaMap
import Verif.Fca.Asserts

namespace Props.Closed
open Fca
open Spec (Res Traits)
open SpecC (Op LOp)
open Props (sampleHash natEq pairEq sample_lawful)
variable {K V : Type}

theorem fillRangeA_ok : ∀ (xs : List (K × V)) (t : Table K V) (b' : Gba (K × V)), Table.fillEquiv t.fns xs t.b = some b' →
    t.size + xs.length ≤ t.maxLoad → Table.fillRangeA xs t = .ok { t with b := b', size := t.size + xs.length }
  | [], t, b', h, _ => by
    simp only [Table.fillEquiv] at h; cases h; rfl
  | x :: xs, t, b', h, hl => by
    simp only [List.length_cons] at hl
    unfold Table.fillEquiv at h
    unfold Table.fillRangeA Table.emplaceNoRehashA
    rw [if_pos (by omega)]
    dsimp only at h ⊢
    cases e : t.b.get (t.b.at_ (t.b.position (t.fns.hash x.1))) with
    | none => rw [e] at h; cases h
    | some l =>
      rw [e] at h
      dsimp only at h ⊢
      cases e2 : t.b.insertNodeHint (t.b.at_ (t.b.position (t.fns.hash x.1))) x (l.findIdx? (fun e => t.fns.eq x.1 e.1)) with
      | none => rw [e2] at h; cases h
      | some nb =>
        rw [e2] at h
        dsimp only at h ⊢
        rw [fillRangeA_ok xs { t with b := nb, size := t.size + 1 } b' h (by dsimp only; omega)]
        simp only [List.length_cons]
        congr 2; omega

theorem fillRangeA_fails : ∀ (xs : List (K × V)) (t : Table K V) (b' : Gba (K × V)), Table.fillEquiv t.fns xs t.b = some b' →
    t.maxLoad < t.size + xs.length → xs ≠ [] → Table.fillRangeA xs t = .fails
  | [], t, b', h, _, hne => absurd rfl hne
  | x :: xs, t, b', h, hl, _ => by
    simp only [List.length_cons] at hl
    unfold Table.fillEquiv at h
    unfold Table.fillRangeA Table.emplaceNoRehashA
    by_cases hroom : t.size + 1 ≤ t.maxLoad
    · rw [if_pos hroom]
      dsimp only at h ⊢
      cases e : t.b.get (t.b.at_ (t.b.position (t.fns.hash x.1))) with
      | none => rw [e] at h; cases h
      | some l =>
        rw [e] at h
        dsimp only at h ⊢
        cases e2 : t.b.insertNodeHint (t.b.at_ (t.b.position (t.fns.hash x.1))) x (l.findIdx? (fun e => t.fns.eq x.1 e.1)) with
        | none => rw [e2] at h; cases h
        | some nb =>
          rw [e2] at h
          dsimp only at h ⊢
          refine fillRangeA_fails xs { t with b := nb, size := t.size + 1 } b' h (by dsimp only; omega) ?_
          intro hnil; subst hnil
          simp only [List.length_nil] at hl; omega
    · rw [if_neg hroom]

theorem range_unfold {t : Table K V} (hs : SInv t) (hl : FLawful t.fns) (hsh : Shape false t.fns t.b) {xs : List (K × V)}
    (h2 : 2 ≤ xs.length) : ∃ t1 b', t.reserveForInsert (t.size + xs.length) = some t1 ∧ Kept t t1 ∧
      Table.fillEquiv t1.fns xs t1.b = some b' ∧
      t.insertRangeEquiv xs = some { t1 with b := b', size := t1.size + xs.length } ∧
      t.insertRangeEquivA xs = Table.fillRangeA xs t1 := by
  match xs, h2 with
  | x :: y :: ys, h2 =>
    obtain ⟨t1, g1, g2, g3⟩ := reserveForInsert_spec hs (t.size + (x :: y :: ys).length)
    obtain ⟨t', e1, e2, e3⟩ := insertRangeEquiv_spec (x :: y :: ys) hs hl hsh
    unfold Table.insertRangeEquiv at e1 ⊢
    unfold Table.insertRangeEquivA
    dsimp only at e1 ⊢
    rw [g1] at e1 ⊢
    dsimp only at e1 ⊢
    rw [Option.map_eq_some_iff] at e1
    obtain ⟨b', e4, e5⟩ := e1
    exact ⟨t1, b', rfl, g2, e4, by rw [e4]; rfl, rfl⟩

/-- C65 (range insertion, part). In a build with assertions, inserting a forward range into a multimap or multiset does what
it does without assertions, provided the resulting number of elements is below 2^24 and needs at most 2^24 - 2 buckets.
Missing: larger ranges, for which it is false (`C65_forward_range_assertion_fails`). -/
theorem C65_forward_range_partial (c : MCfg K V) (hu : c.u = false) (t : Table K V) (h : Reachable c t) (xs : List (K × V))
    (hn : Modest (t.size + xs.length) t.mlf) :
    ∃ t', t.insertRangeEquiv xs = some t' ∧ t.insertRangeEquivA xs = .ok t' := by
  have hg := h.good
  rw [hu] at hg
  by_cases h2 : 2 ≤ xs.length
  · obtain ⟨t1, b', e1, e2, e3, e4, e5⟩ := range_unfold hg.inv hg.law hg.shape h2
    refine ⟨_, e4, ?_⟩
    rw [e5]
    exact fillRangeA_ok _ _ _ e3 (by rw [e2.size]; exact reserveForInsert_maxLoad hg.inv hn e1)
  · obtain ⟨t', e1, _⟩ := insertRangeEquiv_spec xs hg.inv hg.law hg.shape
    refine ⟨t', e1, ?_⟩
    match xs, h2 with
    | [], _ => unfold Table.insertRangeEquiv at e1; cases e1; rfl
    | [x], _ =>
      unfold Table.insertRangeEquiv at e1
      unfold Table.insertRangeEquivA
      dsimp only at e1 ⊢
      rw [e1]; rfl
    | _ :: _ :: _, h2 => simp at h2

/-- the case of the negative results: rounding the request loses three elements, the next bucket count gains back two -/
theorem rounded_request :
    maxLoadFor (some one) (Gba.bucketCountFor (insertBuckets 201326612 (some one) 0)) = 201326611 := by decide +kernel

theorem reserve_rounded {t t1 : Table K V} (hs : SInv t) (h0 : t.b.size = 0) (hm : t.mlf = some one)
    (h : t.reserveForInsert 201326612 = some t1) : t1.maxLoad = 201326611 := by
  unfold Table.reserveForInsert at h
  rw [if_pos (by rw [hs.ml h0]; omega)] at h
  have hb : insertBuckets 201326612 t.mlf t.bucketCount ≠ 0 := by unfold insertBuckets; omega
  have h' := h
  unfold Table.rehashImpl at h'
  obtain ⟨t2, e1, e2, e3, _⟩ := rehashImpl_spec hs (Or.inl hb)
  rw [h] at e1; cases e1
  have hml : t1.maxLoad = maxLoadFor t.mlf t1.b.size := by
    split at h' <;> try exact absurd h' (by simp)
    all_goals (try split at h') <;> first | (cases h'; rfl) | exact absurd h' (by simp)
  rw [hml, e3, hm]
  have : t.bucketCount = 0 := h0
  rw [this]
  exact rounded_request

/-- Negative result for C65: inserting a forward range of 201326612 elements into a default-constructed multimap or multiset
fails the library's assertion `size_ + 1 <= max_load_`, whatever the elements and the hash function: the request for buckets
is computed in `float`, which rounds it down. -/
theorem C65_forward_range_assertion_fails (h : K → Nat) (e : K → K → Bool) (hl : Spec.Lawful h e) (xs : List (K × V))
    (hn : xs.length = 201326612) : ((Fca.start h e : Nat → Table K V) 0).insertRangeEquivA xs = .fails := by
  have hr := start_rs (V := V) false hl 0
  have hs := hr.inv
  have hsh : Shape false ((Fca.start h e : Nat → Table K V) 0).fns ((Fca.start h e : Nat → Table K V) 0).b := hr.shape rfl
  obtain ⟨t1, b', e1, e2, e3, _, e5⟩ := range_unfold hs hr.law hsh (xs := xs) (by omega)
  rw [e5]
  have h0 : ((Fca.start h e : Nat → Table K V) 0).size = 0 := rfl
  rw [h0, hn, Nat.zero_add] at e1
  have := reserve_rounded hs rfl rfl e1
  refine fillRangeA_fails _ _ _ e3 (by rw [e2.size, h0, hn, this]; omega) ?_
  intro hnil; rw [hnil] at hn; simp at hn

/-! ### move assignment with unequal allocators that do not propagate -/

theorem assign_unfold {u : Bool} {t x : Table K V} (hs : SInv t) (hx : SInv x) (hlx : FLawful x.fns)
    (hsh : Shape u x.fns x.b) (mv : K × V → K × V) (hne : t.al ≠ x.al) :
    ∃ t1 t', (if 0 < x.size then
          ({ t with mlf := x.mlf, maxLoad := maxLoadFor x.mlf t.bucketCount } : Table K V).reserveForInsert x.size
        else some { t with mlf := x.mlf, maxLoad := maxLoadFor x.mlf t.bucketCount }) = some t1 ∧ t1.mlf = x.mlf ∧
      Table.moveAssign false u mv t x = some t' ∧
      Table.moveAssignA false u mv t x = if x.size ≤ t1.maxLoad then .ok t' else .fails := by
  have hc : ¬ (false = true ∨ t.al = x.al) := fun h => h.elim (by simp) hne
  have hs0 : SInv ({ t with mlf := x.mlf, maxLoad := maxLoadFor x.mlf t.bucketCount } : Table K V) :=
    ⟨hs.wf, hs.mal, hs.len, fun h => by show maxLoadFor x.mlf t.b.size = 0; rw [show t.b.size = 0 from h]; rfl⟩
  obtain ⟨t', x', e1, _⟩ := moveAssign_spec (pocma := false) hs hx hlx hsh mv
  unfold Table.moveAssign at e1 ⊢
  unfold Table.moveAssignA
  rw [if_neg hc] at e1 ⊢
  rw [if_neg hc]
  dsimp only at e1 ⊢
  generalize ht0 : ({ t with mlf := x.mlf, maxLoad := maxLoadFor x.mlf t.bucketCount } : Table K V) = t0 at e1 hs0 ⊢
  have hm0 : t0.mlf = x.mlf := by rw [← ht0]
  have hk : ∃ t1, (if 0 < x.size then t0.reserveForInsert x.size else some t0) = some t1 ∧ Kept t0 t1 := by
    by_cases h : 0 < x.size
    · obtain ⟨t1, g1, g2, _⟩ := reserveForInsert_spec hs0 x.size
      exact ⟨t1, by rw [if_pos h]; exact g1, g2⟩
    · exact ⟨t0, by rw [if_neg h], Kept.refl hs0⟩
  obtain ⟨t1, g1, g2⟩ := hk
  rw [g1] at e1 ⊢
  dsimp only at e1 ⊢
  obtain ⟨t2, ys, c1, c2, c3⟩ := clear_spec g2.inv
  rw [c1] at e1 ⊢
  have hz : t2.size = 0 := by rw [c2.inv.len, c3]; rfl
  refine ⟨t1, (t', x'), rfl, g2.mlf.trans hm0, e1, ?_⟩
  dsimp only
  rw [c2.maxLoad]
  by_cases hle : x.size ≤ t1.maxLoad
  · rw [if_pos ⟨hz, hle⟩, if_pos hle]
    split at e1
    · rename_i q l j1 j2
      cases j1
      rw [j2]; dsimp only
      split at e1
      · cases e1
      · rename_i b' j3
        rw [j3]; dsimp only
        cases e1; rw [← c2.maxLoad]
    · cases e1
  · rw [if_neg (fun h => hle h.2), if_neg hle]

/-- C65 (move assignment, part). Element-wise move assignment (the allocators are unequal and not propagated) does what it does
without assertions, provided the source has fewer than 2^24 elements and needs at most 2^24 - 2 buckets.
Missing: larger sources, for which it is false (`C65_move_assign_assertion_fails`). -/
theorem C65_move_assign_partial (c : MCfg K V) (t x : Table K V) (h : Reachable c t) (hx : Reachable c x) (pocma : Bool)
    (hn : Modest x.size x.mlf) :
    ∃ r, Table.moveAssign pocma c.u c.mv t x = some r ∧ Table.moveAssignA pocma c.u c.mv t x = .ok r := by
  have hg := h.good
  have hgx := hx.good
  by_cases hc : pocma = true ∨ t.al = x.al
  · obtain ⟨t', x', e1, _⟩ := moveAssign_spec (pocma := pocma) hg.inv hgx.inv hgx.law hgx.shape c.mv
    refine ⟨_, e1, ?_⟩
    unfold Table.moveAssignA
    rw [if_pos hc, e1]; rfl
  · have hp : pocma = false := by
      cases pocma with
      | true => exact absurd (Or.inl rfl) hc
      | false => rfl
    subst hp
    obtain ⟨t1, t', e1, e2, e3, e4⟩ := assign_unfold hg.inv hgx.inv hgx.law hgx.shape c.mv (fun h => hc (Or.inr h))
    refine ⟨t', e3, ?_⟩
    rw [e4, if_pos]
    by_cases h0 : 0 < x.size
    · rw [if_pos h0] at e1
      have hs0 : SInv ({ t with mlf := x.mlf, maxLoad := maxLoadFor x.mlf t.bucketCount } : Table K V) :=
        ⟨hg.inv.wf, hg.inv.mal, hg.inv.len, fun h => by
          show maxLoadFor x.mlf t.b.size = 0; rw [show t.b.size = 0 from h]; rfl⟩
      exact reserveForInsert_maxLoad hs0 hn e1
    · omega

/-- a container with as many elements as one likes -/
theorem long_reachable (xs : List (Nat × Nat)) :
    ∃ x : Table Nat Nat, Reachable multi x ∧ x.size = xs.length ∧ x.mlf = some one ∧ x.al = 0 := by
  have hr := start_rs (V := Nat) false sample_lawful 0
  obtain ⟨t', e1, e2, e3⟩ := insertRangeEquiv_spec xs hr.inv hr.law (hr.shape rfl)
  have he : ∀ op ∈ [Op.on 0 (LOp.insertRange true xs)], Easy multi.u op := by
    intro op hop
    simp only [List.mem_cons, List.not_mem_nil, or_false] at hop
    subst hop; exact trivial
  have hrun : Fca.run multi [.on 0 (.insertRange true xs)] (Fca.start sampleHash natEq) =
      some (Spec.upd (Fca.start sampleHash natEq) 0 t', [.unit]) := by
    have : (((Fca.start sampleHash natEq : Nat → Table Nat Nat) 0).opInsertRange false true xs) = some t' := e1
    simp only [Fca.run, Fca.step, Table.lstep, multi, this, Option.map_some]
  refine ⟨t', ⟨sampleHash, natEq, _, _, _, 0, sample_lawful, easy_safe _ _ he (start_plain _), hrun, ?_,
    fun a ha => (easy_plain ha he (start_plain _) 0).1⟩, ?_, e2.mlf, e2.al⟩
  · simp [Spec.upd]
  · rw [e2.inv.len, e2.perm.length_eq, List.length_append]
    have : ((Fca.start sampleHash natEq : Nat → Table Nat Nat) 0).contents = [] := hr.inv.contents_nil rfl
    rw [this]; rfl

/-- Negative result for C65: a reachable multimap with 201326612 elements and the default load factor, move-assigned to a
default-constructed one with an unequal allocator that does not propagate, fails the library's assertion
`max_load_ >= src.size_`. -/
theorem C65_move_assign_assertion_fails :
    ∃ x : Table Nat Nat, Reachable multi x ∧ x.size = 201326612 ∧
      ∀ f : Fns Nat, Table.moveAssignA false false id (Table.mk_ f 0 1) x = .fails := by
  obtain ⟨x, hx, h1, h2, h3⟩ := long_reachable (List.replicate 201326612 (0, 0))
  rw [List.length_replicate] at h1
  refine ⟨x, hx, h1, fun f => ?_⟩
  have hg := hx.good
  have hs : SInv (Table.mk_ f 0 1 : Table Nat Nat) := ⟨Or.inl ⟨rfl, fun _ => rfl⟩, fun h => absurd rfl h, rfl, fun _ => rfl⟩
  obtain ⟨t1, t', e1, e2, e3, e4⟩ := assign_unfold (u := false) hs hg.inv hg.law hg.shape id
    (by rw [h3]; show (1 : Nat) ≠ 0; omega)
  rw [e4, if_neg]
  rw [if_pos (by omega), h1] at e1
  have hc : ∀ t0 : Table Nat Nat, SInv t0 → t0.b.size = 0 → t0.mlf = some one → t0.reserveForInsert 201326612 = some t1 →
      t1.maxLoad = 201326611 := fun t0 a b c d => reserve_rounded a b c d
  have := hc _ ?_ ?_ ?_ e1
  · omega
  · exact ⟨hs.wf, hs.mal, hs.len, fun _ => rfl⟩
  · rfl
  · exact h2

/-! ### copies and construction by moving: no restriction -/

theorem rehashImpl_keeps {t t' : Table K V} {n : Nat} (h : t.rehashImpl n = some t') : t'.size = t.size := by
  unfold Table.rehashImpl at h
  split at h <;> try exact absurd h (by simp)
  all_goals (try split at h) <;> first | (cases h; rfl) | exact absurd h (by simp)

theorem reserve_keeps {t t' : Table K V} {n : Nat} (h : t.reserve n = some t') : t'.size = t.size := by
  unfold Table.reserve Table.rehash at h
  dsimp only at h
  split at h
  · exact rehashImpl_keeps h
  · cases h; rfl

/-- C65 (copy construction). No assertion fails. -/
theorem C65_copy_construct (c : MCfg K V) (x : Table K V) (al : Nat) :
    x.copyCtorA c.u al = Chk.of (x.copyCtor c.u al) := by
  unfold Table.copyCtorA Table.copyCtor Table.copyBucketsA
  dsimp only
  split
  · rw [if_pos rfl]
  · rfl

/-- C65 (copy assignment). No assertion fails. -/
theorem C65_copy_assign (c : MCfg K V) (t x : Table K V) (h : Reachable c t) (pocca : Bool) :
    Table.assignA pocca c.u t x = Chk.of (Table.assign pocca c.u t x) := by
  have hg := h.good
  unfold Table.assignA Table.assign Table.copyBucketsA
  split
  · rw [deleteBuckets_spec (t := { t with fns := x.fns }) ⟨hg.inv.wf, hg.inv.mal, hg.inv.len, hg.inv.ml⟩]
    dsimp only
    cases e : ({ fns := x.fns, al := x.al, size := 0, mlf := x.mlf, maxLoad := t.maxLoad, b := Gba.new x.size x.al } :
      Table K V).reserve x.size with
    | none => rfl
    | some t2 =>
      dsimp only
      have := reserve_keeps e
      dsimp only at this
      rw [if_pos this]
      split <;> rfl
  · have hs0 : SInv ({ t with mlf := x.mlf, maxLoad := maxLoadFor x.mlf t.bucketCount } : Table K V) :=
      ⟨hg.inv.wf, hg.inv.mal, hg.inv.len, fun h => by
        show maxLoadFor x.mlf t.b.size = 0; rw [show t.b.size = 0 from h]; rfl⟩
    unfold Table.assignSame
    obtain ⟨t1, g1, g2, _⟩ := reserveForInsert_spec hs0 x.size
    dsimp only
    rw [g1]; dsimp only
    obtain ⟨t2, ys, c1, c2, c3⟩ := clear_spec g2.inv
    rw [c1]; dsimp only
    rw [if_pos (by rw [c2.inv.len, c3]; rfl)]

/-- C65 (move construction with an allocator). No assertion fails: an array for the bucket count of an existing container has
exactly that bucket count. -/
theorem C65_move_construct_alloc (c : MCfg K V) (x : Table K V) (h : Reachable c x) (al : Nat) :
    Table.moveCtorAllocA c.mv x al = Chk.of (Table.moveCtorAlloc c.mv x al) := by
  have hg := h.good
  unfold Table.moveCtorAllocA
  split
  · rfl
  · rename_i hc
    rw [if_pos]
    have h0 : x.b.size ≠ 0 := hg.inv.pos (fun h => hc (Or.inr h))
    obtain ⟨L, hgi⟩ := hg.inv.wf.ginv h0
    show (Gba.new x.b.size al : Gba (K × V)).size = x.b.size
    rw [Gba.new_size]
    unfold Gba.bucketCountFor
    rw [if_neg h0, hgi.sz]
    have : ∀ i < PrimeFmod.sizes.length, PrimeFmod.size (PrimeFmod.sizeIndex (PrimeFmod.size i)) = PrimeFmod.size i := by
      decide +kernel
    exact this _ hgi.idx

/-! The hypotheses can be met. -/

example : ∃ t : Table Nat Nat, Reachable multi t ∧ t.size = 1000 ∧ Modest (t.size + 1000) t.mlf := by
  obtain ⟨x, h1, h2, h3, _⟩ := long_reachable (List.replicate 1000 (0, 0))
  rw [List.length_replicate] at h2
  refine ⟨x, h1, h2, ?_⟩
  rw [h3, h2]
  refine ⟨by norm_num, F32.SC_pos, ?_⟩
  show (1000 + 1000) * F32.SC ≤ F32.SC * (2 ^ 24 - 2)
  rw [Nat.mul_comm]
  exact Nat.mul_le_mul_left _ (by norm_num)

/-- two reachable containers with different allocators, the source with many elements -/
example : ∃ t x : Table Nat Nat, Reachable multi t ∧ Reachable multi x ∧ t.al ≠ x.al ∧ x.size = 1000 ∧ Modest x.size x.mlf := by
  obtain ⟨x, h1, h2, h3, h4⟩ := long_reachable (List.replicate 1000 (0, 0))
  rw [List.length_replicate] at h2
  have hrun : Fca.run multi [.construct 0 sampleHash natEq 1 0] (Fca.start sampleHash natEq) =
      some (Spec.upd (Fca.start sampleHash natEq) 0 (Table.mk_ ⟨sampleHash, natEq⟩ 0 1), [.unit]) := rfl
  refine ⟨Table.mk_ ⟨sampleHash, natEq⟩ 0 1, x, ⟨sampleHash, natEq, _, _, _, 0, sample_lawful,
    show SpecC.Safe multi.u multi.tr multi.veq [.construct 0 sampleHash natEq 1 0] _ from
      ⟨sample_lawful, fun _ _ _ => trivial⟩, hrun, ?_, fun a ha => ?_⟩, h1, ?_, h2, ?_⟩
  · simp [Spec.upd]
  · cases ha with
    | cons hstep hrest =>
      cases hrest
      obtain ⟨_, rfl⟩ := hstep
      simp [Spec.upd]
  · rw [h4]; show (1 : Nat) ≠ 0; omega
  · rw [h2, h3]
    refine ⟨by norm_num, F32.SC_pos, ?_⟩
    show 1000 * F32.SC ≤ F32.SC * (2 ^ 24 - 2)
    rw [Nat.mul_comm]
    exact Nat.mul_le_mul_left _ (by norm_num)

/-- ranges as in the negative result exist -/
example : ∃ xs : List (Nat × Nat), xs.length = 201326612 := ⟨List.replicate 201326612 (0, 0), List.length_replicate⟩

end Props.Closed

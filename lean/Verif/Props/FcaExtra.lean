/-
Property theorems C24 (comparison of containers, all families), C41 (erasing by a key stored in the container) and the
negative result on copy assignment with a propagated allocator (C19, C23).
-/
import Verif.Props.FcaMap
import Verif.Fca.Equal

namespace Props.Closed
open Fca
open Spec (Res Traits)
open SpecC (Op LOp EqLawful)
open Props (sampleHash natEq pairEq sample_lawful)
variable {K V : Type}

/-! ### C24 -/

/-- the two element sequences are equal up to order and up to `==` on elements -/
def SameElements (veq : K × V → K × V → Bool) (l1 l2 : List (K × V)) : Prop :=
  ∃ l, l.Perm l2 ∧ List.Forall₂ (fun x y => veq x y = true) l1 l

/-- C24. `operator==` of two unordered_map/set objects (any histories, any hash functions, same key equality) is true exactly
when their iterations show the same elements up to order. -/
theorem C24_equality_unique (c : MCfg K V) (hu : c.u = true) (t o : Table K V) (ht : Reachable c t) (ho : Reachable c o)
    (he : t.fns.eq = o.fns.eq) (veq : K × V → K × V → Bool) (hv : EqLawful t.fns.eq veq) :
    ∃ b l1 l2, Table.equalsUnique veq t o = some b ∧ Table.equalsUnique veq o t = some b ∧
      t.iterate = some l1 ∧ o.iterate = some l2 ∧ (b = true ↔ SameElements veq l1 l2) := by
  have g1 := ht.good
  have g2 := ho.good
  rw [hu] at g1 g2
  obtain ⟨l1, a1, a2, _, _⟩ := iterate_spec g1.inv
  obtain ⟨l2, b1, b2, _, _⟩ := iterate_spec g2.inv
  obtain ⟨b, h1, h2⟩ := equalsUnique_spec g1.inv g1.law g1.shape g2.inv g2.law g2.shape he hv
  obtain ⟨b', h3, h4⟩ := equalsUnique_spec g2.inv g2.law g2.shape g1.inv g1.law g1.shape he.symm (he ▸ hv)
  have hbb : b' = b := by
    rw [Bool.eq_iff_iff, h2, h4, match_iff hv, match_iff hv]
    exact ⟨fun h => ⟨h.1.symm, fun v => (h.2 v).symm⟩, fun h => ⟨h.1.symm, fun v => (h.2 v).symm⟩⟩
  subst hbb
  refine ⟨b', l1, l2, h1, h3, a1, b1, ?_⟩
  rw [h2]
  exact match_perm hv a2.symm b2.symm

/-- C24. The same for unordered_multimap/multiset. -/
theorem C24_equality_multi (c : MCfg K V) (hu : c.u = false) (t o : Table K V) (ht : Reachable c t) (ho : Reachable c o)
    (he : t.fns.eq = o.fns.eq) (veq : K × V → K × V → Bool) (hv : EqLawful t.fns.eq veq) :
    ∃ b l1 l2, Table.equalsEquiv veq t o = some b ∧ Table.equalsEquiv veq o t = some b ∧
      t.iterate = some l1 ∧ o.iterate = some l2 ∧ (b = true ↔ SameElements veq l1 l2) := by
  have g1 := ht.good
  have g2 := ho.good
  rw [hu] at g1 g2
  obtain ⟨l1, a1, a2, _, _⟩ := iterate_spec g1.inv
  obtain ⟨l2, b1, b2, _, _⟩ := iterate_spec g2.inv
  obtain ⟨b, h1, h2⟩ := equalsEquiv_spec g1.inv g1.law g1.shape g2.inv g2.law g2.shape he hv
  obtain ⟨b', h3, h4⟩ := equalsEquiv_spec g2.inv g2.law g2.shape g1.inv g1.law g1.shape he.symm (he ▸ hv)
  have hbb : b' = b := by
    rw [Bool.eq_iff_iff, h2, h4, match_iff hv, match_iff hv]
    exact ⟨fun h => ⟨h.1.symm, fun v => (h.2 v).symm⟩, fun h => ⟨h.1.symm, fun v => (h.2 v).symm⟩⟩
  subst hbb
  refine ⟨b', l1, l2, h1, h3, a1, b1, ?_⟩
  rw [h2]
  exact match_perm hv a2.symm b2.symm

/-- element-wise `==` on pairs of numbers meets the hypothesis -/
theorem pairEq_lawful : EqLawful natEq pairEq := by
  refine ⟨?_, ?_, ?_, ?_⟩
  · intro a; simp [pairEq]
  · intro a b; simp only [pairEq, beq_iff_eq]; exact fun h => h.symm
  · intro a b c; simp only [pairEq, beq_iff_eq]; exact fun h1 h2 => h1.trans h2
  · intro a b; simp only [pairEq, natEq, beq_iff_eq]; rintro rfl; rfl

set_option maxRecDepth 100000 in
/-- both answers occur -/
example : ((Fca.run multi [.on 0 (.insertRange true [(1, 1), (1, 2), (2, 3)]), .on 1 (.insertRange false [(2, 3), (1, 2), (1, 1)]),
      .on 1 (.rehash 100), .equal 0 1, .on 1 (.insert (1, 2)), .on 0 (.insert (1, 1)), .equal 0 1]
      (Fca.start sampleHash natEq)).map (fun r => r.2)) =
    some [.unit, .unit, .unit, .bool true, .ins (1, 2) true, .ins (1, 1) true, .bool false] := by decide +kernel

/-- C24. The same for the open-addressing containers. -/
theorem C24_equality_open (c : Foa.MCfg) (x y : Foa.Table K V) (hx : Props.Reachable c x) (hy : Props.Reachable c y)
    (he : x.fns.eq = y.fns.eq) (veq : K × V → K × V → Bool) (hv : EqLawful x.fns.eq veq) :
    ∃ b l1 l2, Foa.Table.equal veq x y = some b ∧ Foa.Table.equal veq y x = some b ∧
      Props.Iterates c x l1 ∧ Props.Iterates c y l2 ∧ (b = true ↔ SameElements veq l1 l2) := by
  have hix := hx.inv
  have hiy := hy.inv
  have key : ∀ (x y : Foa.Table K V), x.Inv → y.Inv → x.fns.eq = y.fns.eq → EqLawful x.fns.eq veq →
      ∃ b, Foa.Table.equal veq x y = some b ∧ (b = true ↔ Match veq x.contents y.contents) := by
    intro x y hx hy he hv
    refine ⟨_, Foa.equal_spec veq hx hy, ?_⟩
    have he' : EqLaw x.fns.eq := ⟨hx.law.refl, hx.law.symm, hx.law.trans⟩
    simp only [Bool.and_eq_true, decide_eq_true_eq, List.all_eq_true, List.any_eq_true]
    constructor
    · rintro ⟨h1, h2⟩
      apply match_of_counts hv _ _ h1
      intro v hvm
      have h3 : x.contents.countP (veq v) ≤ 1 := countP_le_one he' hv v (Foa.contents_pairwise hx)
      obtain ⟨e, he1, _, he2⟩ := h2 v hvm
      have : 0 < y.contents.countP (veq v) := List.countP_pos_iff.mpr ⟨e, he1, he2⟩
      omega
    · intro h
      refine ⟨(h.counts hv).1, fun v hvm => ?_⟩
      have h0 := (h.counts hv).2 v
      have h1 : 0 < x.contents.countP (veq v) := List.countP_pos_iff.mpr ⟨v, hvm, hv.refl v⟩
      obtain ⟨e, he1, he2⟩ := List.countP_pos_iff.mp (by omega : 0 < y.contents.countP (veq v))
      exact ⟨e, he1, by rw [← he]; exact hv.key _ _ he2, he2⟩
  obtain ⟨b, h1, h2⟩ := key x y hix hiy he hv
  obtain ⟨b', h3, h4⟩ := key y x hiy hix he.symm (he ▸ hv)
  have hbb : b' = b := by
    rw [Bool.eq_iff_iff, h2, h4, match_iff hv, match_iff hv]
    exact ⟨fun h => ⟨h.1.symm, fun v => (h.2 v).symm⟩, fun h => ⟨h.1.symm, fun v => (h.2 v).symm⟩⟩
  subst hbb
  exact ⟨b', _, _, h1, h3, Foa.opIterate_eq hix c.regular, Foa.opIterate_eq hiy c.regular, h2⟩

example : ∃ t : Foa.Table Nat Nat, Props.Reachable {} t ∧ t.size = 36 := Props.sample_reachable

/-! ### C41 -/

theorem eraseRunAlias_spec (eq : K → K → Bool) (k : K) : ∀ (ys xs zs : List (K × V)) (f : Nat), ys ≠ [] →
    (∀ y ∈ ys, eq y.1 k = true) → ys.length + 1 ≤ f ∨ (zs = [] ∧ ys.length ≤ f) →
    Table.eraseRunAlias eq k xs.length f (xs ++ (ys ++ zs)) (some (xs.length + (ys.length - 1))) =
      if zs = [] then some (xs, ys.length) else none := by
  intro ys
  induction ys with
  | nil => intro _ _ _ h; exact absurd rfl h
  | cons y ys ih =>
    intro xs zs f _ hy hf
    obtain ⟨f, rfl⟩ : ∃ g, f = g + 1 := ⟨f - 1, by simp only [List.length_cons] at hf; omega⟩
    have e1 : (xs ++ (y :: ys ++ zs))[xs.length]? = some y := by simp
    have e2 : (xs ++ (y :: ys ++ zs)).eraseIdx xs.length = xs ++ (ys ++ zs) := by
      rw [List.eraseIdx_append_of_length_le (Nat.le_refl _)]; simp
    unfold Table.eraseRunAlias
    rw [e1]
    simp only [hy y (List.mem_cons_self ..), if_true, e2]
    cases ys with
    | nil =>
      simp only [List.length_cons, List.length_nil, Nat.zero_add, Nat.sub_self, Nat.add_zero, if_true, List.nil_append]
      cases zs with
      | nil =>
        cases f with
        | zero => simp [Table.eraseRunAlias]
        | succ f => simp [Table.eraseRunAlias]
      | cons z zs =>
        obtain ⟨f, rfl⟩ : ∃ g, f = g + 1 := ⟨f - 1, by
          rcases hf with hf | ⟨hf, _⟩
          · simp only [List.length_cons, List.length_nil] at hf; omega
          · cases hf⟩
        simp [Table.eraseRunAlias]
    | cons y' ys =>
      have h := ih xs zs f (by simp) (fun z hz => hy z (List.mem_cons_of_mem _ hz)) (by
        simp only [List.length_cons] at hf ⊢
        rcases hf with hf | ⟨hf, hf2⟩
        · left; omega
        · right; exact ⟨hf, by omega⟩)
      simp only [List.length_cons] at h ⊢
      rw [if_neg (by omega), if_pos (by omega),
        show xs.length + (ys.length + 1 + 1 - 1) - 1 = xs.length + (ys.length + 1 - 1) by omega, h]
      split <;> simp

/-- C41. `erase(it->first)` (`erase(*it)` for a multiset), i.e. erasing by a reference to a key stored in the container: for
unordered_multimap/multiset the call reads the key after having deleted the element that holds it whenever another
element follows that element in its bucket; only if none does, the call behaves like erasing by a copy of the key. -/
theorem C41_erase_by_stored_key (c : MCfg K V) (hu : c.u = false) (t : Table K V) (h : Reachable c t) (pre post : List (K × V))
    (x : K × V) (hi : t.iterate = some (pre ++ x :: post)) :
    ∃ q l, t.begin_.bind (t.advance pre.length) = some (some q) ∧ t.localIterate (t.bucketOf x.1) = some l ∧ l[q.2]? = some x ∧
      (q.2 + 1 < l.length → t.eraseKeyAlias q = none) ∧
      (q.2 + 1 = l.length → ∃ r, t.eraseKeyEquiv x.1 = some r ∧ t.eraseKeyAlias q = some r) := by
  have hg := h.good
  rw [hu] at hg
  obtain ⟨l, e1, _, e3, _⟩ := iterate_spec hg.inv
  rw [hi] at e1; cases e1
  rcases advance_begin hg.inv (i := pre.length) (by rw [← e3]; simp) with ⟨_, h0⟩ | ⟨L, it, pre', post', g1, g2, g3, g4⟩
  · exfalso; rw [← e3] at h0; simp at h0
  · have hel := g3.elems
    have := iterate_ginv hg.inv g1
    rw [hi] at this
    injection this with this
    rw [hel] at this
    obtain ⟨rfl, rfl⟩ := List.append_inj this.symm g4
    obtain ⟨q, rfl⟩ := g3.some_of_cons
    have hn : Node t.b q x := Node.of_at g3
    obtain ⟨n1, n2⟩ := node_bucket hg.inv hg.law hg.shape.1 hn (hg.law.refl _)
    have hz : t.b.size ≠ 0 := by have := g1.pos; omega
    have hpos : t.pos x.1 < t.b.size := Gba.position_lt g1 _
    have hq : (t.b.chain (t.pos x.1))[q.2]? = some x := by rw [← n2]; exact hn.2
    refine ⟨q, t.b.chain (t.pos x.1), g2, ?_, hq, ?_⟩
    · unfold Table.localIterate; rw [if_neg hz]
      exact Gba.get_of_le g1 (it := ⟨_, none⟩) (Nat.le_of_lt hpos)
    obtain ⟨xs, ys, zs, s1, s2, s3, s4⟩ := contig_split (eqLaw hg.law) x.1 _ (hg.shape.2 (t.pos x.1)).contig
    obtain ⟨r1, r2⟩ := split_index (p := fun e => t.fns.eq x.1 e.1) s2 s4 (i := q.2) (by rw [← s1]; exact hq) (hg.law.refl _)
    have hget : t.b.get (t.bucketFor (t.fns.hash x.1)) = some (t.b.chain (t.pos x.1)) := by
      rw [bucketFor_eq hz]; exact Gba.get_of_le g1 (Nat.le_of_lt hpos)
    have hys : ys ≠ [] := by rintro rfl; simp at r2; omega
    have hfi : (t.b.chain (t.pos x.1)).findIdx? (fun e => t.fns.eq x.1 e.1) = some xs.length := by
      rw [s1]; exact split_findIdx s2 s3 hys
    have hdel := hg.inv.deleteNode (At.size_pos hg.inv g1 g3)
    have hder := g3.deref g1
    -- the part of the group up to the aliased element
    have hsplit : ∃ ys1 ys2, ys = ys1 ++ ys2 ∧ ys1.length = q.2 - xs.length + 1 :=
      ⟨ys.take (q.2 - xs.length + 1), ys.drop (q.2 - xs.length + 1), (List.take_append_drop _ _).symm, by
        rw [List.length_take]; omega⟩
    obtain ⟨ys1, ys2, rfl, hlen⟩ := hsplit
    have hal := eraseRunAlias_spec t.fns.eq x.1 ys1 xs (ys2 ++ zs) (t.b.chain (t.pos x.1)).length
      (by rintro rfl; simp at hlen) (fun y hy => hg.law.symm _ _ (s3 y (List.mem_append_left _ hy))) (by
        rw [s1]; simp only [List.length_append]
        by_cases hc : ys2 ++ zs = []
        · right; exact ⟨hc, by omega⟩
        · left
          have : 0 < (ys2 ++ zs).length := List.length_pos_iff.mpr hc
          simp only [List.length_append] at this; omega)
    have hqe : q.2 = xs.length + (ys1.length - 1) := by omega
    rw [← hqe, ← List.append_assoc ys1, ← s1] at hal
    have hlenc : (t.b.chain (t.pos x.1)).length = q.2 + 1 + (ys2 ++ zs).length := by
      rw [s1]; simp only [List.length_append]; omega
    constructor
    · intro hlt
      rw [if_neg (by intro hc; rw [hc] at hlenc; simp at hlenc; omega)] at hal
      unfold Table.eraseKeyAlias
      simp only [hder, hget, hfi, hdel, hal]
    · intro heq
      have hnil : ys2 ++ zs = [] := List.length_eq_zero_iff.mp (by omega)
      obtain ⟨rfl, rfl⟩ := List.append_eq_nil_iff.mp hnil
      rw [if_pos hnil] at hal
      obtain ⟨t', gone, k1, _⟩ := eraseKeyEquiv_spec hg.inv hg.law hg.shape x.1
      refine ⟨_, k1, ?_⟩
      rw [← k1]
      have hrun := eraseRun_spec (fun e => t.fns.eq e.1 x.1) xs (ys1 ++ []) [] (t.b.chain (t.pos x.1)).length
        (fun y hy => hg.law.symm _ _ (s3 y hy)) (by simp) (by rw [s1]; simp only [List.length_append]; omega)
      rw [← s1] at hrun
      unfold Table.eraseKeyAlias Table.eraseKeyEquiv
      have hsz : 0 < t.size := Nat.pos_of_ne_zero (At.size_pos hg.inv g1 g3)
      simp only [hder, hget, hfi, hdel, hal, hrun, if_pos hsz, List.append_nil]

set_option maxRecDepth 100000 in
/-- C41 is violated: in a multimap holding just two elements with the same key, `erase(begin()->first)` reads freed memory. -/
theorem C41_erase_by_stored_key_use_after_free : ∃ t : Table Nat Nat, Reachable multi t ∧
    t.iterate = some [(1, 1), (1, 2)] ∧ ∃ q, t.begin_ = some (some q) ∧ t.eraseKeyAlias q = none ∧
      (t.eraseKeyEquiv 1).map Prod.snd = some 2 := by
  obtain ⟨t, h1, h2⟩ := reach_easy multi [.on 0 (.insertRange true [(1, 1), (1, 2)])] (by simp [Easy, EasyL]) 0
    (f := fun t => (t.iterate, t.begin_.map (fun it => it.map (fun q => (t.eraseKeyAlias q).isSome)),
      (t.eraseKeyEquiv 1).map Prod.snd))
    (y := (some [(1, 1), (1, 2)], some (some false), some 2)) (by decide +kernel)
  injection h2 with h2 h3
  injection h3 with h3 h4
  refine ⟨t, h1, h2, ?_⟩
  cases hb : t.begin_ with
  | none => rw [hb] at h3; cases h3
  | some it =>
    cases it with
    | none => rw [hb] at h3; cases h3
    | some q =>
      rw [hb] at h3
      simp only [Option.map_some, Option.some.injEq] at h3
      refine ⟨q, rfl, ?_, h4⟩
      cases hc : t.eraseKeyAlias q with
      | none => rfl
      | some r => rw [hc] at h3; cases h3

end Props.Closed

/-
Property theorems C57: growth is amortized constant.
-/
import Verif.Props.FoaMap
import Verif.Props.FcaLoad
import Verif.Fca.Work

namespace Props.Cost
open SpecCost (Work Call inserts)
variable {K V : Type}

theorem total_add (a b : Work) : (a.add b).total = a.total + b.total := by
  unfold Work.add Work.total; dsimp only; omega

/-! ### Open addressing -/

section Foa
open Foa Foa.Cost

/-- C57 (open addressing). Take any reachable container and any interleaving of insertions and erasures by key. The work all
the growths together do (elements moved, groups of old arrays visited, groups of new arrays initialized) is at most 126 per
insertion and 1 per erasure, plus what the container had accumulated before: twice its size plus its bucket count. This holds
although the maximum load drifts down by erasures and a growth may produce arrays of the same size. -/
theorem C57_foa_growth_amortized (c : MCfg) (t : Table K V) (h : Reachable c t) (l : List (Call K V)) :
    ∃ t' w, calls c.toCfg l t = some (t', w) ∧ plain c.toCfg l t = some t' ∧
      w.total ≤ 126 * inserts l + (l.length - inserts l) + 2 * t.size + t.capacity := by
  have key : ∀ (l : List (Call K V)) (t : Table K V), t.Inv → inserts l ≤ l.length ∧
      ∃ t' w, calls c.toCfg l t = some (t', w) ∧ w.total ≤ 126 * inserts l + (l.length - inserts l) + phi t := by
    intro l
    induction l with
    | nil => intro t _; exact ⟨Nat.le_refl _, t, {}, rfl, Nat.zero_le _⟩
    | cons a l ih =>
      intro t hi
      cases a with
      | insert x =>
        obtain ⟨t1, p, b, w1, e1, _, e2, e3⟩ := insert_cost c.toCfg hi x
        obtain ⟨hle, t', w, e4, e5⟩ := ih t1 e2
        refine ⟨by simp only [inserts, List.length_cons]; omega, t', w1.add w, by simp [calls, e1, e4], ?_⟩
        rw [total_add]
        simp only [inserts, List.length_cons]
        omega
      | erase k =>
        obtain ⟨t1, n, e1, e2, e3⟩ := erase_cost hi k
        obtain ⟨hle, t', w, e4, e5⟩ := ih t1 e2
        refine ⟨by simp only [inserts, List.length_cons]; omega, t', w, by simp [calls, e1, e4], ?_⟩
        simp only [inserts, List.length_cons]
        omega
  obtain ⟨_, t', w, h1, h2⟩ := key l t h.inv
  refine ⟨t', w, h1, by rw [← calls_plain, h1]; rfl, ?_⟩
  have := phi_le t
  omega

/-- C57 (insertions only). Into a newly constructed container with room for any number of elements, any sequence of
insertions moves at most two elements for every element the container ends up with. -/
theorem C57_foa_insertions_move_twice (cfg : Cfg) (f : Fns K) (hf : f.Lawful) (al n : Nat) (xs : List (K × V)) :
    ∃ t' w, calls cfg (xs.map Call.insert) (Table.mk_ cfg f al n) = some (t', w) ∧ w.moved ≤ 2 * t'.size := by
  have key : ∀ (xs : List (K × V)) (t : Table K V) (m : Nat), Fresh t m →
      ∃ t' w, calls cfg (xs.map Call.insert) t = some (t', w) ∧ m + w.moved ≤ 2 * t'.size := by
    intro xs
    induction xs with
    | nil => intro t m h; exact ⟨t, {}, rfl, h.le_size⟩
    | cons x xs ih =>
      intro t m h
      obtain ⟨t1, b, w1, e1, e2⟩ := fresh_insert cfg h x
      obtain ⟨t', w, e3, e4⟩ := ih t1 _ e2
      refine ⟨t', w1.add w, by simp [calls, e1, e3], ?_⟩
      show m + (w1.moved + w.moved) ≤ _
      omega
  have h0 : Fresh (Table.mk_ cfg f al n : Table K V) 0 :=
    ⟨mk_inv cfg hf al n, rfl, fun _ => rfl, fun _ => rfl, Nat.zero_le _, Nat.zero_le _⟩
  obtain ⟨t', w, h1, h2⟩ := key xs _ 0 h0
  exact ⟨t', w, h1, by omega⟩

/-- C57 (distance between growths). After an insertion that had to grow a container of `n` elements, any traffic with at most
`n/61` insertions, whatever it erases, leaves the arrays alone: no element is moved, nothing is allocated. -/
theorem C57_foa_growths_apart (c : MCfg) (t : Table K V) (h : Reachable c t) (x : K × V) (t1 : Table K V) (p : Pos)
    (hx : t.emplaceImpl c.toCfg x = some (t1, p, true)) (hfull : ¬ t.size < t.ml) (l : List (Call K V))
    (hl : inserts l ≤ t.size / 61) :
    ∃ t', calls c.toCfg l t1 = some (t', {}) ∧ t'.capacity = t1.capacity := by
  have key : ∀ (l : List (Call K V)) (t : Table K V), t.Inv → t.size + inserts l ≤ t.ml →
      ∃ t', calls c.toCfg l t = some (t', {}) ∧ t'.capacity = t.capacity := by
    intro l
    induction l with
    | nil => intro t _ _; exact ⟨t, rfl, rfl⟩
    | cons a l ih =>
      intro t hi hs
      cases a with
      | insert x =>
        simp only [inserts] at hs
        rcases emplaceImpl_spec c.toCfg hi x with ⟨g, j, y, h1, _, _, _⟩ | ⟨t1, g, j, h1, h2, _, _, _, _, h7, h8, h9⟩
        · obtain ⟨t', e1, e2⟩ := ih t hi (by omega)
          exact ⟨t', by simp [calls, emplaceImplW_eq, h1, e1, Work.add], e2⟩
        · have hs1 : t1.size = t.size + 1 := by rw [h2.size, h7.length_eq, hi.size]; simp
          have hr : t.size < t.ml := by omega
          obtain ⟨m1, m2, m3, _⟩ := h8 hr
          obtain ⟨t', e1, e2⟩ := ih t1 h2 (by omega)
          refine ⟨t', by simp [calls, emplaceImplW_eq, h1, e1, Work.add, hr], e2.trans ?_⟩
          unfold Table.capacity Arrays.capacity; rw [m2, m3]
      | erase k =>
        simp only [inserts] at hs
        rcases hi.find_spec k with ⟨g, j, y, h1, h2, _⟩ | ⟨h1, _⟩
        · obtain ⟨t1, a1, a2, _, _, a5, a6, _, _, a9, a10⟩ := eraseAt_spec hi h2
          have hs1 : t.size = t1.size + 1 := by rw [hi.size, a9.length_eq, a2.size]; simp
          have b3 : t.ml ≤ t1.ml + 1 := by rw [a10]; split <;> omega
          obtain ⟨t', e1, e2⟩ := ih t1 a2 (by omega)
          refine ⟨t', by simp [calls, Table.eraseKey, h1, a1, e1], e2.trans ?_⟩
          unfold Table.capacity Arrays.capacity; rw [a5, a6]
        · obtain ⟨t', e1, e2⟩ := ih t hi hs
          exact ⟨t', by simp [calls, Table.eraseKey, h1, e1], e2⟩
  have hi := h.inv
  rcases emplaceImpl_spec c.toCfg hi x with ⟨g, j, y, h1, _, _, _⟩ | ⟨t1', g, j, h1, h2, _, _, _, _, h7, h8, h9⟩
  · rw [hx] at h1; cases h1
  · rw [hx] at h1; cases h1
    obtain ⟨_, _, a4⟩ := growth_arrays hfull hx
    have a5 := le_maxLoad_slotsFor (t.size + t.size / 61 + 1)
    have hs : t1.size = t.size + 1 := by rw [h2.size, h7.length_eq, hi.size]; simp
    refine key l t1 h2 ?_
    rw [a4, hs]
    unfold growthRequest
    generalize initialMaxLoad (capacityFor (slotsFor (t.size + t.size / 61 + 1))) = M at *
    omega

/-- elements that all collide, then erasures that lower the maximum load from 29 to 19, then one more element -/
def drifting : List (Call Nat Nat) :=
  (List.range 29).map (fun i => Call.insert (3 * i, 0)) ++ (List.range 10).map (fun i => Call.erase (3 * i)) ++
    [.insert (100, 0)]

set_option maxRecDepth 100000 in
/-- a growth that moves 19 elements to new arrays of the same size, within the bound 126*30+10 -/
example : Reachable {} (Foa.start {} sampleHash natEq 0 : Table Nat Nat) ∧
    (calls {} drifting (Foa.start {} sampleHash natEq 0)).map (fun r => (r.2, r.1.size, r.1.capacity)) =
      some (⟨19, 2, 4, 2⟩, 20, 29) ∧ inserts drifting = 30 :=
  ⟨⟨pairEq, sampleHash, natEq, [], _, [], 0, sample_lawful, trivial, rfl, rfl⟩, by decide +kernel, by decide +kernel⟩

set_option maxRecDepth 100000 in
/-- 110 insertions into an empty container: three growths move 29 + 51 + 104 = 184 ≤ 220 elements -/
example : (calls {} ((List.range 110).map (fun i => Call.insert (i, 0))) (Table.mk_ {} ⟨sampleHash, natEq⟩ 0 0)).map
    (fun r => (r.2, r.1.size, r.1.capacity)) = some (⟨184, 14, 30, 4⟩, 110, 239) := by decide +kernel

end Foa

/-! ### Closed addressing -/

section Fca
open Fca Fca.Cost Props.Closed

theorem fca_insert {u : Bool} {t : Table K V} (hg : Good u t) (hm : MlOk t) (h1 : t.mlf = some one) (x : K × V) :
    ∃ t' w, insertW u t x = some (t', w) ∧ Good u t' ∧ MlOk t' ∧ t'.mlf = some one ∧
      w.total + pot t'.size t'.b.size ≤ pot t.size t.b.size + 40 := by
  -- the table is unchanged, or the growth test ran and one element was added
  have base : ∃ t', insertW u t x = some (t', growWork t t') ∧ Good u t' ∧ MlOk t' ∧ t'.mlf = some one ∧
      (t' = t ∨ (Grown t t' ∧ t'.size = t.size + 1)) := by
    cases u with
    | true =>
      rcases emplaceUnique_spec hg.inv hg.law hg.shape x with ⟨q, e, e1, _, _⟩ | ⟨t', q, e1, _, e3, e4, _⟩
      · exact ⟨t, by simp [insertW, emplaceUniqueW_eq, e1], hg, hm, h1, Or.inl rfl⟩
      · refine ⟨t', by simp [insertW, emplaceUniqueW_eq, e1], ⟨e3.inv, by rw [e3.fns]; exact hg.law, by rw [e3.fns]; exact e4⟩,
          emplaceUnique_ok e1 hm, by rw [e3.mlf]; exact h1, ?_⟩
        rcases emplaceUnique_grown e1 with h | h
        · have := e3.size; rw [h] at this; omega
        · exact Or.inr ⟨h, e3.size⟩
    | false =>
      obtain ⟨t', q, e1, e3, e4, _⟩ := emplaceEquiv_spec hg.inv hg.law hg.shape x
      exact ⟨t', by simp [insertW, emplaceEquivW_eq, e1], ⟨e3.inv, by rw [e3.fns]; exact hg.law, by rw [e3.fns]; exact e4⟩,
        emplaceEquiv_ok e1 hm, by rw [e3.mlf]; exact h1, Or.inr ⟨emplaceEquiv_grown e1, e3.size⟩⟩
  obtain ⟨t', b1, b2, b3, b4, b5⟩ := base
  refine ⟨t', _, b1, b2, b3, b4, ?_⟩
  rcases b5 with rfl | ⟨⟨t1, g1, g2, g3, g4⟩, hs⟩
  · simp [growWork, Work.total]
  · unfold growWork
    by_cases hsz : t'.b.size = t.b.size
    · rw [if_pos hsz, hsz, hs]
      have := pot_one t.size t.b.size
      show 0 + 0 + 0 + _ ≤ _
      omega
    · rw [if_neg hsz, h1]
      unfold Table.growForOne at g1
      split at g1
      · rename_i hlt
        obtain ⟨t2, r1, _, r3⟩ := rehash_spec hg.inv (minBuckets (t.size + 1) t.mlf)
        have r1' : t.reserve (t.size + 1) = some t2 := r1
        rw [g1] at r1'; cases r1'
        have hmax : max (minBuckets t.size t.mlf) (minBuckets (t.size + 1) t.mlf) = minBuckets (t.size + 1) t.mlf :=
          Nat.max_eq_right (minBuckets_mono _ (by omega))
        rw [hmax, h1, ← g2] at r3
        have hbc : t.b.size = 0 ∨ ∃ i < 38, t.b.size = PrimeFmod.size i := by
          rcases hg.inv.wf with ⟨h0, _⟩ | ⟨L, hL⟩
          · exact Or.inl h0
          · have l38 : PrimeFmod.sizes.length = 38 := by decide
            exact Or.inr ⟨_, by have := hL.idx; omega, hL.sz⟩
        have htop : t.b.size ≤ top := by
          rcases hbc with h | ⟨i, hi, h⟩
          · omega
          · rw [h]
            have : ∀ i < 38, PrimeFmod.size i ≤ 1649267441651 := by decide +kernel
            exact this i hi
        have hml : t.maxLoad = t.b.size := by
          have : t.maxLoad = maxLoadFor t.mlf t.b.size := hm
          rw [this, h1, maxLoad_one htop]
        rw [hml] at hlt
        obtain ⟨q1, q2, q3, q4⟩ := growth_buckets hbc hlt
        have q5 := bucketCountFor_le_top (minBuckets (t.size + 1) (some one))
        unfold rehashWork newWork
        rw [new_size, Gba.bucketCountFor_idem]
        rw [← r3] at q1 q2 q3 q4 q5 ⊢
        clear hmax hbc hml
        have hlt2 : t.b.size < t'.b.size := Nat.lt_of_le_of_ne q1 (Ne.symm hsz)
        have hpos : t'.b.size ≠ 0 := Nat.pos_iff_ne_zero.mp (Nat.zero_lt_of_lt hlt2)
        rw [if_neg hpos]
        have hlen : t.b.contents.length = t.size := hg.inv.len.symm
        have := pot_growth hlt hlt2 (q2 hlt2) q3 q4 q5
        rw [hs, total_add]
        unfold Work.total
        dsimp only
        rw [hlen]
        omega
      · cases g1; exact absurd g2 hsz

/-- C57 (closed addressing). Take any reachable container with the default maximum load factor 1 (reached without the copy
assignment of finding 1) and any interleaving of insertions and erasures by key. The work all rehashes together do (elements
moved, old buckets visited, new buckets and groups constructed) is at most 40 per insertion, plus 11 times the size the
container had before. Erasures are free. -/
theorem C57_fca_growth_amortized (c : MCfg K V) (t : Table K V) (h : ReachableNP c t) (hm : t.mlf = some one)
    (l : List (Call K V)) :
    ∃ t' w, calls c.u l t = some (t', w) ∧ plain c.u l t = some t' ∧ w.total ≤ 40 * inserts l + 11 * t.size := by
  have key : ∀ (l : List (Call K V)) (t : Table K V), Good c.u t → MlOk t → t.mlf = some one →
      ∃ t' w, calls c.u l t = some (t', w) ∧ w.total ≤ 40 * inserts l + pot t.size t.b.size := by
    intro l
    induction l with
    | nil => intro t _ _ _; exact ⟨t, {}, rfl, Nat.zero_le _⟩
    | cons a l ih =>
      intro t hg hok h1
      cases a with
      | insert x =>
        obtain ⟨t1, w1, e1, e2, e3, e4, e5⟩ := fca_insert hg hok h1 x
        obtain ⟨t', w, e6, e7⟩ := ih t1 e2 e3 e4
        refine ⟨t', w1.add w, by simp [calls, e1, e6], ?_⟩
        rw [total_add]
        simp only [inserts]
        omega
      | erase k =>
        have he : ∃ t1 n gone, (if c.u then t.eraseKeyUnique k else t.eraseKeyEquiv k) = some (t1, n) ∧
            (t1 = t ∨ Removed t gone t1) := by
          cases hu : c.u with
          | true =>
            rw [hu] at hg
            rcases eraseKeyUnique_spec hg.inv hg.law hg.shape.1 k with ⟨e1, _⟩ | ⟨t1, x, e1, e2, _⟩
            · exact ⟨t, 0, [], e1, Or.inl rfl⟩
            · exact ⟨t1, 1, [x], e1, Or.inr e2⟩
          | false =>
            rw [hu] at hg
            obtain ⟨t1, gone, e1, e2, _⟩ := eraseKeyEquiv_spec hg.inv hg.law hg.shape k
            exact ⟨t1, _, gone, e1, Or.inr e2⟩
        obtain ⟨t1, n, gone, e1, e2⟩ := he
        rcases e2 with rfl | e2
        · obtain ⟨t', w, e6, e7⟩ := ih t1 hg hok h1
          exact ⟨t', w, by simp only [calls, e1, e6], e7⟩
        · obtain ⟨t', w, e6, e7⟩ := ih t1 ⟨e2.inv, by rw [e2.fns]; exact hg.law, by rw [e2.fns]; exact e2.shape _ _ hg.law hg.shape⟩
            (e2.sameLoad.ok hok) (by rw [e2.mlf]; exact h1)
          refine ⟨t', w, by simp only [calls, e1, e6], e7.trans ?_⟩
          have := pot_mono t.b.size (show t1.size ≤ t.size by have := e2.size; omega)
          rw [e2.bsize]
          simp only [inserts]
          omega
  obtain ⟨hg, hok⟩ := h.good
  obtain ⟨t', w, h1, h2⟩ := key l t hg hok hm
  refine ⟨t', w, h1, by rw [← calls_plain, h1]; rfl, ?_⟩
  have := pot_le t.size t.b.size
  omega

set_option maxRecDepth 100000 in
/-- the hypotheses are met and the work is not zero: four rehashes when 60 elements are inserted into an empty container -/
example (u : Bool) : ReachableNP ⟨u, ⟨false, false, false⟩, id, pairEq⟩ (Fca.start sampleHash natEq 0 : Table Nat Nat) ∧
    (Fca.start sampleHash natEq 0 : Table Nat Nat).mlf = some one ∧
    (calls u ((List.range 60).map (fun i => Call.insert (i, 0)) ++ [.erase 3, .insert (3, 3)])
      (Fca.start sampleHash natEq 0)).map (fun r => (r.2, r.1.size, r.1.bucketCount)) = some (⟨95, 95, 201, 8⟩, 60, 97) := by
  refine ⟨.of_no_pocca rfl ⟨sampleHash, natEq, [], _, [], 0, sample_lawful, trivial, rfl, rfl, ?_⟩, rfl, ?_⟩
  · rintro a h
    cases h
    rfl
  · cases u <;> decide +kernel

end Fca
end Props.Cost

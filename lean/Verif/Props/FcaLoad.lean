/-
Property theorems C23, C42: load factor of the closed-addressing containers; negative result on copy assignment with a
propagated allocator (C19, C23).
-/
import Verif.Props.FcaMap
import Verif.Fca.LoadBound

namespace Props.Closed
open Fca
open Spec (Res Traits)
open SpecC (Op LOp)
open Props (sampleHash natEq pairEq sample_lawful)
variable {K V : Type}

/-- no copy assignment of the program propagates an unequal allocator -/
def NoPoccaAll (u : Bool) (tr : Traits) (veq : K × V → K × V → Bool) : List (Op K V) → (Nat → SpecC.Obj K V) → Prop
  | [], _ => True
  | op :: ops, a => NoPocca tr a op ∧ ∀ res a', SpecC.Step u tr veq a op res a' → NoPoccaAll u tr veq ops a'

/-- Reachable by a program without copy assignments that propagate an unequal allocator. -/
def ReachableNP (c : MCfg K V) (t : Table K V) : Prop :=
  ∃ (h : K → Nat) (e : K → K → Bool) (ops : List (Op K V)) (s : Nat → Table K V) (outs : List (Res K V)) (r : Nat),
    Spec.Lawful h e ∧ SpecC.Safe c.u c.tr c.veq ops (SpecC.start e) ∧ NoPoccaAll c.u c.tr c.veq ops (SpecC.start e) ∧
    Fca.run c ops (Fca.start h e) = some (s, outs) ∧
    t = s r ∧ ∀ a, SpecC.Run c.u c.tr c.veq (SpecC.start e) ops outs a → (a r).defined = true

/-- With allocators that do not propagate on copy assignment (the default) every reachable container qualifies. -/
theorem ReachableNP.of_no_pocca {c : MCfg K V} {t : Table K V} (hc : c.tr.pocca = false) (h : Reachable c t) :
    ReachableNP c t := by
  obtain ⟨h, e, ops, s, outs, r, h1, h2, h3, h4, h5⟩ := h
  refine ⟨h, e, ops, s, outs, r, h1, h2, ?_, h3, h4, h5⟩
  have : ∀ (ops : List (Op K V)) (a : Nat → SpecC.Obj K V), NoPoccaAll c.u c.tr c.veq ops a := by
    intro ops
    induction ops with
    | nil => intro _; trivial
    | cons op ops ih =>
      intro a
      refine ⟨?_, fun _ _ _ => ih _⟩
      cases op <;> first | trivial | exact Or.inr (Or.inl hc)
  exact this _ _

theorem run_ok (c : MCfg K V) : ∀ (ops : List (Op K V)) (s s' : Nat → Table K V) (a : Nat → SpecC.Obj K V)
    (outs : List (Res K V)), RS c.u s a → SpecC.Safe c.u c.tr c.veq ops a → NoPoccaAll c.u c.tr c.veq ops a →
    (∀ r, MlOk (s r)) → Fca.run c ops s = some (s', outs) → ∀ r, MlOk (s' r)
  | [], s, s', a, outs, _, _, _, h0, h => by
    simp only [Fca.run] at h; cases h; exact h0
  | op :: ops, s, s', a, outs, hr, hs, hn, h0, h => by
    obtain ⟨s1, res, a1, e1, e2, e3⟩ := step_refines c hr op hs.1
    simp only [Fca.run, e1] at h
    rw [Option.map_eq_some_iff] at h
    obtain ⟨⟨s2, o2⟩, h1, h2⟩ := h
    cases h2
    exact run_ok c ops s1 s2 a1 o2 e3 (hs.2 _ _ e2) (hn.2 _ _ e2) (step_ok c hr hs.1 hn.1 e1 h0) h1

theorem ReachableNP.good {c : MCfg K V} {t : Table K V} (h : ReachableNP c t) : Good c.u t ∧ MlOk t := by
  obtain ⟨hf, e, ops, s, outs, r, h1, h2, h3, h4, rfl, h5⟩ := h
  exact ⟨Reachable.good ⟨hf, e, ops, s, outs, r, h1, h2, h4, rfl, h5⟩,
    run_ok c ops _ _ _ _ (start_rs c.u h1) h2 h3 (start_ok hf e) h4 r⟩

/-- `t'` has the buckets of `t` after the growth test of a one-element insertion -/
def Grown (t t' : Table K V) : Prop :=
  ∃ t1, t.growForOne = some t1 ∧ t'.b.size = t1.b.size ∧ t'.size = t1.size + 1 ∧ t'.mlf = t1.mlf

theorem emplaceUnique_grown {t t' : Table K V} {x : K × V} {q : BIt × Nat} {b : Bool}
    (h : t.emplaceUnique x = some (t', q, b)) : t' = t ∨ Grown t t' := by
  unfold Table.emplaceUnique at h
  dsimp only at h
  split at h
  · cases h
  · cases h; exact Or.inl rfl
  · split at h
    · cases h
    · rename_i t1 hg
      split at h
      · cases h
      · rename_i b' hb
        cases h
        exact Or.inr ⟨t1, hg, Gba.insertNode_size hb, rfl, rfl⟩

theorem emplaceEquiv_grown {t t' : Table K V} {x : K × V} {q : BIt × Nat}
    (h : t.emplaceEquiv x = some (t', q)) : Grown t t' := by
  unfold Table.emplaceEquiv at h
  dsimp only at h
  split at h
  · cases h
  · split at h
    · cases h
    · rename_i t1 hg
      split at h
      · cases h
      · split at h
        · cases h
        · rename_i b' hb
          cases h
          exact ⟨t1, hg, Gba.insertNodeHint_size hb, rfl, rfl⟩

theorem emplaceHintUnique_grown {t t' : Table K V} {x : K × V} {hint : It} {q : BIt × Nat}
    (h : t.emplaceHintUnique hint x = some (t', q)) : t' = t ∨ Grown t t' := by
  have base : ∀ {r}, (t.emplaceUnique x).map (fun r => (r.1, r.2.1)) = some r → r.1 = t ∨ Grown t r.1 := by
    intro r hr
    rw [Option.map_eq_some_iff] at hr
    obtain ⟨⟨a, b, c⟩, h1, h2⟩ := hr
    cases h2; exact emplaceUnique_grown h1
  unfold Table.emplaceHintUnique at h
  split at h
  · exact base h
  · split at h
    · cases h
    · split at h
      · cases h; exact Or.inl rfl
      · exact base h

theorem emplaceHintEquiv_grown {t t' : Table K V} {x : K × V} {hint : It} {q : BIt × Nat}
    (h : t.emplaceHintEquiv hint x = some (t', q)) : Grown t t' := by
  unfold Table.emplaceHintEquiv at h
  split at h
  · exact emplaceEquiv_grown h
  · split at h
    · cases h
    · split at h
      · split at h
        · cases h
        · rename_i t1 hg
          split at h
          · dsimp only at h
            split at h
            · split at h
              · split at h
                · cases h
                · rename_i b' hb
                  cases h
                  exact ⟨t1, hg, Gba.insertNodeHint_size hb, rfl, rfl⟩
              · cases h
            · cases h
          · split at h
            · cases h
            · rename_i b' hb
              cases h
              exact ⟨t1, hg, Gba.insertNodeHint_size hb, rfl, rfl⟩
      · exact emplaceEquiv_grown h

/-- the calls that insert at most one element -/
def SingleInsert : LOp K V → Prop
  | .insert _ => True
  | .insertHint _ _ => True
  | .insertOrAssign _ _ => True
  | .index _ _ => True
  | _ => False

/-- a one-element insertion leaves buckets and size alone, or adds an element after the growth test -/
theorem single_cases {u : Bool} {t t' : Table K V} {op : LOp K V} {res : Res K V} (ho : SingleInsert op)
    (h : t.lstep u op = some (t', res)) : (t'.b.size = t.b.size ∧ t'.size = t.size ∧ t'.mlf = t.mlf) ∨ Grown t t' := by
  have self : t' = t ∨ Grown t t' → (t'.b.size = t.b.size ∧ t'.size = t.size ∧ t'.mlf = t.mlf) ∨ Grown t t' := by
    rintro (rfl | h)
    · exact Or.inl ⟨rfl, rfl, rfl⟩
    · exact Or.inr h
  cases op <;> simp only [SingleInsert] at ho
  case insert x =>
    simp only [Table.lstep, Table.opInsert] at h
    split at h
    · split at h
      · cases h
      · rename_i e
        rw [Option.map_eq_some_iff] at h
        obtain ⟨_, _, h2⟩ := h; cases h2
        exact self (emplaceUnique_grown e)
    · split at h
      · cases h
      · rename_i e
        rw [Option.map_eq_some_iff] at h
        obtain ⟨_, _, h2⟩ := h; cases h2
        exact Or.inr (emplaceEquiv_grown e)
  case insertHint i x =>
    simp only [Table.lstep, Table.opInsertHint] at h
    split at h
    · cases h
    · split at h
      · cases h
      · rename_i e
        rw [Option.map_eq_some_iff] at h
        obtain ⟨_, _, h2⟩ := h; cases h2
        split at e
        · exact self (emplaceHintUnique_grown e)
        · exact Or.inr (emplaceHintEquiv_grown e)
  case insertOrAssign k v =>
    simp only [Table.lstep, Table.opInsertOrAssign, Table.insertOrAssign] at h
    split at h
    · cases h
    · rename_i e
      rw [Option.map_eq_some_iff] at h
      obtain ⟨_, _, h2⟩ := h; cases h2
      split at e
      · cases e
      · rename_i e'
        cases e
        exact self (emplaceUnique_grown e')
      · rename_i t1 it e'
        rw [Option.map_eq_some_iff] at e
        obtain ⟨t2, g1, g2⟩ := e
        cases g2
        have hsz : t'.size = t1.size ∧ t'.b.size = t1.b.size ∧ t'.mlf = t1.mlf := by
          unfold Table.assignAt at g1
          split at g1
          · cases g1
          · cases g1; exact ⟨rfl, rfl, rfl⟩
        rcases emplaceUnique_grown e' with hc | ⟨t3, h3, h4, h5, h6⟩
        · subst hc; exact Or.inl ⟨hsz.2.1, hsz.1, hsz.2.2⟩
        · exact Or.inr ⟨t3, h3, hsz.2.1.trans h4, hsz.1.trans h5, hsz.2.2.trans h6⟩
  case index k d =>
    simp only [Table.lstep, Table.opIndex] at h
    split at h
    · cases h
    · rename_i e
      rw [Option.map_eq_some_iff] at h
      obtain ⟨_, _, h2⟩ := h; cases h2
      exact self (emplaceUnique_grown e)

theorem single_grown {u : Bool} {t t' : Table K V} {op : LOp K V} {res : Res K V} (ho : SingleInsert op)
    (h : t.lstep u op = some (t', res)) (hs : t'.size = t.size + 1) : Grown t t' := by
  rcases single_cases ho h with ⟨_, h2, _⟩ | h
  · omega
  · exact h

/-- C23 (partial). After an insertion of one element by insert/emplace (with or without hint), insert_or_assign or operator[],
into a container with maximum load factor `m/2^149` and fewer than `2^38*m/2^149` elements:
`size()/bucket_count() <= max_load_factor() * (1+1/(2^23-1))`.
Missing for C23: the bound without the rounding error is false (`C23_load_factor_exceeded_by_rounding`), and after a copy
assignment that propagates an unequal allocator no bound holds (`C23_load_factor_exceeded_after_copy_assignment`).
Range insertion, merge and node insertion: `C23_insertions_partial`; whole programs: `C23_program_partial`. -/
theorem C23_load_factor_bound_partial (c : MCfg K V) (t : Table K V) (h : ReachableNP c t) (m : Nat)
    (hm : t.mlf = some m) (hB : (t.size + 1) * F32.SC ≤ m * 2 ^ 38) (op : LOp K V) (ho : SingleInsert op) (t' : Table K V)
    (res : Res K V) (hi : t.lstep c.u op = some (t', res)) (hs : t'.size = t.size + 1) :
    t'.size * F32.SC * (2 ^ 23 - 1) ≤ m * t'.bucketCount * 2 ^ 23 := by
  obtain ⟨hg, hok⟩ := h.good
  obtain ⟨t1, h1, h2, _⟩ := single_grown ho hi hs
  have hm0 : 0 < m := by
    rcases Nat.eq_zero_or_pos m with h0 | h0
    · subst h0
      have : 0 < (t.size + 1) * F32.SC := Nat.mul_pos (by omega) F32.SC_pos
      omega
    · exact h0
  have := growForOne_load hg.inv hok hm hm0 hB h1
  rw [hs]
  show _ ≤ m * t'.b.size * _
  rw [h2]; exact this

/-- C23 for the default maximum load factor 1.0: up to 2^24 elements the bound is exact, `size() <= bucket_count()`. -/
theorem C23_load_factor_default_partial (c : MCfg K V) (t : Table K V) (h : ReachableNP c t) (hm : t.mlf = some one)
    (hB : t.size + 1 ≤ 2 ^ 24) (op : LOp K V) (ho : SingleInsert op) (t' : Table K V)
    (res : Res K V) (hi : t.lstep c.u op = some (t', res)) (hs : t'.size = t.size + 1) :
    t'.size ≤ t'.bucketCount := by
  obtain ⟨hg, hok⟩ := h.good
  obtain ⟨t1, h1, h2, _⟩ := single_grown ho hi hs
  have := growForOne_load_default hg.inv hok hm hB h1
  show _ ≤ t'.b.size
  omega

set_option maxRecDepth 100000 in
/-- the hypotheses are met: the 14th element makes a table of 13 buckets grow to 29 -/
example : ∃ t : Table Nat Nat, ReachableNP multi t ∧ t.mlf = some one ∧ t.size + 1 ≤ 2 ^ 24 ∧ t.bucketCount = 13 ∧
    (t.lstep false (.insert (1, 1))).map (fun r => (r.1.size, r.1.bucketCount)) = some (t.size + 1, 29) := by
  obtain ⟨t, h1, h2⟩ := reach_easy multi [.on 0 (.insertRange false ((List.range 13).map (fun i => (i, i))))]
    (by simp [Easy, EasyL]) 0
    (f := fun t => (t.size, t.mlf, t.bucketCount, (t.lstep false (.insert (1, 1))).map (fun r => (r.1.size, r.1.bucketCount))))
    (y := (13, some one, 13, some (14, 29))) (by decide +kernel)
  injection h2 with h2 h3
  injection h3 with h3 h4
  injection h4 with h4 h5
  refine ⟨t, .of_no_pocca rfl h1, h3, by omega, h4, ?_⟩
  rw [h5, h2]

/-- the float 14877908/2^24 = 0.88679..., in units of 2^-149 -/
def badMlf : Nat := 14877908 * 2 ^ 125

set_option synthInstance.maxSize 100000 in
set_option maxRecDepth 100000 in
/-- C23 as stated is false: in a map with 53 buckets and maximum load factor 0.886792421..., inserting a 47th element does not
grow the table, although 47/53 is larger than that (also after rounding 47/53 to float, as load_factor() does). -/
theorem C23_load_factor_exceeded_by_rounding : ∃ t : Table Nat Nat, ReachableNP uniq t ∧ t.mlf = some badMlf ∧ t.size = 46 ∧
    ∃ t', t.lstep true (.insert (46, 0)) = some (t', .ins (46, 0) true) ∧ t'.size = 47 ∧ t'.bucketCount = 53 ∧
      badMlf * t'.bucketCount < t'.size * F32.SC ∧
      badMlf < F32.div (F32.ofNat t'.size) (F32.ofNat t'.bucketCount) := by
  obtain ⟨t, h1, h2⟩ := reach_easy uniq [.construct 0 sampleHash natEq 0 53, .on 0 (.maxLoadFactor (some badMlf)),
      .on 0 (.insertRange false ((List.range 46).map (fun i => (i, 0))))]
    (by simp [Easy, EasyL, sample_lawful]) 0 (β := Nat × Option Nat × Option (Nat × Nat × Res Nat Nat))
    (f := fun t => (t.size, t.mlf, (t.lstep true (.insert (46, 0))).map (fun r => (r.1.size, r.1.bucketCount, r.2))))
    (y := (46, some badMlf, some (47, 53, Res.ins (K := Nat) (V := Nat) (46, 0) true))) (by decide +kernel)
  injection h2 with h2 h3
  injection h3 with h3 h4
  refine ⟨t, .of_no_pocca rfl h1, h3, h2, ?_⟩
  rw [Option.map_eq_some_iff] at h4
  obtain ⟨⟨t', res⟩, g1, g2⟩ := h4
  injection g2 with g2 g3
  injection g3 with g3 g4
  dsimp only at g2 g3 g4
  subst g4
  refine ⟨t', g1, g2, g3, ?_, ?_⟩ <;> rw [g2, g3] <;> decide +kernel

/-- allocators that propagate on copy assignment -/
def pocca (u : Bool) : MCfg Nat Nat := ⟨u, ⟨true, false, false⟩, id, pairEq⟩

set_option maxRecDepth 100000 in
/-- Negative result for C19: with an allocator that propagates on copy assignment, assigning an *empty* container that has a
different allocator to one that has buckets leaves `max_load_` at its old value with no buckets at all; the next insertion
dereferences a null bucket pointer. All other preconditions of the program hold. -/
theorem C19_pocca_assign_breaks_container :
    (∃ s outs, Fca.run (pocca true) [.on 0 (.insert (1, 1)), .construct 1 sampleHash natEq 5 0, .copyAssign 0 1]
      (Fca.start sampleHash natEq) = some (s, outs) ∧ (s 0).bucketCount = 0 ∧ (s 0).maxLoad = 13 ∧ (s 0).size = 0) ∧
    Fca.run (pocca true) [.on 0 (.insert (1, 1)), .construct 1 sampleHash natEq 5 0, .copyAssign 0 1, .on 0 (.insert (2, 2))]
      (Fca.start sampleHash natEq) = none := by
  constructor
  · have h : ((Fca.run (pocca true) [.on 0 (.insert (1, 1)), .construct 1 sampleHash natEq 5 0, .copyAssign 0 1]
      (Fca.start sampleHash natEq)).map (fun r => ((r.1 0).bucketCount, (r.1 0).maxLoad, (r.1 0).size))) = some (0, 13, 0) := by
      decide +kernel
    rw [Option.map_eq_some_iff] at h
    obtain ⟨⟨s, o⟩, h1, h2⟩ := h
    injection h2 with h2 h3
    injection h3 with h3 h4
    exact ⟨s, o, h1, h2, h3, h4⟩
  · have h : (Fca.run (pocca true) [.on 0 (.insert (1, 1)), .construct 1 sampleHash natEq 5 0, .copyAssign 0 1,
        .on 0 (.insert (2, 2))] (Fca.start sampleHash natEq)).isNone = true := by decide +kernel
    exact Option.isNone_iff_eq_none.mp h

set_option maxRecDepth 100000 in
/-- Negative result for C23: the same assignment from a non-empty small container keeps the old, too large `max_load_`; the
table then takes 97 elements in 13 buckets at the default maximum load factor of 1. -/
theorem C23_load_factor_exceeded_after_copy_assignment :
    ∃ s outs, Fca.run (pocca true) [.on 0 (.reserve 90), .construct 1 sampleHash natEq 5 0, .on 1 (.insert (1, 1)),
        .copyAssign 0 1, .on 0 (.insertRange false ((List.range 97).map (fun i => (i, 0))))]
      (Fca.start sampleHash natEq) = some (s, outs) ∧ (s 0).bucketCount = 13 ∧ (s 0).size = 97 ∧ (s 0).mlf = some one := by
  have h : ((Fca.run (pocca true) [.on 0 (.reserve 90), .construct 1 sampleHash natEq 5 0, .on 1 (.insert (1, 1)),
        .copyAssign 0 1, .on 0 (.insertRange false ((List.range 97).map (fun i => (i, 0))))]
      (Fca.start sampleHash natEq)).map (fun r => ((r.1 0).bucketCount, (r.1 0).size, (r.1 0).mlf))) =
      some (13, 97, some one) := by decide +kernel
  rw [Option.map_eq_some_iff] at h
  obtain ⟨⟨s, o⟩, h1, h2⟩ := h
  injection h2 with h2 h3
  injection h3 with h3 h4
  exact ⟨s, o, h1, h2, h3, h4⟩

end Props.Closed

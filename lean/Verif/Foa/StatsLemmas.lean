/-
The functions that record statistics are the functions of the model, and what they record.
-/
import Verif.Foa.StatsArith
import Verif.Foa.Refine

namespace Foa
open Spec (Op Res upd Obj)
open SpecStats
variable {K V : Type}

def Ev.isGroup : Ev K → Bool
  | .group _ => true
  | .cmp _ => false

/-- number of groups examined -/
def groupsOf (tr : List (Ev K)) : Nat := tr.countP Ev.isGroup
/-- number of calls of the equality function -/
def cmpsOf (tr : List (Ev K)) : Nat := tr.countP (fun e => !e.isGroup)

theorem groupsOf_group (g : Nat) (l : List (Ev K)) : groupsOf (.group g :: l) = groupsOf l + 1 := by
  rw [groupsOf, List.countP_cons_of_pos (by rfl)]; rfl
theorem cmpsOf_group (g : Nat) (l : List (Ev K)) : cmpsOf (.group g :: l) = cmpsOf l := by
  simp [cmpsOf, Ev.isGroup]
theorem groupsOf_cmp (k : K) (l : List (Ev K)) : groupsOf (.cmp k :: l) = groupsOf l := by
  simp [groupsOf, Ev.isGroup]
theorem cmpsOf_cmp (k : K) (l : List (Ev K)) : cmpsOf (.cmp k :: l) = cmpsOf l + 1 := by
  simp [cmpsOf, Ev.isGroup]
theorem groupsOf_append (l l' : List (Ev K)) : groupsOf (l ++ l') = groupsOf l + groupsOf l' := by simp [groupsOf]
theorem cmpsOf_append (l l' : List (Ev K)) : cmpsOf (l ++ l') = cmpsOf l + cmpsOf l' := by simp [cmpsOf]

namespace Arrays

theorem scanSlotsW_eq (slot : Nat → Option (K × V)) (p : K → Bool) : ∀ (js : List Nat) (c : Nat),
    (scanSlotsW slot p js c).map (·.1) = scanSlots slot p js
  | [], c => rfl
  | j :: js, c => by
    unfold scanSlotsW scanSlots
    cases slot j with
    | none => rfl
    | some x =>
      by_cases hp : p x.1
      · simp [hp]
      · simp only [hp]
        rw [← scanSlotsW_eq slot p js (c + 1)]
        cases scanSlotsW slot p js (c + 1) with
        | none => rfl
        | some r => rfl

theorem scanSlotsW_trace (slot : Nat → Option (K × V)) (p : K → Bool) : ∀ (js : List Nat) (c : Nat) (r c' tr),
    scanSlotsW slot p js c = some (r, c', tr) →
      groupsOf tr = 0 ∧ c' = c + cmpsOf tr ∧ (r.isSome = true → 1 ≤ cmpsOf tr)
  | [], c, r, c', tr, h => by
    simp only [scanSlotsW, Option.some.injEq, Prod.mk.injEq] at h
    obtain ⟨rfl, rfl, rfl⟩ := h
    simp [groupsOf, cmpsOf]
  | j :: js, c, r, c', tr, h => by
    unfold scanSlotsW at h
    split at h
    · cases h
    · rename_i x hx
      split at h
      · simp only [Option.some.injEq, Prod.mk.injEq] at h
        obtain ⟨rfl, rfl, rfl⟩ := h
        simp [groupsOf, cmpsOf, Ev.isGroup]
      · split at h
        · cases h
        · rename_i r1 c1 tr1 h1
          simp only [Option.some.injEq, Prod.mk.injEq] at h
          obtain ⟨rfl, rfl, rfl⟩ := h
          obtain ⟨a1, a2, a3⟩ := scanSlotsW_trace slot p js (c + 1) _ _ _ h1
          simp only [groupsOf, cmpsOf, List.countP_cons, Ev.isGroup] at *
          refine ⟨by simpa using a1, by simp; omega, fun _ => by simp⟩

theorem findLoopW_eq (a : Arrays K V) (p : K → Bool) (h : Nat) : ∀ (fuel pos s c : Nat), s ≤ a.mask →
    a.mask + 1 - s ≤ fuel →
    (findLoopW a p h fuel ⟨pos, s⟩ c).map (·.res) = findLoop a p h (Prober.run a.mask fuel ⟨pos, s⟩) := by
  intro fuel
  induction fuel with
  | zero => intro pos s c h1 h2; omega
  | succ n ih =>
    intro pos s c h1 h2
    unfold findLoopW
    rw [Prober.run]
    simp only [findLoop]
    rw [← scanSlotsW_eq (a.slot pos) p _ c]
    cases hsc : scanSlotsW (a.slot pos) p ((a.grp pos).matchSlots h) c with
    | none => rfl
    | some r =>
      obtain ⟨r, c', tr⟩ := r
      cases r with
      | some j => rfl
      | none =>
        simp only [Option.map_some]
        by_cases hno : (a.grp pos).isNotOverflowed h
        · simp [hno]
        · simp only [hno, Prober.next]
          by_cases hs : s + 1 ≤ a.mask
          · simp only [hs, decide_true, if_true, Bool.false_eq_true, if_false]
            rw [← ih _ (s + 1) c' hs (by omega)]
            cases findLoopW a p h n ⟨(pos + (s + 1)) &&& a.mask, s + 1⟩ c' with
            | none => rfl
            | some l => rfl
          · simp [hs, findLoop]

/-- What a lookup records against what it did: comparisons are counted right; the probe length is the number of groups
examined, except that it is one too many if all groups were examined and every one had overflowed. -/
theorem findLoopW_trace (a : Arrays K V) (p : K → Bool) (h : Nat) : ∀ (fuel pos s c : Nat) (l : Look K), s ≤ a.mask →
    findLoopW a p h fuel ⟨pos, s⟩ c = some l →
    l.cmps = c + cmpsOf l.trace ∧ 1 ≤ groupsOf l.trace ∧ (l.res.isSome = true → 1 ≤ cmpsOf l.trace) ∧
      ((l.len = s + groupsOf l.trace ∧ s + groupsOf l.trace ≤ a.mask + 1) ∨
       (l.res = none ∧ s + groupsOf l.trace = a.mask + 1 ∧ l.len = a.mask + 2)) := by
  intro fuel
  induction fuel with
  | zero => intro pos s c l _ hl; cases hl
  | succ n ih =>
    intro pos s c l hs hl
    unfold findLoopW at hl
    split at hl
    · cases hl
    · rename_i j c' tr hsc
      obtain ⟨a1, a2, a3⟩ := scanSlotsW_trace _ _ _ _ _ _ _ hsc
      have a3 := a3 rfl
      cases hl
      simp only [groupsOf_group, cmpsOf_group]
      exact ⟨a2, by omega, fun _ => a3, .inl ⟨by omega, by omega⟩⟩
    · rename_i c' tr hsc
      obtain ⟨a1, a2, a3⟩ := scanSlotsW_trace _ _ _ _ _ _ _ hsc
      split at hl
      · cases hl
        simp only [groupsOf_group, cmpsOf_group]
        exact ⟨a2, by omega, fun hh => (by cases hh), .inl ⟨by omega, by omega⟩⟩
      · simp only [Prober.next] at hl
        by_cases hb : s + 1 ≤ a.mask
        · simp only [hb, decide_true, if_true] at hl
          split at hl
          · cases hl
          · rename_i l1 hl1
            cases hl
            obtain ⟨b1, b2, b3, b4⟩ := ih _ _ _ _ hb hl1
            simp only [groupsOf_group, cmpsOf_group, groupsOf_append, cmpsOf_append]
            refine ⟨by omega, by omega, fun hh => ?_, ?_⟩
            · have := b3 hh; omega
            · rcases b4 with ⟨b4, b5⟩ | ⟨b4, b5, b6⟩
              · exact .inl ⟨by omega, by omega⟩
              · exact .inr ⟨b4, by omega, b6⟩
        · simp only [hb, decide_false, Bool.false_eq_true, if_false] at hl
          cases hl
          simp only [groupsOf_group, cmpsOf_group]
          exact ⟨a2, by omega, fun hh => (by cases hh), .inr ⟨trivial, by omega, by omega⟩⟩

theorem emplaceLoopW_eq (h : Nat) (x : K × V) : ∀ (fuel : Nat) (a : Arrays K V) (pos s : Nat), s ≤ a.mask →
    a.mask + 1 - s = fuel →
    (emplaceLoopW h x a fuel ⟨pos, s⟩).map (fun r => (r.1, r.2.1)) =
      emplaceLoop h x a (Prober.run a.mask (fuel + 1) ⟨pos, s⟩) := by
  intro fuel
  induction fuel with
  | zero => intro a pos s h1 h2; omega
  | succ n ih =>
    intro a pos s h1 h2
    unfold emplaceLoopW
    rw [Prober.run]
    simp only [emplaceLoop]
    cases (a.grp pos).availSlots with
    | cons j js =>
      simp only
      split <;> rfl
    | nil =>
      simp only
      split
      · have hm : (a.setGrp pos ((a.grp pos).markOverflow h)).mask = a.mask := rfl
        simp only [Prober.next]
        by_cases hs : s + 1 ≤ a.mask
        · have := ih (a.setGrp pos ((a.grp pos).markOverflow h)) ((pos + (s + 1)) &&& a.mask) (s + 1)
            (by rw [hm]; exact hs) (by rw [hm]; omega)
          simp only [hs, decide_true, if_true]
          rw [this, hm]
        · have : n = 0 := by omega
          subst this
          simp [hs, emplaceLoop, emplaceLoopW]
      · rfl

theorem emplaceLoopW_len (h : Nat) (x : K × V) : ∀ (fuel : Nat) (a : Arrays K V) (pb : Prober) (a' p n),
    emplaceLoopW h x a fuel pb = some (a', p, n) → 1 ≤ n := by
  intro fuel
  induction fuel with
  | zero => intro a pb a' p n hh; cases hh
  | succ m ih =>
    intro a pb a' p n hh
    unfold emplaceLoopW at hh
    split at hh
    · split at hh
      · cases hh; omega
      · cases hh
    · split at hh
      · exact ih _ _ _ _ _ hh
      · cases hh

/-- only keys of elements are compared -/
theorem scanSlotsW_cmp (slot : Nat → Option (K × V)) (p : K → Bool) : ∀ (js : List Nat) (c : Nat) (r c' tr),
    scanSlotsW slot p js c = some (r, c', tr) → ∀ k, Ev.cmp k ∈ tr → ∃ j v, slot j = some (k, v)
  | [], c, r, c', tr, h => by
    simp only [scanSlotsW, Option.some.injEq, Prod.mk.injEq] at h
    obtain ⟨rfl, rfl, rfl⟩ := h
    simp
  | j :: js, c, r, c', tr, h => by
    unfold scanSlotsW at h
    split at h
    · cases h
    · rename_i x hx
      split at h
      · simp only [Option.some.injEq, Prod.mk.injEq] at h
        obtain ⟨rfl, rfl, rfl⟩ := h
        intro k hk
        simp only [List.mem_singleton, Ev.cmp.injEq] at hk
        subst hk
        exact ⟨j, x.2, hx⟩
      · split at h
        · cases h
        · rename_i r1 c1 tr1 h1
          simp only [Option.some.injEq, Prod.mk.injEq] at h
          obtain ⟨rfl, rfl, rfl⟩ := h
          intro k hk
          rcases List.mem_cons.1 hk with hk | hk
          · simp only [Ev.cmp.injEq] at hk
            subst hk
            exact ⟨j, x.2, hx⟩
          · exact scanSlotsW_cmp slot p js (c + 1) _ _ _ h1 k hk

theorem findLoopW_cmp (a : Arrays K V) (p : K → Bool) (h : Nat) : ∀ (fuel : Nat) (pb : Prober) (c : Nat) (l : Look K),
    findLoopW a p h fuel pb c = some l → ∀ k, Ev.cmp k ∈ l.trace → ∃ g j v, a.slot g j = some (k, v) := by
  intro fuel
  induction fuel with
  | zero => intro pb c l hl; cases hl
  | succ n ih =>
    intro pb c l hl k hk
    unfold findLoopW at hl
    split at hl
    · cases hl
    · rename_i j c' tr hsc
      cases hl
      simp only [List.mem_cons, reduceCtorEq, false_or] at hk
      exact ⟨_, scanSlotsW_cmp _ _ _ _ _ _ _ hsc k hk⟩
    · rename_i c' tr hsc
      split at hl
      · cases hl
        simp only [List.mem_cons, reduceCtorEq, false_or] at hk
        exact ⟨_, scanSlotsW_cmp _ _ _ _ _ _ _ hsc k hk⟩
      · simp only at hl
        split at hl
        · split at hl
          · cases hl
          · rename_i l1 hl1
            cases hl
            simp only [List.mem_cons, reduceCtorEq, false_or, List.mem_append] at hk
            rcases hk with hk | hk
            · exact ⟨_, scanSlotsW_cmp _ _ _ _ _ _ _ hsc k hk⟩
            · exact ih _ _ _ hl1 k hk
        · cases hl
          simp only [List.mem_cons, reduceCtorEq, false_or] at hk
          exact ⟨_, scanSlotsW_cmp _ _ _ _ _ _ _ hsc k hk⟩

/-- the probe length recorded by an insertion is the rank of the group where the element is placed; the earlier ones are full -/
theorem emplaceLoopW_rank (h : Nat) (x : K × V) : ∀ (fuel : Nat) (a : Arrays K V) (pos s : Nat) (a' p n), s ≤ a.mask →
    a.mask + 1 - s = fuel → emplaceLoopW h x a fuel ⟨pos, s⟩ = some (a', p, n) →
    ∃ i, n = s + i + 1 ∧ (Prober.run a.mask (fuel + 1) ⟨pos, s⟩)[i]? = some p.1 ∧
      ∀ j < i, ∀ g, (Prober.run a.mask (fuel + 1) ⟨pos, s⟩)[j]? = some g → (a.grp g).availSlots = [] := by
  intro fuel
  induction fuel with
  | zero => intro a pos s a' p n h1 h2; omega
  | succ m ih =>
    intro a pos s a' p n h1 h2 hh
    unfold emplaceLoopW at hh
    rw [Prober.run]
    split at hh
    · split at hh
      · cases hh
        exact ⟨0, rfl, rfl, fun j hj => by omega⟩
      · cases hh
    · rename_i hav
      split at hh
      · simp only [Prober.next] at hh ⊢
        have hm : (a.setGrp pos ((a.grp pos).markOverflow h)).mask = a.mask := rfl
        have hg : ∀ g, ((a.setGrp pos ((a.grp pos).markOverflow h)).grp g).availSlots = (a.grp g).availSlots := by
          intro g
          by_cases hgp : g = pos <;> simp [Arrays.setGrp, hgp, Group.availSlots, Group.markOverflow]
        by_cases hs : s + 1 ≤ a.mask
        · obtain ⟨i, e1, e2, e3⟩ := ih (a.setGrp pos ((a.grp pos).markOverflow h)) ((pos + (s + 1)) &&& a.mask) (s + 1)
            a' p n (by rw [hm]; exact hs) (by rw [hm]; omega) hh
          rw [hm] at e2 e3
          simp only [hs, decide_true, if_true]
          refine ⟨i + 1, by omega, by simpa using e2, fun j hj g hgj => ?_⟩
          cases j with
          | zero =>
            simp only [List.getElem?_cons_zero, Option.some.injEq] at hgj
            subst hgj
            exact hav
          | succ j =>
            rw [List.getElem?_cons_succ] at hgj
            rw [← hg g]
            exact e3 j (by omega) g hgj
        · have : m = 0 := by omega
          subst this
          simp [emplaceLoopW] at hh
      · cases hh

theorem emplaceW_eq (a : Arrays K V) (h : Nat) (x : K × V) :
    (a.emplaceW h x).map (fun r => (r.1, r.2.1)) = a.emplace h x := by
  unfold emplaceW emplace probeSeq
  have := emplaceLoopW_eq h x (a.mask + 1) a (a.posFor h) 0 (Nat.zero_le _) rfl
  refine Eq.trans ?_ this
  show _ = (emplaceLoopW h x a (a.mask + 1) (Prober.init (a.posFor h))).map _
  cases emplaceLoopW h x a (a.mask + 1) (Prober.init (a.posFor h)) <;> rfl

/-- `n` sane insertions -/
def InsOnly (n : Nat) (l : List Sample) : Prop := cnt l = ⟨n, 0, 0⟩ ∧ ∀ s ∈ l, s.Sane

theorem emplaceW_some {a a' : Arrays K V} {h : Nat} {x : K × V} {p : Pos} (he : a.emplace h x = some (a', p)) :
    ∃ s, a.emplaceW h x = some (a', p, s) ∧ InsOnly 1 [s] := by
  rw [← emplaceW_eq] at he
  obtain ⟨⟨a1, p1, s⟩, h1, h2⟩ := Option.map_eq_some_iff.1 he
  cases h2
  refine ⟨s, h1, ?_⟩
  unfold emplaceW at h1
  obtain ⟨⟨a2, p2, n⟩, h3, h4⟩ := Option.map_eq_some_iff.1 h1
  cases h4
  exact ⟨rfl, by simpa [Sample.Sane] using emplaceLoopW_len _ _ _ _ _ _ _ _ h3⟩

theorem cnt_append (l l' : List Sample) :
    cnt (l ++ l') = ⟨(cnt l).ins + (cnt l').ins, (cnt l).suc + (cnt l').suc, (cnt l).uns + (cnt l').uns⟩ := by
  simp [cnt, insLens, looks]

theorem InsOnly.nil : InsOnly 0 [] := ⟨rfl, by simp⟩

theorem InsOnly.append {n m : Nat} {l l' : List Sample} (h : InsOnly n l) (h' : InsOnly m l') : InsOnly (n + m) (l ++ l') := by
  refine ⟨?_, ?_⟩
  · rw [cnt_append, h.1, h'.1]; rfl
  · intro s hs
    rcases List.mem_append.1 hs with hs | hs
    · exact h.2 s hs
    · exact h'.2 s hs

theorem InsOnly.cons {m : Nat} {s : Sample} {l' : List Sample} (h : InsOnly 1 [s]) (h' : InsOnly m l') :
    InsOnly (m + 1) (s :: l') := by
  have := h.append h'
  rwa [Nat.add_comm] at this

theorem transferAllW_some (f : Fns K) (src : Arrays K V) : ∀ (ps : List Pos) (dst a : Arrays K V),
    transferAll f src ps dst = some a → ∃ l, transferAllW f src ps dst = some (a, l) ∧ InsOnly ps.length l
  | [], dst, a, h => by cases h; exact ⟨[], rfl, .nil⟩
  | p :: ps, dst, a, h => by
    unfold transferAll at h
    unfold transferAllW
    split at h
    · cases h
    · rename_i x hx
      split at h
      · cases h
      · rename_i d' p' he
        obtain ⟨s, e1, e2⟩ := emplaceW_some he
        obtain ⟨l, e3, e4⟩ := transferAllW_some f src ps d' a h
        exact ⟨s :: l, by simp [hx, e1, e3], e2.cons e4⟩

end Arrays

namespace Table
open Arrays

theorem findW_eq (t : Table K V) (x : K) : (t.findW x).map (·.res) = t.find x :=
  findLoopW_eq _ _ _ _ _ _ _ (Nat.zero_le _) (by omega)

theorem findW_some {t : Table K V} {x : K} {r : Option Pos} (h : t.find x = some r) :
    ∃ lk, t.findW x = some lk ∧ lk.res = r ∧ lk.sample.Sane := by
  rw [← findW_eq] at h
  obtain ⟨lk, h1, h2⟩ := Option.map_eq_some_iff.1 h
  refine ⟨lk, h1, h2, ?_⟩
  obtain ⟨c1, c2, c3, c4⟩ := findLoopW_trace _ _ _ _ _ _ _ _ (Nat.zero_le _) h1
  simp only [Look.sample, Sample.Sane]
  refine ⟨?_, fun hh => ?_⟩
  · rcases c4 with c4 | c4 <;> omega
  · have := c3 hh; omega

theorem uncheckedInsertW_some {t t' : Table K V} {x : K × V} {p : Pos} (h : t.uncheckedInsert x = some (t', p)) :
    ∃ s, t.uncheckedInsertW x = some (t', p, s) ∧ InsOnly 1 [s] := by
  unfold uncheckedInsert at h
  split at h
  · cases h
  · rename_i a p' he
    cases h
    obtain ⟨s, e1, e2⟩ := emplaceW_some he
    exact ⟨s, by simp [uncheckedInsertW, e1], e2⟩

theorem uncheckedRehashW_some {t t' : Table K V} {new : Arrays K V} (h : t.uncheckedRehash new = some t') :
    ∃ l, t.uncheckedRehashW new = some (t', l) ∧ InsOnly t.arr.occ.length l := by
  unfold uncheckedRehash at h
  split at h
  · cases h
  · rename_i a he
    obtain ⟨l, e1, e2⟩ := transferAllW_some _ _ _ _ _ he
    split at h
    · cases h
    · rename_i hd
      cases h
      exact ⟨l, by simp [uncheckedRehashW, e1, hd], e2⟩

theorem emplaceIntoNewW_some {t t' : Table K V} {x : K × V} {p : Pos} {new : Arrays K V}
    (h : t.emplaceIntoNew x new = some (t', p)) :
    ∃ l, t.emplaceIntoNewW x new = some (t', p, l) ∧ InsOnly (t.arr.occ.length + 1) l := by
  unfold emplaceIntoNew at h
  split at h
  · cases h
  · rename_i a p' he
    obtain ⟨s, e1, e2⟩ := emplaceW_some he
    split at h
    · cases h
    · rename_i t1 hr
      obtain ⟨l, e3, e4⟩ := uncheckedRehashW_some hr
      cases h
      exact ⟨s :: l, by simp [emplaceIntoNewW, e1, e3], e2.cons e4⟩

theorem cnt_look_cons (l : List Sample) (b : Bool) (n m : Nat) : cnt (.look b n m :: l) =
    if b then { cnt l with suc := (cnt l).suc + 1 } else { cnt l with uns := (cnt l).uns + 1 } := by
  cases b <;> simp [cnt, insLens, looks]

/-- what an insertion attempt records -/
structure EmpRec (present : Bool) (n : Nat) (l : List Sample) : Prop where
  cnt : if present then cnt l = ⟨0, 1, 0⟩ else cnt l = ⟨1, 0, 1⟩ ∨ cnt l = ⟨1 + n, 0, 1⟩
  sane : ∀ s ∈ l, s.Sane

theorem emplaceImplW_some {cfg : Cfg} {t t' : Table K V} {x : K × V} {p : Pos} {b : Bool}
    (h : t.emplaceImpl cfg x = some (t', p, b)) :
    ∃ l, t.emplaceImplW cfg x = some (t', p, b, l) ∧ EmpRec (!b) t.arr.occ.length l := by
  unfold emplaceImpl at h
  split at h
  · cases h
  · rename_i q hf
    obtain ⟨lk, e1, e2, e3⟩ := findW_some hf
    cases h
    refine ⟨[lk.sample], by simp [emplaceImplW, e1, e2], ?_, by simpa using e3⟩
    simp [Look.sample, e2, cnt, insLens, looks]
  · rename_i hf
    obtain ⟨lk, e1, e2, e3⟩ := findW_some hf
    split at h
    · rename_i hlt
      obtain ⟨⟨t1, p1⟩, h1, h2⟩ := Option.map_eq_some_iff.1 h
      cases h2
      obtain ⟨s, g1, g2⟩ := uncheckedInsertW_some h1
      refine ⟨[lk.sample, s], by simp [emplaceImplW, e1, e2, hlt, g1], ?_, ?_⟩
      · simp [Look.sample, e2, cnt_look_cons, g2.1]
      · intro s' hs'
        rcases List.mem_cons.1 hs' with rfl | hs'
        · exact e3
        · exact g2.2 s' hs'
    · rename_i hlt
      obtain ⟨⟨t1, p1⟩, h1, h2⟩ := Option.map_eq_some_iff.1 h
      cases h2
      unfold emplaceWithRehash at h1
      obtain ⟨l, g1, g2⟩ := emplaceIntoNewW_some h1
      refine ⟨lk.sample :: l, by simp [emplaceImplW, e1, e2, hlt, g1], ?_, ?_⟩
      · simp [Look.sample, e2, cnt_look_cons, g2.1, Nat.add_comm]
      · intro s' hs'
        rcases List.mem_cons.1 hs' with rfl | hs'
        · exact e3
        · exact g2.2 s' hs'

theorem eraseKeyW_some {t t' : Table K V} {x : K} {n : Nat} (h : t.eraseKey x = some (t', n)) :
    ∃ lk, t.eraseKeyW x = some (t', n, [lk.sample]) ∧ t.findW x = some lk := by
  unfold eraseKey at h
  split at h
  · cases h
  · rename_i hf
    obtain ⟨lk, e1, e2, e3⟩ := findW_some hf
    cases h
    exact ⟨lk, by simp [eraseKeyW, e1, e2], e1⟩
  · rename_i q hf
    obtain ⟨lk, e1, e2, e3⟩ := findW_some hf
    obtain ⟨t1, h1, h2⟩ := Option.map_eq_some_iff.1 h
    cases h2
    exact ⟨lk, by simp [eraseKeyW, e1, e2, h1], e1⟩

/-- the capacity `rehash(n)` asks for -/
def rehashCap (t : Table K V) (n : Nat) : Nat :=
  let m := slotsFor t.size
  let n := if m > n then m else n
  if n ≠ 0 then capacityFor n else n

theorem rehash_def (cfg : Cfg) (t : Table K V) (n : Nat) : t.rehash cfg n =
    if t.rehashCap n ≠ t.capacity then t.uncheckedRehash (Arrays.new_ cfg t.al (t.rehashCap n)) else some t := rfl

theorem rehashW_def (cfg : Cfg) (t : Table K V) (n : Nat) : t.rehashW cfg n =
    if t.rehashCap n ≠ t.capacity then t.uncheckedRehashW (Arrays.new_ cfg t.al (t.rehashCap n)) else some (t, []) := rfl

theorem rehashW_some {cfg : Cfg} {t t' : Table K V} {n : Nat} (h : t.rehash cfg n = some t') :
    ∃ l, t.rehashW cfg n = some (t', l) ∧ (InsOnly 0 l ∨ InsOnly t.arr.occ.length l) ∧ (t.arr.occ = [] → InsOnly 0 l) := by
  rw [rehash_def] at h
  rw [rehashW_def]
  generalize t.rehashCap n = m at *
  by_cases hc : m ≠ t.capacity
  · rw [if_pos hc] at h ⊢
    obtain ⟨l, e1, e2⟩ := uncheckedRehashW_some h
    exact ⟨l, e1, .inr e2, fun hn => by simpa [hn] using e2⟩
  · rw [if_neg hc] at h ⊢
    cases h
    exact ⟨[], rfl, .inl .nil, fun _ => .nil⟩

theorem reserveW_some {cfg : Cfg} {t t' : Table K V} {n : Nat} (h : t.reserve cfg n = some t') :
    ∃ l, t.reserveW cfg n = some (t', l) ∧ (InsOnly 0 l ∨ InsOnly t.arr.occ.length l) ∧ (t.arr.occ = [] → InsOnly 0 l) :=
  rehashW_some h

theorem insertAllW_some (src : Arrays K V) : ∀ (ps : List Pos) (t t' : Table K V), insertAll src ps t = some t' →
    ∃ l, insertAllW src ps t = some (t', l) ∧ InsOnly ps.length l
  | [], t, t', h => by cases h; exact ⟨[], rfl, .nil⟩
  | p :: ps, t, t', h => by
    unfold insertAll at h
    unfold insertAllW
    split at h
    · cases h
    · rename_i x hx
      split at h
      · cases h
      · rename_i t1 p' he
        obtain ⟨s, e1, e2⟩ := uncheckedInsertW_some he
        obtain ⟨l, e3, e4⟩ := insertAllW_some src ps t1 t' h
        exact ⟨s :: l, by simp [hx, e1, e3], e2.cons e4⟩

theorem copyElementsFromW_some {t x t' : Table K V} (h : t.copyElementsFrom x = some t') :
    ∃ l, t.copyElementsFromW x = some (t', l) ∧ (InsOnly 0 l ∨ InsOnly x.arr.occ.length l) := by
  unfold copyElementsFromW
  by_cases hm : t.arr.mask = x.arr.mask
  · exact ⟨[], by simp [hm, h], .inl .nil⟩
  · have h' : insertAll x.arr x.arr.occ t = some t' := by
      unfold copyElementsFrom at h
      rwa [if_neg hm] at h
    obtain ⟨l, e1, e2⟩ := insertAllW_some _ _ _ _ h'
    exact ⟨l, by simp [hm, e1], .inr e2⟩

theorem copyCtorW_some {cfg : Cfg} {x t' : Table K V} {al : Nat} (h : x.copyCtor cfg al = some t') :
    ∃ l, x.copyCtorW cfg al = some (t', l) ∧ (InsOnly 0 l ∨ InsOnly x.arr.occ.length l) :=
  copyElementsFromW_some h

/-- the part of copy assignment before the elements are copied -/
def assignStep1 (cfg : Cfg) (t x : Table K V) : Option (Table K V) :=
  let t := t.clear
  let t := { t with fns := x.fns }
  if cfg.pocca then
    if t.al ≠ x.al then
      let ah : Arrays K V := Arrays.new_ cfg x.al (slotsFor x.size)
      match t.arr.delete_ t.al with
      | none => none
      | some _ => some { t with arr := ah, ml := initMl ah, al := x.al }
    else some { t with al := x.al }
  else some t

/-- the part of copy assignment before the elements are copied -/
def assignPrep (cfg : Cfg) (t x : Table K V) : Option (Table K V) :=
  (assignStep1 cfg t x).bind (fun t => t.noshrinkReserve cfg x.size)

theorem copyAssign_prep (cfg : Cfg) (t x : Table K V) :
    t.copyAssign cfg x = (assignPrep cfg t x).bind (fun t => t.copyElementsFrom x) := by
  have : t.copyAssign cfg x = match assignStep1 cfg t x with
    | none => none
    | some t =>
      match t.noshrinkReserve cfg x.size with
      | none => none
      | some t => t.copyElementsFrom x := rfl
  rw [this]
  unfold assignPrep
  cases assignStep1 cfg t x with
  | none => rfl
  | some t1 =>
    simp only [Option.bind_some]
    cases t1.noshrinkReserve cfg x.size <;> rfl

theorem copyAssignW_prep (cfg : Cfg) (t x : Table K V) :
    t.copyAssignW cfg x = (assignPrep cfg t x).bind (fun t => t.copyElementsFromW x) := by
  have : t.copyAssignW cfg x = match assignStep1 cfg t x with
    | none => none
    | some t =>
      match t.noshrinkReserve cfg x.size with
      | none => none
      | some t => t.copyElementsFromW x := rfl
  rw [this]
  unfold assignPrep
  cases assignStep1 cfg t x with
  | none => rfl
  | some t1 =>
    simp only [Option.bind_some]
    cases t1.noshrinkReserve cfg x.size <;> rfl

theorem copyAssignW_some {cfg : Cfg} {t x t' : Table K V} (h : t.copyAssign cfg x = some t') :
    ∃ l, t.copyAssignW cfg x = some (t', l) ∧ (InsOnly 0 l ∨ InsOnly x.arr.occ.length l) := by
  rw [copyAssign_prep] at h
  rw [copyAssignW_prep]
  obtain ⟨t1, h1, h2⟩ := Option.bind_eq_some_iff.1 h
  obtain ⟨l, e1, e2⟩ := copyElementsFromW_some h2
  exact ⟨l, by rw [h1]; exact e1, e2⟩

theorem moveAssignW_some {cfg : Cfg} {t x : Table K V} {r : Table K V × Table K V} (st sx : CStats)
    (h : t.moveAssign cfg x = some r) :
    if cfg.pocma = true ∨ t.al = x.al then t.moveAssignW cfg x st sx = some (r, sx, sx.reset)
    else ∃ l, t.moveAssignW cfg x st sx = some (r, st.addAll l, sx.reset) ∧ InsOnly x.arr.occ.length l := by
  have hal : t.clear.al = t.al := by unfold clear; split <;> rfl
  unfold moveAssign at h
  unfold moveAssignW
  simp only [hal] at h ⊢
  split at h
  · rename_i hc
    rw [if_pos hc, if_pos hc]
    split at h
    · cases h
    · rename_i hd
      cases h
      simp only [hd]
  · rename_i hc
    rw [if_neg hc]
    split at h
    · cases h
    · rename_i t2 h2
      split at h
      · cases h
      · rename_i t3 h3
        obtain ⟨l, e1, e2⟩ := insertAllW_some _ _ _ _ h3
        cases h
        refine ⟨l, ?_, e2⟩
        rw [if_neg hc]
        simp only [h2, e1]

theorem moveCtorAllocW_some {cfg : Cfg} {x : Table K V} {al : Nat} {r : Table K V × Table K V} (sx : CStats)
    (hocc : (Table.mk_ cfg x.fns al 0 : Table K V).arr.occ = [])
    (h : x.moveCtorAlloc cfg al = some r) :
    if al = x.al then x.moveCtorAllocW cfg al sx = some (r, sx, {})
    else ∃ l, x.moveCtorAllocW cfg al sx = some (r, CStats.addAll {} l, sx.reset) ∧ InsOnly x.arr.occ.length l := by
  have hal : (Table.mk_ cfg x.fns al 0 : Table K V).al = al := rfl
  unfold moveCtorAlloc at h
  unfold moveCtorAllocW
  generalize (Table.mk_ cfg x.fns al 0 : Table K V) = t0 at *
  simp only [hal] at h ⊢
  split at h
  · rename_i hc
    cases h
    simp [hc]
  · rename_i hc
    rw [if_neg hc]
    split at h
    · cases h
    · rename_i t1 h1
      obtain ⟨l1, e1, -, e3⟩ := reserveW_some h1
      split at h
      · cases h
      · rename_i t2 h2
        obtain ⟨l2, e4, e5⟩ := insertAllW_some _ _ _ _ h2
        cases h
        refine ⟨l1 ++ l2, ?_, ?_⟩
        · rw [if_neg hc]
          simp only [e1, e4, CStats.addAll, List.foldl_append]
        · have := (e3 hocc).append e5
          rwa [Nat.zero_add] at this

theorem emplaceIntoNew_size {t t' : Table K V} {x : K × V} {p : Pos} {new : Arrays K V}
    (h1 : t.emplaceIntoNew x new = some (t', p)) : t'.size = t.size + 1 := by
  unfold emplaceIntoNew at h1
  split at h1
  · cases h1
  · split at h1
    · cases h1
    · rename_i t2 hr
      cases h1
      unfold uncheckedRehash at hr
      split at hr
      · cases hr
      · split at hr
        · cases hr
        · cases hr; rfl

theorem emplaceImpl_size {cfg : Cfg} {t t' : Table K V} {x : K × V} {p : Pos} {b : Bool}
    (h : t.emplaceImpl cfg x = some (t', p, b)) : t'.size = t.size + (if b then 1 else 0) := by
  unfold emplaceImpl at h
  split at h
  · cases h
  · cases h; rfl
  · split at h
    · obtain ⟨⟨t1, p1⟩, h1, h2⟩ := Option.map_eq_some_iff.1 h
      cases h2
      unfold uncheckedInsert at h1
      split at h1
      · cases h1
      · cases h1; rfl
    · obtain ⟨⟨t1, p1⟩, h1, h2⟩ := Option.map_eq_some_iff.1 h
      cases h2
      exact emplaceIntoNew_size h1

theorem mergeLoopW_some (cfg : Cfg) : ∀ (ps : List Pos) (t x t' x' : Table K V), mergeLoop cfg ps t x = some (t', x') →
    ∃ l, mergeLoopW cfg ps t x = some (t', x', l) ∧ (cnt l).suc + (cnt l).uns = ps.length ∧
      t'.size = t.size + (cnt l).uns ∧ (cnt l).uns ≤ (cnt l).ins ∧ ∀ s ∈ l, s.Sane
  | [], t, x, t', x', h => by cases h; exact ⟨[], rfl, rfl, rfl, Nat.le_refl _, by simp⟩
  | p :: ps, t, x, t', x', h => by
    unfold mergeLoop at h
    unfold mergeLoopW
    split at h
    · cases h
    · rename_i e he
      split at h
      · cases h
      · rename_i t1 p1 hemp
        obtain ⟨l1, e1, e2, e3⟩ := emplaceImplW_some hemp
        have hsz := emplaceImpl_size hemp
        split at h
        · cases h
        · rename_i x1 hx1
          obtain ⟨l2, g1, g2, g3, g4, g5⟩ := mergeLoopW_some cfg ps t1 x1 t' x' h
          refine ⟨l1 ++ l2, by simp [he, e1, hx1, g1], ?_, ?_, ?_, ?_⟩
          · rw [cnt_append]
            rcases (show _ ∨ _ from by simpa using e2) with e2 | e2 <;> rw [e2] <;> simp <;> omega
          · rw [cnt_append]
            rcases (show _ ∨ _ from by simpa using e2) with e2 | e2 <;> rw [e2] <;> simp at * <;> omega
          · rw [cnt_append]
            rcases (show _ ∨ _ from by simpa using e2) with e2 | e2 <;> rw [e2] <;> simp <;> omega
          · intro s hs
            rcases List.mem_append.1 hs with hs | hs
            · exact e3 s hs
            · exact g5 s hs
      · rename_i t1 p1 hemp
        obtain ⟨l1, e1, e2, e3⟩ := emplaceImplW_some hemp
        have hsz := emplaceImpl_size hemp
        obtain ⟨l2, g1, g2, g3, g4, g5⟩ := mergeLoopW_some cfg ps t1 x t' x' h
        have e2 : cnt l1 = ⟨0, 1, 0⟩ := by simpa using e2
        refine ⟨l1 ++ l2, by simp [he, e1, g1], ?_, ?_, ?_, ?_⟩
        · rw [cnt_append, e2]; simp; omega
        · rw [cnt_append, e2]; simp at *; omega
        · rw [cnt_append, e2]; simp; omega
        · intro s hs
          rcases List.mem_append.1 hs with hs | hs
          · exact e3 s hs
          · exact g5 s hs

theorem equalLoopW_some (veq : K × V → K × V → Bool) (x y : Table K V) : ∀ (ps : List Pos) (b : Bool),
    equalLoop veq x y ps = some b →
    ∃ l, equalLoopW veq x y ps = some (b, l) ∧ (cnt l).ins = 0 ∧ (cnt l).uns ≤ 1 ∧ (cnt l).suc + (cnt l).uns ≤ ps.length ∧
      (b = true → cnt l = ⟨0, ps.length, 0⟩) ∧ ∀ s ∈ l, s.Sane
  | [], b, h => by cases h; exact ⟨[], rfl, rfl, by simp [cnt, looks], by simp [cnt, looks], fun _ => rfl, by simp⟩
  | p :: ps, b, h => by
    unfold equalLoop at h
    unfold equalLoopW
    split at h
    · cases h
    · rename_i e he
      split at h
      · cases h
      · rename_i hf
        obtain ⟨lk, e1, e2, e3⟩ := findW_some hf
        cases h
        exact ⟨[lk.sample], by simp [he, e1, e2], by simp [Look.sample, e2, cnt, looks, insLens],
          by simp [Look.sample, e2, cnt, looks], by simp [Look.sample, e2, cnt, looks], by simp, by simpa using e3⟩
      · rename_i q hf
        obtain ⟨lk, e1, e2, e3⟩ := findW_some hf
        split at h
        · cases h
        · rename_i e' he'
          split at h
          · rename_i hv
            obtain ⟨l, g1, g2, g3, g4, g5, g6⟩ := equalLoopW_some veq x y ps b h
            have hc : cnt (lk.sample :: l) = { cnt l with suc := (cnt l).suc + 1 } := by
              simp [Look.sample, e2, cnt_look_cons]
            refine ⟨lk.sample :: l, by simp [he, e1, e2, he', hv, g1], ?_, ?_, ?_, ?_, ?_⟩
            · rw [hc]; exact g2
            · rw [hc]; exact g3
            · rw [hc]; simp; omega
            · intro hb; rw [hc, g5 hb]; rfl
            · intro s hs
              rcases List.mem_cons.1 hs with rfl | hs
              · exact e3
              · exact g6 s hs
          · rename_i hv
            cases h
            exact ⟨[lk.sample], by simp [he, e1, e2, he', hv], by simp [Look.sample, e2, cnt, looks, insLens],
              by simp [Look.sample, e2, cnt, looks], by simp [Look.sample, e2, cnt, looks], by simp, by simpa using e3⟩

theorem equalW_some {veq : K × V → K × V → Bool} {x y : Table K V} {b : Bool} (h : equal veq x y = some b) :
    ∃ l, equalW veq x y = some (b, l) ∧ (cnt l).ins = 0 ∧ (cnt l).uns ≤ 1 ∧ (cnt l).suc + (cnt l).uns ≤ x.arr.occ.length ∧
      (x.size ≠ y.size → l = []) ∧ (b = true → cnt l = ⟨0, x.arr.occ.length, 0⟩) ∧ ∀ s ∈ l, s.Sane := by
  unfold equal at h
  unfold equalW
  split at h
  · rename_i hs
    obtain ⟨l, g1, g2, g3, g4, g5, g6⟩ := equalLoopW_some veq x y _ b h
    exact ⟨l, by rw [if_pos hs, g1], g2, g3, g4, fun hn => absurd hs hn, g5, g6⟩
  · rename_i hs
    cases h
    exact ⟨[], by rw [if_neg hs], rfl, by simp [cnt, looks], by simp [cnt, looks], fun _ => rfl, by simp, by simp⟩

theorem mergeSelfLoopW_some (cfg : Cfg) {t : Table K V} (hi : t.Inv) : ∀ (ps : List Pos),
    (∀ p ∈ ps, ∃ e, t.arr.slot p.1 p.2 = some e) →
    ∃ l, Table.mergeSelfLoopW cfg ps t = some (t, l) ∧ cnt l = ⟨0, ps.length, 0⟩ ∧ ∀ s ∈ l, s.Sane
  | [], _ => ⟨[], rfl, rfl, by simp⟩
  | p :: ps, hs => by
    obtain ⟨e, he⟩ := hs p (by simp)
    rcases emplaceImpl_spec cfg hi e with ⟨g', j', y, h1, _⟩ | ⟨t1, g', j', h1, h2, h3, h4, h5, _⟩
    · obtain ⟨l1, e1, e2, e3⟩ := emplaceImplW_some h1
      have e2 : cnt l1 = ⟨0, 1, 0⟩ := by simpa using e2
      obtain ⟨l2, g1, g2, g3⟩ := mergeSelfLoopW_some cfg hi ps (fun q hq => hs q (by simp [hq]))
      refine ⟨l1 ++ l2, by simp [mergeSelfLoopW, he, e1, g1], ?_, ?_⟩
      · rw [cnt_append, e2, g2]; simp; omega
      · intro s hs
        rcases List.mem_append.1 hs with hs | hs
        · exact e3 s hs
        · exact g3 s hs
    · exfalso
      have := h5 e (hi.mem.mpr ⟨p.1, p.2, he⟩)
      rw [hi.law.refl] at this; cases this

end Table
end Foa

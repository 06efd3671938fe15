/-
`operator=(std::initializer_list<value_type>)` of concurrent containers (concurrent_table.hpp:541-549), executed by one thread
under the exclusive lock of the container.
-/
import Verif.Conc.TabLin

namespace Conc.AssignList
open Conc.Tab Foa

variable {K V : Type}

/-- The loop `for(auto const& v:il){this->unprotected_emplace(v);}` (concurrent_table.hpp:545-547, 1613-1629). -/
def emplaceAll (cfg : Cfg) : List (K × V) → Table K V → Option (Table K V)
  | [], t => some t
  | x :: l, t =>
    match t.emplaceImpl cfg x with
    | none => none
    | some (t1, _, _) => emplaceAll cfg l t1

/-- `operator=(il)` (concurrent_table.hpp:541-549), after `exclusive_access()`: `super::clear()`,
`super::noshrink_reserve(il.size())`, the loop. The answer (`*this`) is omitted. -/
def assignList (cfg : Cfg) (t : Table K V) (l : List (K × V)) : Option (Table K V) :=
  match t.clear.noshrinkReserve cfg l.length with
  | none => none
  | some t1 => emplaceAll cfg l t1

/-- Calls a thread makes one after the other, each under the exclusive lock. -/
def runs (cfg : Cfg) : List (ExOp K V) → Table K V → Option (Table K V)
  | [], t => some t
  | e :: es, t =>
    match e.run cfg t with
    | none => none
    | some (t1, _) => runs cfg es t1

theorem runs_emplace (cfg : Cfg) : ∀ (l : List (K × V)) (t : Table K V),
    runs cfg (l.map .emplace) t = emplaceAll cfg l t
  | [], _ => rfl
  | x :: l, t => by
    simp only [List.map_cons, runs, emplaceAll, ExOp.run]
    cases t.emplaceImpl cfg x with
    | none => rfl
    | some r => exact runs_emplace cfg l r.1

/-- On an emptied container `noshrink_reserve(n)` does nothing or the same as `reserve(n)`. -/
theorem noshrink_cases (cfg : Cfg) {t : Table K V} (hi : t.Inv) (he : t.contents = []) (n : Nat) :
    t.noshrinkReserve cfg n = some t ∨ t.noshrinkReserve cfg n = t.reserve cfg n := by
  have h0 : t.size = 0 := by rw [hi.size, he]; rfl
  by_cases hn : n = 0
  · left; subst hn; rfl
  · by_cases hc : capacityFor (slotsFor n) > t.capacity
    · right
      have hocc : t.arr.occ = [] := by
        rw [← List.length_eq_zero_iff, ← Inv.length_contents hi.arr]
        exact List.length_eq_zero_iff.2 he
      have hs := slotsFor_pos (Nat.pos_of_ne_zero hn)
      have hne : capacityFor (slotsFor n) ≠ t.capacity := by omega
      have hs' : ¬ 0 > slotsFor n := by omega
      have hs2 : slotsFor n ≠ 0 := by omega
      simp only [Table.noshrinkReserve, Table.reserve, Table.rehash, h0, slotsFor_zero, if_pos hn, if_pos hc, if_neg hs',
        if_pos hs2, if_pos hne, hi.delete_, Table.uncheckedRehash, hocc, Arrays.transferAll]
    · left
      simp only [Table.noshrinkReserve, if_pos hn, if_neg hc]

/-- The assignment is a sequence of calls under the exclusive lock. -/
theorem assignList_runs (cfg : Cfg) {t : Table K V} (hi : t.Inv) (l : List (K × V)) :
    ∃ es, assignList cfg t l = runs cfg (.clear :: es) t := by
  obtain ⟨h1, h2, h3, h4, h5, h6, h7, _⟩ := clear_spec hi
  have hml : t.clear.ml = Table.initMl t.clear.arr := by
    rw [h7]; unfold Table.initMl Arrays.capacity; rw [h5, h6]
  obtain ⟨t1, e1, _⟩ := noshrinkReserve_spec cfg h1 h2 hml l.length
  have ha : assignList cfg t l = runs cfg (l.map .emplace) t1 := by rw [assignList, e1, runs_emplace]
  have hc : ∀ es, runs cfg (.clear :: es) t = runs cfg es t.clear := fun es => by rw [runs, ExOp.run]
  rcases noshrink_cases cfg h1 h2 l.length with h | h
  · refine ⟨l.map .emplace, ?_⟩
    rw [h] at e1
    rw [hc, ha, Option.some.inj e1]
  · refine ⟨.reserve l.length :: l.map .emplace, ?_⟩
    rw [h] at e1
    rw [hc, ha, runs, ExOp.run, e1, Option.map_some]

/-- What the loop leaves. -/
theorem emplaceAll_spec (cfg : Cfg) : ∀ (l : List (K × V)) {t : Table K V}, t.Inv →
    ∃ t', emplaceAll cfg l t = some t' ∧ t'.Inv ∧ t'.fns = t.fns ∧ t'.al = t.al ∧
      ∀ x, x ∈ t'.contents ↔ x ∈ t.contents ∨
        (∀ y ∈ t.contents, t.fns.eq x.1 y.1 = false) ∧
          ∃ l1 l2, l = l1 ++ x :: l2 ∧ ∀ y ∈ l1, t.fns.eq x.1 y.1 = false
  | [], t, hi => ⟨t, rfl, hi, rfl, rfl, fun x => ⟨.inl, by
      rintro (h | ⟨_, l1, l2, h, _⟩)
      · exact h
      · simp at h⟩⟩
  | a :: l, t, hi => by
    rcases emplaceImpl_spec cfg hi a with ⟨g, j, y, h1, h2, h3, h4⟩ | ⟨t1, g, j, h1, h2, h3, h4, h5, h6, h7, _⟩
    · obtain ⟨t', e1, e2, e3, e4, e5⟩ := emplaceAll_spec cfg l hi
      refine ⟨t', by simp only [emplaceAll, h1]; exact e1, e2, e3, e4, fun x => ?_⟩
      rw [e5 x]
      have hy : y ∈ t.contents := hi.mem.mpr ⟨g, j, h3⟩
      constructor
      · rintro (h | ⟨h, l1, l2, rfl, hl⟩)
        · exact .inl h
        · refine .inr ⟨h, a :: l1, l2, rfl, fun z hz => ?_⟩
          rcases List.mem_cons.1 hz with rfl | hz
          · by_contra hb
            have hb : t.fns.eq x.1 z.1 = true := by simpa using hb
            have := hi.law.trans _ _ _ hb h4
            rw [h y hy] at this; cases this
          · exact hl z hz
      · rintro (h | ⟨h, l1, l2, he, hl⟩)
        · exact .inl h
        · cases l1 with
          | nil =>
            obtain ⟨rfl, rfl⟩ := List.cons.inj he
            rw [h y hy] at h4; cases h4
          | cons b l1 =>
            obtain ⟨rfl, rfl⟩ := List.cons.inj he
            exact .inr ⟨h, l1, l2, rfl, fun z hz => hl z (List.mem_cons_of_mem _ hz)⟩
    · obtain ⟨t', e1, e2, e3, e4, e5⟩ := emplaceAll_spec cfg l h2
      refine ⟨t', by simp only [emplaceAll, h1]; exact e1, e2, e3.trans h3, e4.trans h4, fun x => ?_⟩
      rw [e5 x, h3]
      have hm : ∀ z, z ∈ t1.contents ↔ z = a ∨ z ∈ t.contents := fun z => by rw [h7.mem_iff, List.mem_cons]
      constructor
      · rintro (h | ⟨h, l1, l2, rfl, hl⟩)
        · rcases (hm x).1 h with rfl | h
          · exact .inr ⟨h5, [], l, rfl, by simp⟩
          · exact .inl h
        · refine .inr ⟨fun z hz => h z ((hm z).2 (.inr hz)), a :: l1, l2, rfl, fun z hz => ?_⟩
          rcases List.mem_cons.1 hz with rfl | hz
          · exact h _ ((hm _).2 (.inl rfl))
          · exact hl z hz
      · rintro (h | ⟨h, l1, l2, he, hl⟩)
        · exact .inl ((hm x).2 (.inr h))
        · cases l1 with
          | nil =>
            obtain ⟨rfl, rfl⟩ := List.cons.inj he
            exact .inl ((hm _).2 (.inl rfl))
          | cons b l1 =>
            obtain ⟨rfl, rfl⟩ := List.cons.inj he
            refine .inr ⟨fun z hz => ?_, l1, l2, rfl, fun z hz => hl z (List.mem_cons_of_mem _ hz)⟩
            rcases (hm z).1 hz with rfl | hz
            · exact hl _ List.mem_cons_self
            · exact h z hz

theorem assignList_spec (cfg : Cfg) {t : Table K V} (hi : t.Inv) (l : List (K × V)) :
    ∃ t', assignList cfg t l = some t' ∧ t'.Inv ∧ t'.fns = t.fns ∧ t'.al = t.al ∧
      ∀ x, x ∈ t'.contents ↔ ∃ l1 l2, l = l1 ++ x :: l2 ∧ ∀ y ∈ l1, t.fns.eq x.1 y.1 = false := by
  obtain ⟨h1, h2, h3, h4, h5, h6, h7, h8⟩ := clear_spec hi
  have hml : t.clear.ml = Table.initMl t.clear.arr := by
    rw [h7]; unfold Table.initMl Arrays.capacity; rw [h5, h6]
  obtain ⟨t1, e1, e2, e3, e4, e5, _⟩ := noshrinkReserve_spec cfg h1 h2 hml l.length
  obtain ⟨t', g1, g2, g3, g4, g5⟩ := emplaceAll_spec cfg l e2
  refine ⟨t', by simp only [assignList, e1]; exact g1, g2, g3.trans (e3.trans h3), g4.trans (e4.trans h4), fun x => ?_⟩
  rw [g5 x, e5, e3, h3]
  simp

/-! ### as calls of a thread while nobody is inside -/

/-- Nobody inside, thread `t` between operations. -/
structure Rest (s : State K V) (t : Nat) : Prop where
  out : ∀ u, (s.pc u).inside = false
  at_ : s.pc t = .idle ∨ ∃ r, s.pc t = .done r

theorem nowrap_of_out {s : State K V} (h : ∀ u, (s.pc u).inside = false) : NoWrap s := by
  intro u o c pb j hu
  have := h u
  rw [hu] at this; cases this

theorem out_set {s : State K V} (h : ∀ u, (s.pc u).inside = false) {t : Nat} {m : Mem K V} {p : Pc K V} (hp : p.inside = false)
    (u : Nat) : ((s.set t m p).pc u).inside = false := by
  simp only [State.set]; split
  · exact hp
  · exact h u

theorem set_set (s : State K V) (t : Nat) (m m' : Mem K V) (p p' : Pc K V) : (s.set t m p).set t m' p' = s.set t m' p' := by
  simp only [State.set, State.mk.injEq, true_and]
  funext u
  by_cases h : u = t <;> simp [h]

/-- One call under the exclusive lock. -/
theorem reach_one {cfg : Cfg} {f : Fns K} {al c : Nat} {s : State K V} (h : Reach cfg f al c s) {t : Nat} (hr : Rest s t)
    {e : ExOp K V} {t' : Table K V} {r : Nat} (he : e.run cfg s.mem.tab = some (t', r)) {cnt : Nat → Nat}
    (hc : cnt = s.mem.cnt ∨ cnt = fun _ => 0) :
    Reach cfg f al c (s.set t ⟨t', cnt⟩ (.done r)) ∧ Rest (s.set t ⟨t', cnt⟩ (.done r)) t := by
  have h1 : Reach cfg f al c (s.set t s.mem (.start (.ex e))) := by
    refine .step h (nowrap_of_out hr.out) ⟨t, .quiet ?_⟩
    rcases hr.at_ with hp | ⟨r', hp⟩
    · rw [hp]; exact .call _
    · rw [hp]; exact .callAgain _ _
  have ho := out_set hr.out (t := t) (m := s.mem) (p := .start (.ex e)) rfl
  have hp : (s.set t s.mem (.start (.ex e))).pc t = .start (.ex e) := by simp [State.set]
  have h2 : StepBy cfg t (s.set t s.mem (.start (.ex e))) ((s.set t s.mem (.start (.ex e))).set t ⟨t', cnt⟩ (.done r)) :=
    .alone ho (by rw [hp]; exact .ex e t' r cnt he hc)
  rw [set_set] at h2
  exact ⟨.step h1 (nowrap_of_out ho) ⟨t, h2⟩, out_set hr.out rfl, .inr ⟨r, by simp [State.set]⟩⟩

/-- A sequence of them. -/
theorem reach_runs {cfg : Cfg} {f : Fns K} {al c : Nat} {t : Nat} : ∀ (es : List (ExOp K V)) {s : State K V},
    Reach cfg f al c s → Rest s t → ∀ {t' : Table K V} {r0 : Nat}, s.pc t = .done r0 → runs cfg es s.mem.tab = some t' →
      ∃ r, Reach cfg f al c (s.set t ⟨t', s.mem.cnt⟩ (.done r))
  | [], s, h, _, t', r0, hp, ht => by
    simp only [runs, Option.some.injEq] at ht
    subst ht
    refine ⟨r0, ?_⟩
    have : s.set t ⟨s.mem.tab, s.mem.cnt⟩ (.done r0) = s := by
      obtain ⟨m, pc⟩ := s
      simp only [State.set, State.mk.injEq, true_and]
      funext u
      by_cases hu : u = t
      · subst hu; simpa using hp.symm
      · simp [hu]
    rw [this]; exact h
  | e :: es, s, h, hr, t', r0, hp, ht => by
    simp only [runs] at ht
    cases he : e.run cfg s.mem.tab with
    | none => simp only [he] at ht; cases ht
    | some q =>
      obtain ⟨t1, r⟩ := q
      simp only [he] at ht
      obtain ⟨h1, h2⟩ := reach_one h hr he (cnt := s.mem.cnt) (.inl rfl)
      obtain ⟨r', h3⟩ := reach_runs es h1 h2 (t' := t') (r0 := r) (by simp [State.set]) ht
      rw [set_set] at h3
      exact ⟨r', h3⟩

end Conc.AssignList

/- Lemmas for C62: which calls leave elements in their slots. -/
import Verif.SpecAddrO
import Verif.Foa.HeapLemmas

namespace Foa
open Spec (Op Res Obj upd)
open SpecAddrO (Obs Destroyed InHome assigned Steady)
variable {K V : Type}

/-- what can be observed of a container -/
def Table.obs (t : Table K V) : Obs K where
  eq := t.fns.eq
  al := t.al
  size := t.size
  maxLoad := t.ml
  buckets := t.capacity
  has := fun k => ∃ y ∈ t.contents, t.fns.eq k y.1 = true

/-! ### the abstract containers -/

theorem insert_keeps {o : Obj K V} {x y : K × V} (h : y ∈ o.elems) : y ∈ (Spec.insert o x).1.elems := by
  unfold Spec.insert
  split
  · exact h
  · exact List.mem_cons_of_mem _ h

theorem foldl_keeps {y : K × V} : ∀ (xs : List (K × V)) {o : Obj K V}, y ∈ o.elems →
    y ∈ (xs.foldl (fun o x => (Spec.insert o x).1) o).elems
  | [], _, h => h
  | _ :: xs, _, h => foldl_keeps xs (insert_keeps h)

/-- An element that is not destroyed is in its new home. -/
theorem spec_fate (tr : Spec.Traits) (veq : K × V → K × V → Bool) (o : Nat → Obs K) (a : Nat → Obj K V)
    (ho : ∀ i, (o i).eq = (a i).eq) (hh : ∀ i k, (o i).has k ↔ (Spec.lookup (a i) k).isSome = true) (op : Op K V)
    (hpre : Spec.Pre tr op a) {r : Nat} {x : K × V} (hx : x ∈ (a r).elems) (hnd : ¬ Destroyed o r x op) :
    ∃ q, InHome o r x q op ∧ assigned o r x op ∈ ((Spec.step tr veq op a).1 q).elems := by
  cases op with
  | construct q h e al n =>
    refine ⟨r, rfl, ?_⟩
    simp only [Destroyed] at hnd
    simpa [Spec.step, upd, hnd, assigned] using hx
  | insert q y =>
    refine ⟨r, rfl, ?_⟩
    by_cases hr : r = q
    · subst hr; simpa [Spec.step, upd, assigned] using insert_keeps hx
    · simpa [Spec.step, upd, hr, assigned] using hx
  | insertRange q ys =>
    refine ⟨r, rfl, ?_⟩
    by_cases hr : r = q
    · subst hr; simpa [Spec.step, upd, assigned] using foldl_keeps ys hx
    · simpa [Spec.step, upd, hr, assigned] using hx
  | insertOrAssign q k v =>
    refine ⟨r, rfl, ?_⟩
    by_cases hr : r = q
    · subst hr
      cases hl : Spec.lookup (a r) k with
      | some e =>
        simp only [Spec.step, hl, upd, if_true, assigned, Spec.assign, List.mem_map]
        exact ⟨x, hx, by simp [ho]⟩
      | none =>
        simp only [Spec.step, hl, upd, if_true, assigned]
        have hq : (a r).eq k x.1 = false := by
          unfold Spec.lookup at hl
          rw [List.find?_eq_none] at hl
          simpa using hl x hx
        simp only [true_and]
        rw [ho, hq]
        simpa using insert_keeps hx
    · simp only [assigned, hr, false_and, if_false]
      cases hl : Spec.lookup (a q) k <;> simpa [Spec.step, hl, upd, hr] using hx
  | index q k d =>
    refine ⟨r, rfl, ?_⟩
    cases hl : Spec.lookup (a q) k with
    | some e => simpa [Spec.step, hl, assigned] using hx
    | none =>
      by_cases hr : r = q
      · subst hr; simpa [Spec.step, hl, upd, assigned] using insert_keeps hx
      · simpa [Spec.step, hl, upd, hr, assigned] using hx
  | «at» q k => exact ⟨r, rfl, hx⟩
  | find q k => exact ⟨r, rfl, hx⟩
  | count q k => exact ⟨r, rfl, hx⟩
  | contains q k => exact ⟨r, rfl, hx⟩
  | erase q k | eraseIt q k | extract q k =>
    refine ⟨r, rfl, ?_⟩
    by_cases hr : r = q
    · subst hr
      have : (a r).eq k x.1 = false := by
        rw [← ho]
        simpa [Destroyed] using hnd
      simp [Spec.step, upd, assigned, Spec.remove, hx, this]
    · simpa [Spec.step, upd, hr, assigned] using hx
  | eraseIf q pr | eraseWalk q pr =>
    refine ⟨r, rfl, ?_⟩
    by_cases hr : r = q
    · subst hr
      have : pr x = false := by simpa [Destroyed] using hnd
      simp [Spec.step, upd, assigned, hx, this]
    · simpa [Spec.step, upd, hr, assigned] using hx
  | clear q =>
    refine ⟨r, rfl, ?_⟩
    simp only [Destroyed] at hnd
    simpa [Spec.step, upd, hnd, assigned] using hx
  | rehash q n => exact ⟨r, rfl, hx⟩
  | reserve q n => exact ⟨r, rfl, hx⟩
  | copyConstruct q p al =>
    refine ⟨r, rfl, ?_⟩
    simp only [Destroyed] at hnd
    simpa [Spec.step, upd, hnd, assigned] using hx
  | moveConstruct q p =>
    have hqp : q ≠ p := hpre
    refine ⟨_, rfl, ?_⟩
    simp only [Destroyed] at hnd
    by_cases hr : r = p
    · subst hr; simpa [Spec.step, upd, assigned, hqp] using hx
    · simpa [Spec.step, upd, assigned, hr, hnd] using hx
  | moveConstructAlloc q p al =>
    have hqp : q ≠ p := hpre
    refine ⟨_, rfl, ?_⟩
    simp only [Destroyed] at hnd
    by_cases hr : r = p
    · subst hr; simpa [Spec.step, upd, assigned, hqp] using hx
    · simpa [Spec.step, upd, assigned, hr, hnd] using hx
  | copyAssign q p =>
    refine ⟨r, rfl, ?_⟩
    simp only [Destroyed] at hnd
    by_cases hr : r = q
    · subst hr
      have hp : r = p := by simpa using hnd
      subst hp
      simpa [Spec.step, upd, assigned] using hx
    · simpa [Spec.step, upd, assigned, hr] using hx
  | moveAssign q p =>
    refine ⟨_, rfl, ?_⟩
    simp only [Destroyed] at hnd
    by_cases hqp : q = p
    · subst hqp
      have : (if r = q then q else r) = r := by split <;> simp_all
      simpa [Spec.step, assigned, this] using hx
    · by_cases hr : r = p
      · subst hr; simpa [Spec.step, upd, assigned, hqp] using hx
      · have hrq : r ≠ q := by simpa [hqp] using hnd
        simpa [Spec.step, upd, assigned, hr, hrq, hqp] using hx
  | swap q p =>
    refine ⟨_, rfl, ?_⟩
    by_cases h1 : r = q
    · subst h1; simpa [Spec.step, upd, assigned] using hx
    · by_cases h2 : r = p
      · subst h2
        have : q ≠ r := Ne.symm h1
        simpa [Spec.step, upd, assigned, h1, this] using hx
      · simpa [Spec.step, upd, assigned, h1, h2] using hx
  | merge q p =>
    by_cases hqp : q = p
    · subst hqp
      refine ⟨r, ⟨fun h => h.1, fun _ => rfl⟩, by simpa [Spec.step, assigned] using hx⟩
    · by_cases hm : r = p ∧ ¬ (o q).has x.1
      · refine ⟨q, ⟨fun _ => rfl, fun h => absurd hm h⟩, ?_⟩
        obtain ⟨rfl, hm⟩ := hm
        rw [hh] at hm
        have hm : Spec.lookup (a q) x.1 = none := by simpa using hm
        simp [Spec.step, upd, assigned, hqp, hx, hm]
      · refine ⟨r, ⟨fun h => absurd h hm, fun _ => rfl⟩, ?_⟩
        by_cases hr : r = p
        · subst hr
          have hm : (Spec.lookup (a q) x.1).isSome = true := by
            rw [← hh]; simpa using hm
          simp [Spec.step, upd, assigned, hqp, hx, hm]
        · by_cases hrq : r = q
          · subst hrq
            simp [Spec.step, upd, assigned, hqp, hx]
          · simpa [Spec.step, upd, assigned, hqp, hr, hrq] using hx
  | size q => exact ⟨r, rfl, hx⟩
  | isEmpty q => exact ⟨r, rfl, hx⟩
  | iterate q => exact ⟨r, rfl, hx⟩
  | equal q p => exact ⟨r, rfl, hx⟩

theorem obs_has {t : Table K V} {o : Obj K V} (h : R t o) (k : K) : t.obs.has k ↔ (Spec.lookup o k).isSome = true := by
  rcases h.find k with ⟨g, j, y, _, h2, h3, h4⟩ | ⟨_, h2, h3⟩
  · rw [h4]
    exact ⟨fun _ => rfl, fun _ => ⟨y, (Inv.mem_contents h.inv.arr).2 ⟨g, j, h2⟩, h3⟩⟩
  · rw [h2]
    refine ⟨?_, fun h => by cases h⟩
    rintro ⟨y, hy, he⟩
    rw [h3 y hy] at he; cases he

/-! ### slots that only disappear -/

def Sub (t' t : Table K V) : Prop := ∀ g j y, t'.arr.slot g j = some y → t.arr.slot g j = some y

theorem Sub.refl (t : Table K V) : Sub t t := fun _ _ _ h => h
theorem Sub.trans {a b c : Table K V} (h : Sub a b) (h' : Sub b c) : Sub a c := fun g j y e => h' g j y (h g j y e)

theorem eraseAt_sub {t t' : Table K V} {p : Pos} (h : t.eraseAt p = some t') : Sub t' t := by
  unfold Table.eraseAt at h
  split at h
  · cases h
  · rw [Option.ite_none_right_eq_some] at h
    cases h.2
    intro g j y hy
    simp only [Arrays.setGrp, Arrays.setSlot] at hy
    split at hy
    · cases hy
    · exact hy

theorem eraseBytes_sub {t t' : Table K V} {pc p : Nat} (h : t.eraseBytes pc p = some t') : Sub t' t := by
  unfold Table.eraseBytes at h
  split at h
  · cases h
  · rw [Option.ite_none_right_eq_some] at h
    cases h.2
    intro g j y hy
    simp only [Arrays.setGrp, Arrays.setSlot] at hy
    split at hy
    · cases hy
    · exact hy

theorem eraseIfLoop_sub {pr : K × V → Bool} : ∀ {ps : List Pos} {t t' : Table K V},
    Table.eraseIfLoop pr ps t = some t' → Sub t' t := by
  intro ps
  induction ps with
  | nil => intro t t' h; cases h; exact Sub.refl _
  | cons p ps ih =>
    intro t t' h
    unfold Table.eraseIfLoop at h
    split at h
    · cases h
    · split at h
      · split at h
        · cases h
        · rename_i t1 h1; exact (ih h).trans (eraseAt_sub h1)
      · exact ih h

theorem eraseKey_sub {t t' : Table K V} {k : K} {n : Nat} (h : t.eraseKey k = some (t', n)) : Sub t' t := by
  unfold Table.eraseKey at h
  split at h
  · cases h
  · cases h; exact Sub.refl _
  · simp only [Option.map_eq_some_iff, Prod.mk.injEq] at h
    obtain ⟨_, h1, rfl, _⟩ := h
    exact eraseAt_sub h1

theorem opExtract_sub {t t' : Table K V} {k : K} {r : Res K V} (h : t.opExtract k = some (t', r)) : Sub t' t := by
  unfold Table.opExtract at h
  split at h
  · cases h
  · cases h; exact Sub.refl _
  · split at h
    · cases h
    · split at h
      · cases h
      · rename_i h1; cases h; exact eraseAt_sub h1

theorem eraseIt_sub {rg : Bool} {t t' : Table K V} {it it' : It} (h : t.eraseIt rg it = some (t', it')) : Sub t' t := by
  unfold Table.eraseIt at h
  split at h
  · cases h
  · split at h
    · cases h
    · split at h
      · cases h
      · cases h; exact eraseBytes_sub (by assumption)

theorem opEraseIt_sub {t t' : Table K V} {k : K} (h : t.opEraseIt k = some t') : Sub t' t := by
  unfold Table.opEraseIt at h
  split at h
  · cases h
  · cases h; exact Sub.refl _
  · exact eraseBytes_sub h

theorem eraseWalk_sub {rg : Bool} {pr : K × V → Bool} : ∀ {n : Nat} {t t' : Table K V} {it : It} {l : List (K × V)},
    t.eraseWalk rg pr n it = some (t', l) → Sub t' t := by
  intro n
  induction n with
  | zero =>
    intro t t' it l h
    unfold Table.eraseWalk at h
    split at h
    · cases h; exact Sub.refl _
    · cases h
  | succ n ih =>
    intro t t' it l h
    unfold Table.eraseWalk at h
    split at h
    · cases h; exact Sub.refl _
    · simp only at h
      split at h
      · cases h
      · split at h
        · split at h
          · cases h
          · rename_i h1
            simp only [Option.map_eq_some_iff] at h
            obtain ⟨r, h2, h3⟩ := h
            cases h3
            exact (ih h2).trans (eraseIt_sub h1)
        · split at h
          · cases h
          · simp only [Option.map_eq_some_iff] at h
            obtain ⟨r, h2, h3⟩ := h
            cases h3
            exact ih h2

theorem opEraseWalk_sub {rg : Bool} {pr : K × V → Bool} {t t' : Table K V} {r : Res K V}
    (h : t.opEraseWalk rg pr = some (t', r)) : Sub t' t := by
  unfold Table.opEraseWalk at h
  split at h
  · cases h
  · simp only [Option.map_eq_some_iff] at h
    obtain ⟨y, h1, h2⟩ := h
    cases h2
    exact eraseWalk_sub h1

theorem slot_uniq {t : Table K V} (hi : t.Inv) {g j g' j' : Nat} {x : K × V} (h : t.arr.slot g j = some x)
    (h' : t.arr.slot g' j' = some x) : g = g' ∧ j = j' := by
  rcases hi.arr with ⟨_, hl⟩ | ⟨_, hd⟩
  · exact hl.uniq _ _ _ _ _ _ h h' (hi.law.refl _)
  · rw [hd.slot] at h; cases h

/-- an element that is still there is where it was -/
theorem Sub.stays {t t' : Table K V} (h : Sub t' t) (hi : t.Inv) (hi' : t'.Inv) {p : Pos} {x : K × V}
    (hx : t.arr.slot p.1 p.2 = some x) (hm : x ∈ t'.contents) : t'.arr.slot p.1 p.2 = some x := by
  obtain ⟨g, j, hg⟩ := (Inv.mem_contents hi'.arr).1 hm
  obtain ⟨h1, h2⟩ := slot_uniq hi hx (h _ _ _ hg)
  rw [h1, h2]; exact hg

/-! ### slots that only fill -/

def Super (t' t : Table K V) : Prop := ∀ g j y, t.arr.slot g j = some y → t'.arr.slot g j = some y

theorem Super.refl (t : Table K V) : Super t t := fun _ _ _ h => h
theorem Super.trans {a b c : Table K V} (h : Super a b) (h' : Super b c) : Super a c := fun g j y e => h g j y (h' g j y e)

theorem emplaceLoop_super {hs : Nat} {x : K × V} : ∀ {gs : List Nat} {a a' : Arrays K V} {p : Pos},
    Arrays.emplaceLoop hs x a gs = some (a', p) → ∀ g j y, a.slot g j = some y → a'.slot g j = some y := by
  intro gs
  induction gs with
  | nil => intro a a' p h; cases h
  | cons g0 gs ih =>
    intro a a' p h g j y hy
    unfold Arrays.emplaceLoop at h
    split at h
    · split at h
      · rename_i hc
        cases h
        simp only [Arrays.setGrp, Arrays.setSlot]
        rw [if_neg]
        · exact hy
        · rintro ⟨rfl, rfl⟩
          rw [hy] at hc; simp at hc
      · cases h
    · split at h
      · exact ih h g j y hy
      · cases h

theorem uncheckedInsert_super {t t' : Table K V} {x : K × V} {p : Pos} (h : t.uncheckedInsert x = some (t', p)) :
    Super t' t ∧ t'.ml = t.ml ∧ t'.size = t.size + 1 := by
  unfold Table.uncheckedInsert at h
  split at h
  · cases h
  · rename_i h1
    cases h
    exact ⟨emplaceLoop_super h1, rfl, rfl⟩

/-- Insertion, when the key is there or there is room: nothing moves. -/
theorem emplaceImpl_super {cfg : Cfg} {t t' : HTable K V} {x : K × V} {h h' : Heap} {p : Pos} {b : Bool}
    (he : t.emplaceImpl cfg x h = some ((t', p, b), h')) (hc : (∃ q, t.t.find x.1 = some (some q)) ∨ t.t.size < t.t.ml) :
    t'.id = t.id ∧ Super t'.t t.t ∧ t'.t.ml = t.t.ml ∧ t'.t.size ≤ t.t.size + 1 := by
  unfold HTable.emplaceImpl at he
  split at he
  · cases he
  · cases he; exact ⟨rfl, Super.refl _, rfl, by omega⟩
  · rename_i hn
    have hroom : t.t.size < t.t.ml := by
      rcases hc with ⟨q, hq⟩ | hc
      · rw [hn] at hq; cases hq
      · exact hc
    rw [if_pos hroom] at he
    rw [Option.map_eq_some_iff] at he
    obtain ⟨r, h1, h2⟩ := he
    cases h2
    obtain ⟨g1, g2, g3⟩ := uncheckedInsert_super (p := r.2) (t' := r.1) h1
    exact ⟨rfl, g1, g2, by show r.1.size ≤ _; omega⟩

theorem insertRange_super {cfg : Cfg} : ∀ {xs : List (K × V)} {t t' : HTable K V} {h h' : Heap},
    HTable.insertRange cfg xs t h = some (t', h') → t.t.size + xs.length ≤ t.t.ml → t'.id = t.id ∧ Super t'.t t.t := by
  intro xs
  induction xs with
  | nil => intro t t' h h' he _; cases he; exact ⟨rfl, Super.refl _⟩
  | cons x xs ih =>
    intro t t' h h' he hN
    rw [List.length_cons] at hN
    unfold HTable.insertRange at he
    split at he
    · cases he
    · rename_i t1 _ _ h1 e1
      obtain ⟨g1, g2, g3, g4⟩ := emplaceImpl_super e1 (.inr (by omega))
      obtain ⟨k1, k2⟩ := ih he (by omega)
      exact ⟨k1.trans g1, k2.trans g2⟩

/-- `merge`: the target's elements stay if there is room; the source only loses elements. -/
theorem mergeLoop_addr {cfg : Cfg} : ∀ {ps : List Pos} {t x t' x' : HTable K V} {h h' : Heap},
    HTable.mergeLoop cfg ps t x h = some ((t', x'), h') →
    x'.id = x.id ∧ Sub x'.t x.t ∧ (t.t.size + ps.length ≤ t.t.ml → t'.id = t.id ∧ Super t'.t t.t) := by
  intro ps
  induction ps with
  | nil => intro t x t' x' h h' he; cases he; exact ⟨rfl, Sub.refl _, fun _ => ⟨rfl, Super.refl _⟩⟩
  | cons p ps ih =>
    intro t x t' x' h h' he
    unfold HTable.mergeLoop at he
    split at he
    · cases he
    · split at he
      · cases he
      · rename_i e1
        split at he
        · cases he
        · rename_i h2
          obtain ⟨i1, i2, i3⟩ := ih he
          refine ⟨i1, i2.trans (eraseAt_sub h2), fun hN => ?_⟩
          rw [List.length_cons] at hN
          obtain ⟨g1, g2, g3, g4⟩ := emplaceImpl_super e1 (.inr (by omega))
          obtain ⟨k1, k2⟩ := i3 (by omega)
          exact ⟨k1.trans g1, k2.trans g2⟩
      · rename_i e1
        obtain ⟨i1, i2, i3⟩ := ih he
        refine ⟨i1, i2, fun hN => ?_⟩
        rw [List.length_cons] at hN
        obtain ⟨g1, g2, g3, g4⟩ := emplaceImpl_super e1 (.inr (by omega))
        obtain ⟨k1, k2⟩ := i3 (by omega)
        exact ⟨k1.trans g1, k2.trans g2⟩

theorem mergeSelf_addr {cfg : Cfg} {t : HTable K V} (hi : t.t.Inv) : ∀ (ps : List Pos) {t' : HTable K V} {h h' : Heap},
    HTable.mergeSelfLoop cfg ps t h = some (t', h') → t' = t := by
  intro ps
  induction ps with
  | nil => intro t' h h' he; cases he; rfl
  | cons p ps ih =>
    intro t' h h' he
    unfold HTable.mergeSelfLoop at he
    split at he
    · cases he
    · rename_i e hs
      have hf : ∃ q, t.t.find e.1 = some (some q) := by
        rcases hi.find_spec e.1 with ⟨g, j, y, h1, _, _⟩ | ⟨_, h2⟩
        · exact ⟨_, h1⟩
        · have := h2 p.1 p.2 e hs
          rw [hi.law.refl] at this; cases this
      obtain ⟨q, hq⟩ := hf
      simp only [HTable.emplaceImpl, hq] at he
      exact ih he

/-! ### rehash -/

theorem capacity_new (cfg : Cfg) (al n : Nat) : (Arrays.new_ cfg al n : Arrays K V).capacity =
    if n = 0 ∧ cfg.fancy = false then 0 else capacityFor n := by
  unfold Arrays.new_ Arrays.capacity capacityFor
  split <;> simp

/-- `rehash` that does not change the bucket count does nothing, unless the container is empty. -/
theorem rehash_addr {cfg : Cfg} {t t' : HTable K V} {n : Nat} {h h' : Heap} (he : t.rehash cfg n h = some (t', h'))
    (hne : t.t.size ≠ 0) (hb : t'.t.capacity = t.t.capacity) : t' = t := by
  unfold HTable.rehash at he
  dsimp only at he
  have hs : t.t.size ≤ initialMaxLoad (capacityFor (slotsFor t.t.size)) := le_maxLoad_slotsFor _
  have hm0 : slotsFor t.t.size ≠ 0 := fun h0 => by
    have := slotsFor_pos (n := t.t.size) (by omega)
    omega
  generalize hm : (if slotsFor t.t.size > n then slotsFor t.t.size else n) = m at he
  have hm1 : m ≠ 0 := by rw [← hm]; split <;> omega
  rw [if_pos hm1] at he
  unfold HTable.rehashTo at he
  split at he
  · rename_i hc
    exfalso
    dsimp only at he
    unfold HTable.uncheckedRehash at he
    split at he
    · cases he
    · rename_i a ha
      split at he
      · cases he
      · cases he
        have hsame := transferAll_same ha
        rw [newH_fst] at hsame
        apply hc
        rw [← hb]
        show _ = a.capacity
        have : a.capacity = (Arrays.new_ cfg t.t.al (capacityFor m) : Arrays K V).capacity := by
          unfold Arrays.capacity; rw [hsame.1, hsame.2.1]
        rw [this, capacity_new, if_neg, capacityFor_capacityFor]
        rintro ⟨h0, _⟩
        have := le_capacityFor m
        omega
  · cases he; rfl

end Foa

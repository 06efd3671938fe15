/-
Exception behaviour of the operations of the open-addressing containers (continued): rehash, erasure, copying, assignment,
merge.
-/
import Verif.Foa.ExcOps

namespace Foa
variable {K V : Type}

theorem Balanced.trans {e e1 e2 : Env} {t t1 t2 : Table K V} (h : Balanced e e1 t t1) (h' : Balanced e1 e2 t1 t2) :
    Balanced e e2 t t2 := (Led.trans h h').cast (by ring) (by ring)

theorem Balanced.of_led {e e1 : Env} (h : Led e e1 0 0) (t : Table K V) : Balanced e e1 t t := h.cast (by simp) (by simp)

theorem Kept.trans {t t1 t2 : Table K V} (h : Kept t t1) (h' : Kept t1 t2) : Kept t t2 := by
  obtain ⟨l, hl⟩ := h.sub
  obtain ⟨l', hl'⟩ := h'.sub
  exact ⟨h'.inv, h'.fns.trans h.fns, h'.al.trans h.al, h'.has.trans h.has,
    ⟨l ++ l', by rw [List.append_assoc]; exact hl.trans (List.Perm.append_left _ hl')⟩⟩

/-! ### rehash -/

theorem rehashX_sat (may : Call → Bool) (mv : Bool) (cfg : Cfg) {t : Table K V} (hi : t.Inv) (n : Nat) (e : Env) :
    (t.rehashX may mv cfg n e).Sat (fun e' t' => t.rehash cfg n = some t' ∧ Balanced e e' t t')
      (fun e' t' => Kept t t' ∧ Balanced e e' t t' ∧
        ((mv = false ∨ may .hash = false ∧ may .transfer = false) → t' = t)) := by
  unfold Table.rehashX Table.rehash
  dsimp only
  generalize hm : (if slotsFor t.size > n then slotsFor t.size else n) = m
  have hm1 : slotsFor t.size ≤ m := by rw [← hm]; split <;> omega
  generalize hq : (if m ≠ 0 then capacityFor m else m) = q
  by_cases hc : q ≠ t.capacity
  · rw [if_pos hc, if_pos hc]
    have hq2 : t.size ≤ Table.initMl (Arrays.new_ cfg t.al q : Arrays K V) := by
      by_cases hm0 : m = 0
      · have h0 : t.size = 0 := by
          by_contra h
          have := slotsFor_pos (Nat.pos_of_ne_zero h)
          omega
        rw [h0]; exact Nat.zero_le _
      · rw [if_pos hm0] at hq
        have hqpos : 0 < q := by have := le_capacityFor m; omega
        unfold Table.initMl
        rw [new_capacity cfg _ _ hqpos, ← hq, capacityFor_capacityFor]
        exact le_maxLoad_of_le_capacity (capacityFor_mono hm1)
    cases hnew : (Arrays.newX may cfg t.al q e : Option (Env × Arrays K V)) with
    | none => exact ⟨Kept.refl hi, Balanced.refl _ _, fun _ => rfl⟩
    | some en =>
      obtain ⟨e1, new⟩ := en
      obtain ⟨rfl, hl1⟩ := newX_some hnew
      have hp : (t.contents ++ (Arrays.new_ cfg t.al q : Arrays K V).contents).Pairwise (Ineq t.fns) := by
        rw [new_contents, List.append_nil]; exact contents_pairwise hi
      have hz : (Arrays.new_ cfg t.al q : Arrays K V).contents.length + t.size ≤
          Table.initMl (Arrays.new_ cfg t.al q : Arrays K V) := by rw [new_contents]; simpa using hq2
      have hreh := uncheckedRehashX_sat may mv hi (Arrays.new_ cfg t.al q) (new_inv cfg _ _ _) (fun _ => new_al _ _ _)
        hp hz e1
      simp only
      cases hr : t.uncheckedRehashX may mv (Arrays.new_ cfg t.al q) e1 with
      | bad => rw [hr] at hreh; exact hreh.elim
      | threw e2 t' =>
        rw [hr] at hreh
        obtain ⟨k1, k2, k3, k4, k5, k6, k7, k8⟩ := hreh
        refine ⟨⟨k1, k2, k3, k4, k5⟩, ?_, ?_⟩
        · refine (hl1.trans k8).cast ?_ ?_
          · unfold owned; rw [k4]; simp
          · rw [new_contents]; simp
        · rintro (h | ⟨h, h'⟩)
          · exact k6 h
          · rw [h, h'] at k7; simp at k7
      | done e2 t' =>
        rw [hr] at hreh
        obtain ⟨k1, k2⟩ := hreh
        obtain ⟨t'', f1, f2, f3, f4, f5, f6, f7, f7', _⟩ := uncheckedRehash_spec hi (Arrays.new_ cfg t.al q)
          (new_inv cfg _ _ _) (fun _ => new_al _ _ _) hp hz
        rw [k1] at f1; cases f1
        refine ⟨k1, (hl1.trans k2).cast ?_ (by rw [f4]; ring)⟩
        have : owned t'.arr = owned (Arrays.new_ cfg t.al q : Arrays K V) := by unfold owned; rw [f7']
        rw [this]; ring
  · rw [if_neg hc, if_neg hc]
    exact ⟨rfl, Balanced.refl _ _⟩

theorem reserveX_sat (may : Call → Bool) (mv : Bool) (cfg : Cfg) {t : Table K V} (hi : t.Inv) (n : Nat) (e : Env) :
    (t.reserveX may mv cfg n e).Sat (fun e' t' => t.reserve cfg n = some t' ∧ Balanced e e' t t')
      (fun e' t' => Kept t t' ∧ Balanced e e' t t' ∧
        ((mv = false ∨ may .hash = false ∧ may .transfer = false) → t' = t)) :=
  rehashX_sat may mv cfg hi (slotsFor n) e

/-! ### erasure -/

theorem eraseAtX_eq {t : Table K V} (hi : t.Inv) {p : Pos} {x : K × V} (hx : t.arr.slot p.1 p.2 = some x) (e : Env) :
    ∃ t' e', t.eraseAtX p e = some (t', e') ∧ t.eraseAt p = some t' ∧ t'.Inv ∧ t'.fns = t.fns ∧ t'.al = t.al ∧
      t'.arr.hasElems = t.arr.hasElems ∧ t.contents.Perm (x :: t'.contents) ∧ Balanced e e' t t' ∧
      (∀ q : Pos, q ≠ p → t'.arr.slot q.1 q.2 = t.arr.slot q.1 q.2) := by
  obtain ⟨t', h1, h2, h3, h4, h5, h6, h7, h8, h9, _⟩ := eraseAt_spec hi (g := p.1) (j := p.2) hx
  refine ⟨t', e.addElems (-1), by unfold Table.eraseAtX; rw [h1]; rfl, h1, h2, h3, h4, h6, h9, ?_, ?_⟩
  · refine (Led.add e (-1)).cast (by unfold owned; rw [h6]; simp) ?_
    have := h9.length_eq
    rw [hi.size, h2.size, this]; simp
  · intro q hq
    rw [h7]
    have : ¬ (q.1 = p.1 ∧ q.2 = p.2) := fun h => hq (Prod.ext h.1 h.2)
    rw [if_neg this]

theorem eraseKeyX_sat (may : Call → Bool) {t : Table K V} (hi : t.Inv) (x : K) (e : Env) :
    (t.eraseKeyX may x e).Sat (fun e' r => t.eraseKey x = some r ∧ Balanced e e' t r.1)
      (fun e' t' => t' = t ∧ Balanced e e' t t') := by
  unfold Table.eraseKeyX Table.eraseKey
  rcases hi.find_spec x with ⟨g, j, y, h1, h2, h3⟩ | ⟨h1, h2⟩
  all_goals
    have hf := findX_sat may t x e h1
    cases hx : t.findX may x e with
    | bad => rw [hx] at hf; exact hf.elim
    | threw e' u => rw [hx] at hf; exact ⟨rfl, Balanced.of_led hf.2 t⟩
    | done e' r =>
      rw [hx] at hf
      obtain ⟨rfl, hl⟩ := hf
      first
      | obtain ⟨t', e2, k1, k2, _, _, _, _, _, k8, _⟩ := eraseAtX_eq hi (p := (g, j)) h2 e'
        simp only [k1, h1, k2, Option.map_some]
        exact ⟨rfl, (Balanced.of_led hl t).trans k8⟩
      | simp only [h1]
        exact ⟨rfl, Balanced.of_led hl t⟩

/-- `erase_if`: when the predicate throws, the elements tested before and found matching are erased, all others kept -/
theorem eraseIfX_sat (may : Call → Bool) (pr : K × V → Bool) : ∀ (ps : List Pos) (t : Table K V) (e : Env), t.Inv →
    ps.Nodup → (∀ p ∈ ps, ∃ x, t.arr.slot p.1 p.2 = some x) →
    (Table.eraseIfX may pr ps t e).Sat (fun e' t' => Table.eraseIfLoop pr ps t = some t' ∧ Balanced e e' t t')
      (fun e' t' => Kept t t' ∧ Balanced e e' t t' ∧ may .pred = true ∧
        ∃ q r, ps = q ++ r ∧ Table.eraseIfLoop pr q t = some t') := by
  intro ps
  induction ps with
  | nil => intro t e hi _ _; exact ⟨rfl, Balanced.refl _ _⟩
  | cons p ps ih =>
    intro t e hi hnd hs
    obtain ⟨x, hx⟩ := hs p (by simp)
    have hnp := (List.nodup_cons.mp hnd).1
    unfold Table.eraseIfX Table.eraseIfLoop
    simp only [hx]
    cases hc : e.call may .pred with
    | none => exact ⟨Kept.refl hi, Balanced.refl _ _, Env.call_none hc, [], p :: ps, rfl, rfl⟩
    | some e1 =>
      have hl := Balanced.of_led (Env.call_some hc) t
      simp only
      by_cases hp : pr x = true
      · simp only [hp, if_true]
        obtain ⟨t', e2, k1, k2, k3, k4, k5, k6, k7, k8, k9⟩ := eraseAtX_eq hi hx e1
        simp only [k1, k2]
        have hkt : Kept t t' := ⟨k3, k4, k5, k6, ⟨[x], k7⟩⟩
        have := ih t' e2 k3 (List.nodup_cons.mp hnd).2 (fun q hq => by
          rw [k9 q (by rintro rfl; exact hnp hq)]; exact hs q (by simp [hq]))
        refine this.imp (fun e3 t3 h => ⟨h.1, (hl.trans k8).trans h.2⟩) ?_
        rintro e3 t3 ⟨h1, h2, h3, q, r, h4, h5⟩
        refine ⟨hkt.trans h1, (hl.trans k8).trans h2, h3, p :: q, r, by rw [h4]; rfl, ?_⟩
        simp only [hx, hp, if_true, k2, h5]
      · simp only [hp, if_false, Bool.false_eq_true]
        have := ih t e1 hi (List.nodup_cons.mp hnd).2 (fun q hq => hs q (by simp [hq]))
        refine this.imp (fun e3 t3 h => ⟨h.1, hl.trans h.2⟩) ?_
        rintro e3 t3 ⟨h1, h2, h3, q, r, h4, h5⟩
        refine ⟨h1, hl.trans h2, h3, p :: q, r, by rw [h4]; rfl, ?_⟩
        simp only [hx, hp, if_false, Bool.false_eq_true, h5]

theorem clearX_eq {t : Table K V} (hi : t.Inv) (e : Env) :
    ∃ e', t.clearX e = some (t.clear, e') ∧ Balanced e e' t t.clear := by
  obtain ⟨c1, c2, c3, c4, c5, c6, c7, c8⟩ := clear_spec hi
  obtain ⟨e', h1, h2⟩ := destroyX_eq t.arr.occ t.arr e (nodup_occ _) (slots_of_occ hi.arr)
  refine ⟨e', by unfold Table.clearX; rw [h1]; rfl, h2.cast (by unfold owned; rw [c6]; simp) ?_⟩
  rw [c8, occ_length hi]; simp

theorem destroyTX_eq {t : Table K V} (hi : t.Inv) (e : Env) :
    ∃ e', t.destroyTX e = some e' ∧ Led e e' (-owned t.arr) (-(t.size : Int)) := by
  obtain ⟨a', e1, e2, h1, h2, _, h4, _⟩ := destroy_free hi.arr hi.al e
  refine ⟨e2, by unfold Table.destroyTX; simp only [h1, h2], h4.cast rfl ?_⟩
  rw [hi.size]; rfl

/-! ### range insertion -/

theorem insertRangeX_sat (may : Call → Bool) (mv : Bool) (cfg : Cfg) : ∀ (xs : List (K × V)) (t : Table K V) (e : Env),
    t.Inv → (Table.insertRangeX may mv cfg xs t e).Sat
      (fun e' t' => Table.insertRange cfg xs t = some t' ∧ Balanced e e' t t')
      (fun e' t' => ∃ ys zs t1, xs = ys ++ zs ∧ Table.insertRange cfg ys t = some t1 ∧ Kept t1 t' ∧ Balanced e e' t t' ∧
        ((mv = false ∨ may .hash = false ∧ may .transfer = false) → t'.contents = t1.contents)) := by
  intro xs
  induction xs with
  | nil => intro t e hi; exact ⟨rfl, Balanced.refl _ _⟩
  | cons x xs ih =>
    intro t e hi
    have hx := emplaceImplX_sat may mv cfg hi x e
    unfold Table.insertRangeX Table.insertRange
    cases hr : t.emplaceImplX may mv cfg x e with
    | bad => rw [hr] at hx; exact hx.elim
    | threw e1 t' =>
      rw [hr] at hx
      exact ⟨[], x :: xs, t, rfl, rfl, hx.1, hx.2.1, fun h => hx.2.2 (Or.inr h)⟩
    | done e1 r =>
      rw [hr] at hx
      obtain ⟨t1, p, b⟩ := r
      obtain ⟨h1, h2⟩ := hx
      have hi1 : t1.Inv := by
        rcases emplaceImpl_spec cfg hi x with ⟨g, j, y, k1, _⟩ | ⟨t2, g, j, k1, k2, _⟩
        · rw [h1] at k1; cases k1; exact hi
        · rw [h1] at k1; cases k1; exact k2
      simp only [h1]
      refine (ih t1 e1 hi1).imp (fun e2 t2 h => ⟨h.1, Balanced.trans h2 h.2⟩) ?_
      rintro e2 t2 ⟨ys, zs, t3, k1, k2, k3, k4, k5⟩
      refine ⟨x :: ys, zs, t3, by rw [k1]; rfl, ?_, k3, Balanced.trans h2 k4, k5⟩
      simp only [h1, k2]

/-! ### copying -/

/-- element-wise insertion into a container with room: an exception leaves the elements inserted so far -/
theorem insertAllX_sat (may : Call → Bool) (src : Arrays K V) : ∀ (ps : List Pos) (t : Table K V) (e : Env), t.Inv →
    (∀ p ∈ ps, ∃ x, src.slot p.1 p.2 = some x) →
    (ps.filterMap (fun p => src.slot p.1 p.2) ++ t.contents).Pairwise (Ineq t.fns) → t.size + ps.length ≤ t.ml →
    (Table.insertAllX may src ps t e).Sat
      (fun e' t' => Table.insertAll src ps t = some t' ∧ Balanced e e' t t')
      (fun e' t' => t'.Inv ∧ t'.fns = t.fns ∧ t'.al = t.al ∧ t'.arr.hasElems = t.arr.hasElems ∧ Balanced e e' t t' ∧
        ∃ q r, ps = q ++ r ∧ t'.contents.Perm (q.filterMap (fun p => src.slot p.1 p.2) ++ t.contents)) := by
  intro ps
  induction ps with
  | nil => intro t e hi _ _ _; exact ⟨rfl, Balanced.refl _ _⟩
  | cons p ps ih =>
    intro t e hi hs hpw hlen
    obtain ⟨x, hx⟩ := hs p (by simp)
    rw [List.filterMap_cons_some (f := fun p : Pos => src.slot p.1 p.2) hx, List.cons_append, List.pairwise_cons] at hpw
    unfold Table.insertAllX Table.insertAll
    simp only [hx]
    cases hc : e.call may .hash with
    | none =>
      exact ⟨hi, rfl, rfl, rfl, Balanced.refl _ _, [], p :: ps, rfl, List.Perm.refl _⟩
    | some e1 =>
      have hl := Balanced.of_led (Env.call_some hc) t
      have hlt : t.size < t.ml := by simp at hlen; omega
      have hu := uncheckedEmplaceX_sat may hi x (fun y hy => hpw.1 y (List.mem_append_right _ hy)) hlt e1
      simp only
      cases hr : t.uncheckedEmplaceX may x e1 with
      | bad => rw [hr] at hu; exact hu.elim
      | threw e2 t' =>
        rw [hr] at hu
        obtain ⟨_, k1, k2, k3, k4, k5, k6, k7, k8⟩ := hu
        refine ⟨k2, k3, k4, k7, hl.trans (k1.cast ?_ (by rw [k6]; simp)), [], p :: ps, rfl, ?_⟩
        · unfold owned; rw [k7]; simp
        · rw [k8]; exact List.Perm.refl _
      | done e2 r =>
        rw [hr] at hu
        obtain ⟨k0, k1, k2, k3, k4, k5, k6, k7, k8⟩ := hu
        obtain ⟨t1, q⟩ := r
        simp only at k0 k1 k2 k3 k4 k5 k6 k7 k8
        simp only [k0]
        have hb : Balanced e1 e2 t t1 := k1.cast (by unfold owned; rw [k7]; simp) (by rw [k6]; push_cast; ring)
        have := ih t1 e2 k2 (fun p hp => hs p (by simp [hp])) (by
            rw [k3]
            have : (ps.filterMap (fun p => src.slot p.1 p.2) ++ t1.contents).Perm
                (x :: (ps.filterMap (fun p => src.slot p.1 p.2) ++ t.contents)) :=
              (List.Perm.append_left _ k8).trans List.perm_middle
            rw [this.pairwise_iff (fun h => Ineq.symm hi.law h), List.pairwise_cons]
            exact hpw) (by rw [k6, k5]; simp at hlen; omega)
        refine this.imp (fun e3 t3 h => ⟨h.1, (hl.trans hb).trans h.2⟩) ?_
        rintro e3 t3 ⟨j1, j2, j3, j4, j5, a, b, j6, j7⟩
        refine ⟨j1, j2.trans k3, j3.trans k4, j4.trans k7, (hl.trans hb).trans j5, p :: a, b, by rw [j6]; rfl, ?_⟩
        rw [List.filterMap_cons_some (f := fun p : Pos => src.slot p.1 p.2) hx]
        exact j7.trans ((List.Perm.append_left _ k8).trans List.perm_middle)

/-- the slots of `q` filled from `src` -/
def fillSlots (src : Arrays K V) (q : List Pos) (a : Arrays K V) : Arrays K V :=
  { a with slot := fun g j => if (g, j) ∈ q then src.slot g j else a.slot g j }

theorem fillSlots_cons (src : Arrays K V) (p : Pos) (q : List Pos) (a : Arrays K V) (hp : p ∉ q) {x : K × V}
    (hx : src.slot p.1 p.2 = some x) :
    fillSlots src q (a.setSlot p.1 p.2 (some x)) = fillSlots src (p :: q) a := by
  unfold fillSlots Arrays.setSlot
  congr 1
  funext g j
  simp only [List.mem_cons]
  by_cases h1 : (g, j) ∈ q
  · simp [h1]
  · by_cases h2 : g = p.1 ∧ j = p.2
    · obtain ⟨rfl, rfl⟩ := h2; simp [hx, hp]
    · have : ¬ (g, j) = p := by
        rintro rfl; exact h2 ⟨rfl, rfl⟩
      simp [h1, h2, this]

theorem copyArrayX_sat (may : Call → Bool) (src : Arrays K V) : ∀ (ps : List Pos) (a : Arrays K V) (num : Nat) (e : Env),
    ps.Nodup → (∀ p ∈ ps, ∃ x, src.slot p.1 p.2 = some x) → (∀ p ∈ ps, a.slot p.1 p.2 = none) →
    (Table.copyArrayX may src ps a num e).Sat
      (fun e' a' => a' = fillSlots src ps a ∧ Led e e' 0 ps.length)
      (fun e' s => ∃ q r, ps = q ++ r ∧ s = (fillSlots src q a, num + q.length) ∧ Led e e' 0 q.length) := by
  intro ps
  induction ps with
  | nil =>
    intro a num e _ _ _
    exact ⟨by unfold fillSlots; simp, Led.refl _⟩
  | cons p ps ih =>
    intro a num e hnd hs hn
    obtain ⟨x, hx⟩ := hs p (by simp)
    have hnp := (List.nodup_cons.mp hnd).1
    unfold Table.copyArrayX
    simp only [hx, hn p (by simp)]
    cases hc : e.call may .construct with
    | none => exact ⟨[], p :: ps, rfl, by unfold fillSlots; simp, Led.refl _⟩
    | some e1 =>
      simp only
      have := ih (a.setSlot p.1 p.2 (some x)) (num + 1) (e1.addElems 1) (List.nodup_cons.mp hnd).2
        (fun q hq => hs q (by simp [hq])) (fun q hq => by
          rw [setSlot_other (by rintro rfl; exact hnp hq)]; exact hn q (by simp [hq]))
      have hl := (Env.call_some hc).trans (Led.add e1 1)
      refine this.imp ?_ ?_
      · rintro e2 a' ⟨rfl, h2⟩
        exact ⟨fillSlots_cons src p ps a hnp hx, (hl.trans h2).cast (by simp) (by simp; ring)⟩
      · rintro e2 s ⟨q, r, h1, rfl, h3⟩
        refine ⟨p :: q, r, by rw [h1]; rfl, ?_, (hl.trans h3).cast (by simp) (by simp; ring)⟩
        rw [fillSlots_cons src p q a (by rw [h1] at hnp; exact fun h => hnp (List.mem_append_left _ h)) hx]
        simp; omega

theorem copyElementsFromX_sat (may : Call → Bool) {t x : Table K V} (hi : t.Inv) (he : t.contents = []) (hx : x.Inv)
    (hf : t.fns = x.fns) (hlen : x.size ≤ t.ml) (e : Env) :
    (t.copyElementsFromX may x e).Sat (fun e' t' => t.copyElementsFrom x = some t' ∧ Balanced e e' t t')
      (fun e' t' => t'.Inv ∧ t'.fns = t.fns ∧ t'.al = t.al ∧ Balanced e e' t t' ∧
        ∃ rest, x.contents.Perm (t'.contents ++ rest)) := by
  have h0 : t.size = 0 := by rw [hi.size, he]; rfl
  have hxs : x.size = x.arr.contents.length := hx.size
  have hno := Inv.empty_of_contents hi.arr he
  unfold Table.copyElementsFromX Table.copyElementsFrom
  by_cases hm : t.arr.mask = x.arr.mask
  · rw [if_pos hm, if_pos hm]
    by_cases hb : t.arr.hasElems = true ∧ x.arr.hasElems = true
    · rw [if_pos hb, if_pos hb]
      have hc := copyArrayX_sat may x.arr x.arr.occ t.arr 0 e (nodup_occ _) (slots_of_occ hx.arr)
        (fun p _ => hno p.1 p.2)
      cases hr : Table.copyArrayX may x.arr x.arr.occ t.arr 0 e with
      | bad => rw [hr] at hc; exact hc.elim
      | threw e1 s =>
        rw [hr] at hc
        obtain ⟨q, r, h1, rfl, h3⟩ := hc
        have hq : x.arr.occ.take (0 + q.length) = q := by rw [h1]; simp
        have hqn : q.Nodup := by
          have := nodup_occ x.arr
          rw [h1] at this; exact (List.nodup_append.mp this).1
        have hqs : ∀ p ∈ q, ∃ y, x.arr.slot p.1 p.2 = some y := fun p hp =>
          slots_of_occ hx.arr p (by rw [h1]; exact List.mem_append_left _ hp)
        obtain ⟨e2, k1, k2⟩ := destroyX_eq q (fillSlots x.arr q t.arr) e1 hqn (fun p hp => by
          obtain ⟨y, hy⟩ := hqs p hp
          exact ⟨y, by unfold fillSlots; simp [hp, hy]⟩)
        simp only [hq, k1]
        have hback : clearSlots q (fillSlots x.arr q t.arr) = t.arr := by
          unfold clearSlots fillSlots
          have : (fun g j => if (g, j) ∈ q then none else
              (if (g, j) ∈ q then x.arr.slot g j else t.arr.slot g j)) = t.arr.slot := by
            funext g j; rw [hno]; split <;> rfl
          simp only [this]
        simp only [hback]
        refine ⟨hi, rfl, rfl, (h3.trans k2).cast (by simp) (by simp), x.contents, ?_⟩
        rw [show ({ t with arr := t.arr } : Table K V).contents = [] from he]; exact List.Perm.refl _
      | done e1 a =>
        rw [hr] at hc
        obtain ⟨rfl, h2⟩ := hc
        have hslot : (fillSlots x.arr x.arr.occ t.arr).slot = x.arr.slot := by
          funext g j
          unfold fillSlots
          simp only [hno]
          split
          · rfl
          · next hn =>
            have := clearSlots_all hx.arr g j
            unfold clearSlots at this
            simp only [hn, if_false] at this
            exact this.symm
        refine ⟨?_, h2.cast ?_ ?_⟩
        · congr 1
          have : ({ fillSlots x.arr x.arr.occ t.arr with grp := x.arr.grp } : Arrays K V) =
              { t.arr with grp := x.arr.grp, slot := (fillSlots x.arr x.arr.occ t.arr).slot } := rfl
          rw [this, hslot]
        · show _ = owned { fillSlots x.arr x.arr.occ t.arr with grp := x.arr.grp } - owned t.arr
          unfold owned fillSlots; simp
        · show _ = (x.size : Int) - t.size
          rw [occ_length hx, h0]; simp
    · rw [if_neg hb, if_neg hb]
      exact ⟨rfl, Balanced.refl _ _⟩
  · rw [if_neg hm, if_neg hm]
    refine (insertAllX_sat may x.arr x.arr.occ t e hi (slots_of_occ hx.arr) ?_ ?_).imp (fun e' t' h => h) ?_
    · rw [he, List.append_nil, hf]; exact contents_pairwise hx
    · rw [occ_length hx]; omega
    · rintro e' t' ⟨h1, h2, h3, h4, h5, q, r, h6, h7⟩
      refine ⟨h1, h2, h3, h5, r.filterMap (fun p => x.arr.slot p.1 p.2), ?_⟩
      rw [contents_take_drop x h6]
      rw [he, List.append_nil] at h7
      exact List.Perm.append_right _ h7.symm

/-! ### construction and assignment -/

/-- ledger after an object came into existence -/
def Created (e e' : Env) (t' : Table K V) : Prop := Led e e' (owned t'.arr) t'.size

theorem Created.trans {e e1 e2 : Env} {t t' : Table K V} (h : Created e e1 t) (h' : Balanced e1 e2 t t') :
    Created e e2 t' := (Led.trans h h').cast (by ring) (by ring)

theorem destroy_created {e e1 : Env} {t : Table K V} (hi : t.Inv) (h : Created e e1 t) :
    ∃ e2, t.destroyTX e1 = some e2 ∧ Led e e2 0 0 := by
  obtain ⟨e2, h1, h2⟩ := destroyTX_eq hi e1
  exact ⟨e2, h1, (Led.trans h h2).cast (by ring) (by ring)⟩

theorem newX_created {may : Call → Bool} {cfg : Cfg} {al n : Nat} {e e' : Env} {a : Arrays K V} (f : Fns K)
    (h : Arrays.newX may cfg al n e = some (e', a)) :
    ({ fns := f, al := al, arr := a, ml := Table.initMl a, size := 0 } : Table K V) = Table.mk_ cfg f al n ∧
    Created e e' (Table.mk_ cfg f al n : Table K V) := by
  obtain ⟨rfl, hl⟩ := newX_some h
  exact ⟨rfl, hl.cast rfl (by simp [Table.mk_])⟩

theorem copyCtorNX_sat (may : Call → Bool) (cfg : Cfg) {x : Table K V} (hx : x.Inv) (al n : Nat)
    (hml : x.size ≤ (Table.mk_ cfg x.fns al n : Table K V).ml) (e : Env) :
    (x.copyCtorNX may cfg n al e).Sat
      (fun e' t' => (Table.mk_ cfg x.fns al n).copyElementsFrom x = some t' ∧ Created e e' t')
      (fun e' _ => Led e e' 0 0) := by
  unfold Table.copyCtorNX
  cases hc : e.call may .fnCopy with
  | none => exact Led.refl _
  | some e1 =>
    have hl := Env.call_some hc
    simp only
    cases hnew : (Arrays.newX may cfg al n e1 : Option (Env × Arrays K V)) with
    | none => exact hl
    | some en =>
      obtain ⟨e2, a⟩ := en
      obtain ⟨h1, h2⟩ := newX_created x.fns hnew
      have hcp := copyElementsFromX_sat may (mk_inv cfg hx.law al n) (mk_contents _ _ _ _) hx rfl hml e2
      simp only [h1]
      cases hr : (Table.mk_ cfg x.fns al n : Table K V).copyElementsFromX may x e2 with
      | bad => rw [hr] at hcp; exact hcp.elim
      | threw e3 t =>
        rw [hr] at hcp
        obtain ⟨k1, _, _, k4, _⟩ := hcp
        obtain ⟨e4, j1, j2⟩ := destroy_created k1 (h2.trans k4)
        simp only [j1]
        exact (hl.trans j2).cast (by simp) (by simp)
      | done e3 t =>
        rw [hr] at hcp
        exact ⟨hcp.1, (hl.trans (h2.trans hcp.2)).cast (by simp) (by simp)⟩

theorem copyCtorX_sat (may : Call → Bool) (cfg : Cfg) {x : Table K V} (hx : x.Inv) (al : Nat) (e : Env) :
    (x.copyCtorX may cfg al e).Sat (fun e' t' => x.copyCtor cfg al = some t' ∧ Created e e' t')
      (fun e' _ => Led e e' 0 0) := by
  have hml : x.size ≤ (Table.mk_ cfg x.fns al (slotsFor x.size) : Table K V).ml := by
    rcases Nat.eq_zero_or_pos x.size with h0 | h0
    · rw [h0]; exact Nat.zero_le _
    · show x.size ≤ Table.initMl (Arrays.new_ cfg al (slotsFor x.size) : Arrays K V)
      unfold Table.initMl
      rw [new_capacity _ _ _ (slotsFor_pos h0)]
      exact le_maxLoad_of_le_capacity (le_refl _)
  exact copyCtorNX_sat may cfg hx al (slotsFor x.size) hml e

/-- `noshrink_reserve` on an emptied container: strong guarantee -/
theorem noshrinkReserveX_sat (may : Call → Bool) (cfg : Cfg) {t : Table K V} (hi : t.Inv) (he : t.contents = [])
    (n : Nat) (e : Env) :
    (t.noshrinkReserveX may cfg n e).Sat (fun e' t' => t.noshrinkReserve cfg n = some t' ∧ Balanced e e' t t')
      (fun e' t' => t' = t ∧ may .alloc = true ∧ Led e e' 0 0) := by
  unfold Table.noshrinkReserveX Table.noshrinkReserve
  by_cases hn : n ≠ 0
  · rw [if_pos hn, if_pos hn]
    dsimp only
    generalize capacityFor (slotsFor n) = m
    by_cases hm : m > t.capacity
    · rw [if_pos hm, if_pos hm]
      cases hnew : (Arrays.newX may cfg t.al m e : Option (Env × Arrays K V)) with
      | none => exact ⟨rfl, newX_none hnew, Led.refl _⟩
      | some en =>
        obtain ⟨e1, a⟩ := en
        obtain ⟨rfl, hl⟩ := newX_some hnew
        obtain ⟨e2, k1, k2⟩ := freeX_eq e1 hi.al (Inv.empty_of_contents hi.arr he)
        simp only [k1, hi.delete_]
        exact ⟨rfl, (hl.trans k2).cast (by ring) (by ring)⟩
    · rw [if_neg hm, if_neg hm]; exact ⟨rfl, Balanced.refl _ _⟩
  · rw [if_neg hn, if_neg hn]; exact ⟨rfl, Balanced.refl _ _⟩

theorem poccaX_sat (may : Call → Bool) (cfg : Cfg) {t x : Table K V} (hi : t.Inv) (he : t.contents = [])
    (hml : t.ml = Table.initMl t.arr) (e : Env) :
    (t.poccaX may cfg x e).Sat
      (fun e' t' => (if cfg.pocca then
          if t.al ≠ x.al then
            match t.arr.delete_ t.al with
            | none => none
            | some _ => some { t with arr := Arrays.new_ cfg x.al (slotsFor x.size), ml := Table.initMl (Arrays.new_ cfg x.al (slotsFor x.size) : Arrays K V), al := x.al }
          else some { t with al := x.al }
        else some t) = some t' ∧ Balanced e e' t t' ∧ t'.Inv ∧ t'.contents = [] ∧ t'.fns = t.fns ∧
          t'.ml = Table.initMl t'.arr)
      (fun e' t' => t' = t ∧ Led e e' 0 0) := by
  have h0 : t.size = 0 := by rw [hi.size, he]; rfl
  unfold Table.poccaX
  by_cases hp : cfg.pocca = true
  · rw [if_pos hp, if_pos hp]
    by_cases ha : t.al ≠ x.al
    · rw [if_pos ha, if_pos ha]
      cases hnew : (Arrays.newX may cfg x.al (slotsFor x.size) e : Option (Env × Arrays K V)) with
      | none => exact ⟨rfl, Led.refl _⟩
      | some en =>
        obtain ⟨e1, a⟩ := en
        obtain ⟨rfl, hl⟩ := newX_some hnew
        obtain ⟨e2, k1, k2⟩ := freeX_eq e1 hi.al (Inv.empty_of_contents hi.arr he)
        simp only [k1, hi.delete_]
        refine ⟨rfl, (hl.trans k2).cast (by ring) (by ring), ?_, new_contents _ _ _, rfl, rfl⟩
        have := mk_inv (V := V) cfg hi.law x.al (slotsFor x.size)
        unfold Table.mk_ at this
        rw [h0]
        exact this
    · rw [if_neg ha, if_neg ha]
      have ha : t.al = x.al := by simpa using ha
      have : ({ t with al := x.al } : Table K V) = t := by rw [← ha]
      rw [this]
      exact ⟨rfl, Balanced.refl _ _, hi, he, rfl, hml⟩
  · rw [if_neg hp, if_neg hp]
    exact ⟨rfl, Balanced.refl _ _, hi, he, rfl, hml⟩

/-- copy assignment: an exception leaves a prefix of the copies (or, if copying the function objects throws, the old
contents); never an invalid container -/
theorem copyAssignX_sat (may : Call → Bool) (cfg : Cfg) {t x : Table K V} (hi : t.Inv) (hx : x.Inv) (e : Env) :
    (t.copyAssignX may cfg x e).Sat (fun e' t' => t.copyAssign cfg x = some t' ∧ Balanced e e' t t')
      (fun e' t' => Balanced e e' t t' ∧ (t' = t ∨
        (t'.Inv ∧ t'.fns = x.fns ∧ (t'.al = t.al ∨ cfg.pocca = true ∧ t'.al = x.al) ∧
          ∃ rest, x.contents.Perm (t'.contents ++ rest)))) := by
  obtain ⟨c1, c2, c3, c4, c5, c6, c7, c8⟩ := clear_spec hi
  unfold Table.copyAssignX
  cases hc : e.call may .fnCopy with
  | none => exact ⟨Balanced.refl _ _, Or.inl rfl⟩
  | some e1 =>
    obtain ⟨e2, hcl, hbl⟩ := clearX_eq hi e1
    have hb2 : Balanced e e2 t { t.clear with fns := x.fns } := (Balanced.of_led (Env.call_some hc) t).trans hbl
    have hi2 := with_fns_inv c1 c2 hx.law
    simp only [hcl]
    have hmlc : ({ t.clear with fns := x.fns } : Table K V).ml = Table.initMl ({ t.clear with fns := x.fns } : Table K V).arr := by
      show t.clear.ml = Table.initMl t.clear.arr
      rw [c7]; unfold Table.initMl Arrays.capacity; rw [c5, c6]
    have hpo := poccaX_sat may cfg (x := x) hi2 c2 hmlc e2
    cases hr : ({ t.clear with fns := x.fns } : Table K V).poccaX may cfg x e2 with
    | bad => rw [hr] at hpo; exact hpo.elim
    | threw e3 t' =>
      rw [hr] at hpo
      obtain ⟨rfl, hl⟩ := hpo
      refine ⟨hb2.trans (Balanced.of_led hl _), Or.inr ⟨hi2, rfl, Or.inl c4, x.contents, ?_⟩⟩
      rw [show ({ t.clear with fns := x.fns } : Table K V).contents = [] from c2]; exact List.Perm.refl _
    | done e3 t1 =>
      rw [hr] at hpo
      obtain ⟨p1, p2, p3, p4, p5, p6⟩ := hpo
      have hal1 : t1.al = t.al ∨ cfg.pocca = true ∧ t1.al = x.al := by
        by_cases hp : cfg.pocca = true
        · right
          refine ⟨hp, ?_⟩
          rw [if_pos hp] at p1
          split at p1
          · rw [hi2.delete_] at p1
            cases p1; rfl
          · cases p1; rfl
        · rw [if_neg hp] at p1
          cases p1; exact Or.inl c4
      have hns := noshrinkReserveX_sat may cfg p3 p4 x.size e3
      simp only
      cases hr2 : t1.noshrinkReserveX may cfg x.size e3 with
      | bad => rw [hr2] at hns; exact hns.elim
      | threw e4 t' =>
        rw [hr2] at hns
        obtain ⟨rfl, _, hl⟩ := hns
        refine ⟨(hb2.trans p2).trans (Balanced.of_led hl _), Or.inr ⟨p3, p5, hal1, x.contents, ?_⟩⟩
        rw [p4]; exact List.Perm.refl _
      | done e4 t2 =>
        rw [hr2] at hns
        obtain ⟨n1, n2⟩ := hns
        obtain ⟨t2', m1, m2, m3, m4, m5, m6, m7⟩ := noshrinkReserve_spec cfg p3 p4 p6 x.size
        rw [n1] at m1; cases m1
        have hcp := copyElementsFromX_sat may m2 m5 hx (m3.trans p5) m7 e4
        simp only
        refine hcp.imp ?_ ?_
        · rintro e5 t3 ⟨q1, q2⟩
          refine ⟨?_, ((hb2.trans p2).trans n2).trans q2⟩
          unfold Table.copyAssign
          dsimp only
          simp only at p1
          by_cases hp : cfg.pocca = true
          · rw [if_pos hp] at p1 ⊢
            by_cases ha : t.clear.al ≠ x.al
            · rw [if_pos ha] at p1 ⊢
              rw [c1.delete_] at p1 ⊢
              cases p1
              simp only [n1, q1]
            · rw [if_neg ha] at p1 ⊢
              cases p1
              simp only [n1, q1]
          · rw [if_neg hp] at p1 ⊢
            cases p1
            simp only [n1, q1]
        · rintro e5 t3 ⟨q1, q2, q3, q4, rest, q5⟩
          refine ⟨((hb2.trans p2).trans n2).trans q4, Or.inr ⟨q1, q2.trans (m3.trans p5), ?_, rest, q5⟩⟩
          rw [q3, m4]; exact hal1

/-! ### moves -/

theorem moveCtorX_sat (may : Call → Bool) (cfg : Cfg) (x : Table K V) (e : Env) :
    (x.moveCtorX may cfg e).Sat
      (fun e' r => r = x.moveCtor cfg ∧ Led e e' (owned r.1.arr + owned r.2.arr - owned x.arr) ((r.1.size : Int) + r.2.size - x.size))
      (fun e' x' => x' = x ∧ Led e e' 0 0) := by
  unfold Table.moveCtorX Table.moveCtor
  cases hnew : (Arrays.newX may cfg x.al 0 e : Option (Env × Arrays K V)) with
  | none => exact ⟨rfl, Led.refl _⟩
  | some en =>
    obtain ⟨e1, a⟩ := en
    obtain ⟨rfl, hl⟩ := newX_some hnew
    exact ⟨rfl, hl.cast (by ring) (by simp)⟩

theorem moveCtorAllocX_sat (may : Call → Bool) (mv : Bool) (cfg : Cfg) {x : Table K V} (hx : x.Inv) (al : Nat) (e : Env) :
    (x.moveCtorAllocX may mv cfg al e).Sat
      (fun e' r => x.moveCtorAlloc cfg al = some r ∧
        Led e e' (owned r.1.arr + owned r.2.arr - owned x.arr) ((r.1.size : Int) + r.2.size - x.size))
      (fun e' x' => Balanced e e' x x' ∧ (x' = x ∨ x' = x.clear)) := by
  unfold Table.moveCtorAllocX Table.moveCtorAlloc
  obtain ⟨c1, c2, c3, c4, c5, c6, c7, c8⟩ := clear_spec hx
  cases hnew : (Arrays.newX may cfg al 0 e : Option (Env × Arrays K V)) with
  | none => exact ⟨Balanced.refl _ _, Or.inl rfl⟩
  | some en =>
    obtain ⟨e1, a⟩ := en
    obtain ⟨h1, h2⟩ := newX_created x.fns hnew
    obtain ⟨rfl, hl⟩ := newX_some hnew
    dsimp only
    by_cases ha : al = x.al
    · rw [if_pos ha, if_pos (show (Table.mk_ cfg x.fns al 0 : Table K V).al = x.al from ha)]
      refine ⟨rfl, hl.cast ?_ ?_⟩
      · show _ = owned x.arr + owned (Arrays.new_ cfg al 0 : Arrays K V) - owned x.arr
        ring
      · show _ = (x.size : Int) + ((0 : Nat) : Int) - x.size
        simp
    · rw [if_neg ha, if_neg (show ¬ (Table.mk_ cfg x.fns al 0 : Table K V).al = x.al from ha), h1]
      have hi0 := mk_inv (V := V) cfg hx.law al 0
      have hrs := reserveX_sat may mv cfg hi0 x.size e1
      cases hr : (Table.mk_ cfg x.fns al 0 : Table K V).reserveX may mv cfg x.size e1 with
      | bad => rw [hr] at hrs; exact hrs.elim
      | threw e2 t1 =>
        rw [hr] at hrs
        obtain ⟨k1, k2, _⟩ := hrs
        obtain ⟨e3, j1, j2⟩ := destroy_created k1.inv (h2.trans k2)
        simp only [j1]
        exact ⟨Balanced.of_led j2 x, by simp⟩
      | done e2 t1 =>
        rw [hr] at hrs
        obtain ⟨k1, k2⟩ := hrs
        obtain ⟨t1', m1, m2, m3, m4, m5, m6⟩ := reserve_spec cfg hi0 x.size
        rw [k1] at m1; cases m1
        have hc1 : t1.contents = [] := by rw [mk_contents] at m5; exact m5.eq_nil
        have hml1 := (m6 rfl).2
        have h01 : t1.size = 0 := by rw [m2.size, hc1]; rfl
        have hf1 : t1.fns = x.fns := m3
        have hin := insertAllX_sat may x.arr x.arr.occ t1 e2 m2 (slots_of_occ hx.arr)
          (by rw [hc1, List.append_nil, hf1]; exact contents_pairwise hx) (by rw [occ_length hx]; omega)
        simp only [k1]
        cases hr2 : Table.insertAllX may x.arr x.arr.occ t1 e2 with
        | bad => rw [hr2] at hin; exact hin.elim
        | threw e3 t2 =>
          rw [hr2] at hin
          obtain ⟨i1, _, _, _, i5, _⟩ := hin
          obtain ⟨e4, l1, l2⟩ := clearX_eq hx e3
          obtain ⟨e5, l3, l4⟩ := destroyTX_eq i1 e4
          simp only [l1, l3]
          refine ⟨(Led.trans (Led.trans ((h2.trans k2).trans i5) l2) l4).cast ?_ ?_, by simp⟩ <;> ring
        | done e3 t2 =>
          rw [hr2] at hin
          obtain ⟨i1, i2⟩ := hin
          obtain ⟨e4, l1, l2⟩ := clearX_eq hx e3
          simp only [l1, i1]
          refine ⟨by simp, (Led.trans ((h2.trans k2).trans i2) l2).cast ?_ ?_⟩ <;> ring

/-- Move assignment. The one defect: if the allocators differ, do not propagate, and the allocation in `noshrink_reserve`
throws, the source keeps its elements but gets the target's function objects. -/
theorem moveAssignX_sat (may : Call → Bool) (cfg : Cfg) {t x : Table K V} (hi : t.Inv) (hx : x.Inv) (e : Env) :
    (t.moveAssignX may cfg x e).Sat
      (fun e' r => t.moveAssign cfg x = some r ∧
        Led e e' (owned r.1.arr + owned r.2.arr - owned t.arr - owned x.arr) ((r.1.size : Int) + r.2.size - t.size - x.size))
      (fun e' r => Led e e' (owned r.1.arr + owned r.2.arr - owned t.arr - owned x.arr)
          ((r.1.size : Int) + r.2.size - t.size - x.size) ∧ r.1.Inv ∧ r.1.al = t.al ∧ r.2.al = x.al ∧
        ((r = (t.clear, x)) ∨
         (r.1 = { t.clear with fns := x.fns } ∧ r.2 = { x with fns := t.fns } ∧ may .alloc = true ∧ cfg.pocma = false ∧
            t.al ≠ x.al) ∨
         (r.1.fns = x.fns ∧ r.2 = { x.clear with fns := t.fns } ∧ ∃ rest, x.contents.Perm (r.1.contents ++ rest)))) := by
  obtain ⟨c1, c2, c3, c4, c5, c6, c7, c8⟩ := clear_spec hi
  obtain ⟨d1, d2, d3, d4, d5, d6, d7, d8⟩ := clear_spec hx
  obtain ⟨e1, hcl, hbl⟩ := clearX_eq hi e
  unfold Table.moveAssignX Table.moveAssign
  simp only [hcl]
  by_cases hp : cfg.pocma = true ∨ t.clear.al = x.al
  · rw [if_pos hp, if_pos hp]
    cases hnew : (Arrays.newX may cfg x.al 0 e1 : Option (Env × Arrays K V)) with
    | none =>
      refine ⟨hbl.cast (by ring) (by ring), c1, c4, rfl, Or.inl rfl⟩
    | some en =>
      obtain ⟨e2, a⟩ := en
      obtain ⟨rfl, hl⟩ := newX_some hnew
      obtain ⟨e3, k1, k2⟩ := freeX_eq e2 c1.al (Inv.empty_of_contents c1.arr c2)
      simp only [k1, c1.delete_]
      refine ⟨rfl, (Led.trans hbl (hl.trans k2)).cast ?_ ?_⟩
      · show _ = owned x.arr + owned (Arrays.new_ cfg x.al 0 : Arrays K V) - owned t.arr - owned x.arr
        ring
      · show _ = (x.size : Int) + ((0 : Nat) : Int) - t.size - x.size
        rw [c8]; simp
  · rw [if_neg hp, if_neg hp]
    have hi2 := with_fns_inv c1 c2 hx.law
    have hmlc : ({ t.clear with fns := x.fns } : Table K V).ml = Table.initMl ({ t.clear with fns := x.fns } : Table K V).arr := by
      show t.clear.ml = Table.initMl t.clear.arr
      rw [c7]; unfold Table.initMl Arrays.capacity; rw [c5, c6]
    have hb2 : Balanced e e1 t { t.clear with fns := x.fns } := hbl
    have hns := noshrinkReserveX_sat may cfg hi2 c2 x.size e1
    cases hr : ({ t.clear with fns := x.fns } : Table K V).noshrinkReserveX may cfg x.size e1 with
    | bad => rw [hr] at hns; exact hns.elim
    | threw e2 t' =>
      rw [hr] at hns
      obtain ⟨rfl, ha, hl⟩ := hns
      refine ⟨(Led.trans hb2 hl).cast (by simp only; ring) (by simp only; ring), hi2, c4, rfl, Or.inr (Or.inl ⟨rfl, ?_, ha, ?_, ?_⟩)⟩
      · simp only [c3]
      · by_contra h; exact hp (Or.inl (by simpa using h))
      · intro h; exact hp (Or.inr (c4.trans h))
    | done e2 t2 =>
      rw [hr] at hns
      obtain ⟨n1, n2⟩ := hns
      obtain ⟨t2', m1, m2, m3, m4, m5, m6, m7⟩ := noshrinkReserve_spec cfg hi2 c2 hmlc x.size
      rw [n1] at m1; cases m1
      have h02 : t2.size = 0 := by rw [m2.size, m5]; rfl
      have hf2 : t2.fns = x.fns := m3
      have hin := insertAllX_sat may x.arr x.arr.occ t2 e2 m2 (slots_of_occ hx.arr)
        (by rw [m5, List.append_nil, hf2]; exact contents_pairwise hx) (by rw [occ_length hx]; omega)
      have hxc : ∀ e, ∃ e', ({ x with fns := t.clear.fns } : Table K V).clearX e =
          some ({ x.clear with fns := t.fns }, e') ∧ Balanced e e' x x.clear := by
        intro e
        obtain ⟨e', l1, l2⟩ := clearX_eq hx e
        refine ⟨e', ?_, l2⟩
        unfold Table.clearX at l1 ⊢
        simp only [clear_with_fns, c3]
        cases hd : Arrays.destroyX x.arr.occ x.arr e with
        | none => rw [hd] at l1; cases l1
        | some r => rw [hd] at l1; simp at l1 ⊢; exact l1
      simp only [n1]
      cases hr2 : Table.insertAllX may x.arr x.arr.occ t2 e2 with
      | bad => rw [hr2] at hin; exact hin.elim
      | threw e3 t3 =>
        rw [hr2] at hin
        obtain ⟨i1, i2, i3, _, i5, q, r, i6, i7⟩ := hin
        obtain ⟨e4, l1, l2⟩ := hxc e3
        simp only [l1]
        refine ⟨(Led.trans ((hb2.trans n2).trans i5) l2).cast (by simp only; ring) (by simp only; ring), i1, ?_, d4,
          Or.inr (Or.inr ⟨i2.trans hf2, rfl, r.filterMap (fun p => x.arr.slot p.1 p.2), ?_⟩)⟩
        · rw [i3, m4]; exact c4
        · rw [contents_take_drop x i6]
          rw [m5, List.append_nil] at i7
          exact List.Perm.append_right _ i7.symm
      | done e3 t3 =>
        rw [hr2] at hin
        obtain ⟨i1, i2⟩ := hin
        obtain ⟨e4, l1, l2⟩ := hxc e3
        simp only [l1, i1]
        refine ⟨by rw [clear_with_fns, c3], (Led.trans ((hb2.trans n2).trans i2) l2).cast (by simp only; ring) (by simp only; ring)⟩

/-- `merge`: an exception may lose elements, at most duplicates nothing and keeps both containers valid -/
theorem mergeX_sat (may : Call → Bool) (mv : Bool) (cfg : Cfg) : ∀ (ps : List Pos) (t x : Table K V) (e : Env), t.Inv →
    x.Inv → ps.Nodup → (∀ p ∈ ps, ∃ y, x.arr.slot p.1 p.2 = some y) →
    (Table.mergeX may mv cfg ps t x e).Sat
      (fun e' r => Table.mergeLoop cfg ps t x = some r ∧
        Led e e' (owned r.1.arr + owned r.2.arr - owned t.arr - owned x.arr) ((r.1.size : Int) + r.2.size - t.size - x.size))
      (fun e' r => r.1.Inv ∧ r.2.Inv ∧ r.1.fns = t.fns ∧ r.1.al = t.al ∧ r.2.fns = x.fns ∧ r.2.al = x.al ∧
        Led e e' (owned r.1.arr + owned r.2.arr - owned t.arr - owned x.arr) ((r.1.size : Int) + r.2.size - t.size - x.size) ∧
        ∃ lost, (t.contents ++ x.contents).Perm (lost ++ (r.1.contents ++ r.2.contents)) ∧
          ((mv = false ∨ may .hash = false ∧ may .transfer = false) → lost.length = 1)) := by
  intro ps
  induction ps with
  | nil => intro t x e _ _ _ _; exact ⟨rfl, (Led.refl e).cast (by simp only; ring) (by simp only; ring)⟩
  | cons p ps ih =>
    intro t x e hi hx hnd hs
    obtain ⟨y, hy⟩ := hs p (by simp)
    have hnp := (List.nodup_cons.mp hnd).1
    have hem := emplaceImplX_sat may mv cfg hi y e
    unfold Table.mergeX Table.mergeLoop
    simp only [hy]
    cases hr : t.emplaceImplX may mv cfg y e with
    | bad => rw [hr] at hem; exact hem.elim
    | threw e1 t' =>
      rw [hr] at hem
      obtain ⟨k1, k2, k3⟩ := hem
      obtain ⟨x', e2, j1, j2, j3, j4, j5, j6, j7, j8, j9⟩ := eraseAtX_eq hx hy e1
      simp only [j1]
      refine ⟨k1.inv, j3, k1.fns, k1.al, j4, j5, (Led.trans k2 j8).cast (by simp only; ring) (by simp only; ring), ?_⟩
      by_cases hm : mv = false ∨ may .hash = false ∧ may .transfer = false
      · refine ⟨[y], ?_, fun _ => rfl⟩
        rw [k3 (Or.inr hm)]
        exact (List.Perm.append_left _ j7).trans List.perm_middle
      · obtain ⟨l, hl⟩ := k1.sub
        refine ⟨y :: l, ?_, fun h => absurd h hm⟩
        refine (List.Perm.append_left _ j7).trans (List.perm_middle.trans (List.Perm.cons _ ?_))
        show (t.contents ++ x'.contents).Perm (l ++ (t'.contents ++ x'.contents))
        rw [← List.append_assoc]; exact List.Perm.append_right _ hl
    | done e1 r =>
      rw [hr] at hem
      obtain ⟨t1, q, b⟩ := r
      obtain ⟨k1, k2⟩ := hem
      simp only [k1]
      rcases emplaceImpl_spec cfg hi y with ⟨g, j, z, m1, _⟩ | ⟨t2, g, j, m1, m2, m3, m4, m5, m6, m7, _⟩
      · rw [k1] at m1; cases m1
        simp only
        refine (ih t x e1 hi hx (List.nodup_cons.mp hnd).2 (fun q hq => hs q (by simp [hq]))).imp ?_ ?_
        · rintro e2 r ⟨n1, n2⟩
          exact ⟨n1, (Led.trans k2 n2).cast (by ring) (by ring)⟩
        · rintro e2 r ⟨n1, n2, n3, n4, n5, n6, n7, n8⟩
          exact ⟨n1, n2, n3, n4, n5, n6, (Led.trans k2 n7).cast (by ring) (by ring), n8⟩
      · rw [k1] at m1; cases m1
        simp only at k2 ⊢
        obtain ⟨x', e2, j1, j2, j3, j4, j5, j6, j7, j8, j9⟩ := eraseAtX_eq hx hy e1
        simp only [j1, j2]
        refine (ih t1 x' e2 m2 j3 (List.nodup_cons.mp hnd).2 (fun q hq => by
          rw [j9 q (by rintro rfl; exact hnp hq)]; exact hs q (by simp [hq]))).imp ?_ ?_
        · rintro e3 r ⟨n1, n2⟩
          exact ⟨n1, (Led.trans (Led.trans k2 j8) n2).cast (by ring) (by ring)⟩
        · rintro e3 r ⟨n1, n2, n3, n4, n5, n6, n7, lost, n8, n9⟩
          refine ⟨n1, n2, n3.trans m3, n4.trans m4, n5.trans j4, n6.trans j5,
            (Led.trans (Led.trans k2 j8) n7).cast (by ring) (by ring), lost, ?_, n9⟩
          refine List.Perm.trans ?_ n8
          refine (List.Perm.append_left _ j7).trans (List.perm_middle.trans ?_)
          exact (List.Perm.append_right _ m7).symm

end Foa

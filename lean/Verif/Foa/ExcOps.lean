/-
Exception behaviour of the operations of the open-addressing containers.
-/
import Verif.Foa.ExcLemmas

namespace Foa
variable {K V : Type}

theorem newX_some {may : Call → Bool} {cfg : Cfg} {al n : Nat} {e e' : Env} {a : Arrays K V}
    (h : Arrays.newX may cfg al n e = some (e', a)) : a = Arrays.new_ cfg al n ∧ Led e e' (owned a) 0 := by
  unfold Arrays.newX at h
  split at h
  · next he =>
    cases hc : e.call may .alloc with
    | none => rw [hc] at h; cases h
    | some e1 =>
      rw [hc] at h
      cases h
      refine ⟨rfl, ((Env.call_some hc).trans (Led.addB _ _)).cast ?_ (by simp)⟩
      unfold owned; rw [if_pos he]; simp
  · next he =>
    cases h
    refine ⟨rfl, (Led.refl _).cast ?_ rfl⟩
    unfold owned; rw [if_neg he]

theorem newX_none {may : Call → Bool} {cfg : Cfg} {al n : Nat} {e : Env}
    (h : (Arrays.newX may cfg al n e : Option (Env × Arrays K V)) = none) : may .alloc = true := by
  unfold Arrays.newX at h
  split at h
  · cases hc : e.call may .alloc with
    | none => exact Env.call_none hc
    | some e1 => rw [hc] at h; cases h
  · cases h

/-- An exception left the container valid, with the same function objects and allocator; it may have lost elements. -/
structure Kept (t t' : Table K V) : Prop where
  inv : t'.Inv
  fns : t'.fns = t.fns
  al : t'.al = t.al
  has : t'.arr.hasElems = t.arr.hasElems
  sub : ∃ lost, t.contents.Perm (lost ++ t'.contents)

theorem Kept.refl {t : Table K V} (hi : t.Inv) : Kept t t := ⟨hi, rfl, rfl, rfl, ⟨[], List.Perm.refl _⟩⟩

theorem Kept.owned {t t' : Table K V} (h : Kept t t') : owned t'.arr = owned t.arr := by
  unfold Foa.owned; rw [h.has]

/-- ledger movements match what the container owns -/
def Balanced (e e' : Env) (t t' : Table K V) : Prop :=
  Led e e' (owned t'.arr - owned t.arr) ((t'.size : Int) - t.size)

theorem Balanced.refl (e : Env) (t : Table K V) : Balanced e e t t := (Led.refl e).cast (by simp) (by simp)

/-! ### insertion -/

theorem uncheckedEmplaceX_sat (may : Call → Bool) {t : Table K V} (hi : t.Inv) (x : K × V)
    (hno : ∀ y ∈ t.contents, t.fns.eq x.1 y.1 = false) (hlt : t.size < t.ml) (e : Env) :
    (t.uncheckedEmplaceX may x e).Sat
      (fun e' r => t.uncheckedInsert x = some r ∧ Led e e' 0 1 ∧ r.1.Inv ∧ r.1.fns = t.fns ∧ r.1.al = t.al ∧
        r.1.ml = t.ml ∧ r.1.size = t.size + 1 ∧ r.1.arr.hasElems = t.arr.hasElems ∧ r.1.contents.Perm (x :: t.contents))
      (fun e' t' => may .construct = true ∧ Led e e' 0 0 ∧ t'.Inv ∧ t'.fns = t.fns ∧ t'.al = t.al ∧ t'.ml = t.ml ∧
        t'.size = t.size ∧ t'.arr.hasElems = t.arr.hasElems ∧ t'.contents = t.contents) := by
  have hlen : t.arr.contents.length < t.arr.capacity := by
    have e1 := hi.size; have e2 := hi.ml_le
    change t.size = t.arr.contents.length at e1
    change t.ml ≤ t.arr.capacity at e2
    omega
  obtain ⟨a', g, j, e1, e2, e3, e4, e5⟩ := emplace_inv hi.law hi.arr x hno hlen
  have hemp := emplaceX_sat may .construct t.arr (t.fns.hash x.1) x e e1
  unfold Table.uncheckedEmplaceX
  cases hx : t.arr.emplaceX may .construct (t.fns.hash x.1) x e with
  | bad => rw [hx] at hemp; exact hemp.elim
  | threw e' a =>
    rw [hx] at hemp
    obtain ⟨h1, h2, h3⟩ := hemp
    obtain ⟨i1, i2⟩ := h2.table hi
    exact ⟨h1, h3, i1, rfl, rfl, rfl, rfl, h2.hasElems, i2⟩
  | done e' r =>
    rw [hx] at hemp
    obtain ⟨rfl, h2⟩ := hemp
    refine ⟨by unfold Table.uncheckedInsert; rw [e1], h2, ⟨hi.law, e2, ?_, ?_, hlt, ?_⟩, rfl, rfl, rfl, rfl, e3.hasElems, e5⟩
    · intro h; rw [show a'.al = t.arr.al from e3.al]; exact hi.al e4
    · show t.size + 1 = a'.contents.length
      rw [e5.length_eq, hi.size]; rfl
    · show t.ml ≤ Table.initMl a'
      rw [initMl_congr e3.capacity]; exact hi.ml_init

theorem emplaceIntoX_sat (may : Call → Bool) (mv : Bool) (cfg : Cfg) {t : Table K V} (hi : t.Inv) (x : K × V)
    (hno : ∀ y ∈ t.contents, t.fns.eq x.1 y.1 = false) (n : Nat) (hgr : 0 < n)
    (hml : t.size < initialMaxLoad (capacityFor n)) (e : Env) :
    (t.emplaceIntoX may mv cfg n x e).Sat
      (fun e' r => t.emplaceIntoNew x (Arrays.new_ cfg t.al n) = some r ∧ Balanced e e' t r.1)
      (fun e' t' => Kept t t' ∧ Balanced e e' t t' ∧
        ((mv = false ∨ may .hash = false ∧ may .transfer = false) → t' = t)) := by
  have hcap := new_capacity (K := K) (V := V) cfg t.al n hgr
  have hcl : initialMaxLoad (capacityFor n) ≤ capacityFor n := initialMaxLoad_le_cap (kFor n)
  generalize hM : initialMaxLoad (capacityFor n) = M at hml hcl
  unfold Table.emplaceIntoX
  cases hnew : (Arrays.newX may cfg t.al n e : Option (Env × Arrays K V)) with
  | none => exact ⟨Kept.refl hi, Balanced.refl _ _, fun _ => rfl⟩
  | some en =>
    obtain ⟨e1, new⟩ := en
    obtain ⟨rfl, hl1⟩ := newX_some hnew
    obtain ⟨a', g, j, e1', e2, e3, e4, e5⟩ := emplace_inv hi.law (new_inv cfg t.fns t.al n) x
      (by rw [new_contents]; simp) (by rw [new_contents, hcap]; simp only [List.length_nil]; omega)
    rw [new_contents] at e5
    have hperm : (t.contents ++ a'.contents).Perm (x :: t.contents) :=
      (List.Perm.append_left _ e5).trans (List.perm_append_comm)
    have hpw : (t.contents ++ a'.contents).Pairwise (Ineq t.fns) := by
      rw [hperm.pairwise_iff (fun h => Ineq.symm hi.law h), List.pairwise_cons]
      exact ⟨hno, contents_pairwise hi⟩
    have hmle : Table.initMl a' = M := by
      unfold Table.initMl; rw [e3.capacity, hcap, hM]
    have hemp := emplaceX_sat may .construct (Arrays.new_ cfg t.al n : Arrays K V)
      (t.fns.hash x.1) x e1 e1'
    have hown : owned a' = owned (Arrays.new_ cfg t.al n : Arrays K V) := by
      unfold owned; rw [e3.hasElems]
    simp only
    cases hx : (Arrays.new_ cfg t.al n : Arrays K V).emplaceX may .construct (t.fns.hash x.1) x e1 with
    | bad => rw [hx] at hemp; exact hemp.elim
    | threw e2 n' =>
      rw [hx] at hemp
      obtain ⟨h1, h2, h3⟩ := hemp
      obtain ⟨e3', hf1, hf2⟩ := freeX_eq (a := n') (al := t.al) e2 (fun _ => by rw [h2.al, new_al])
        (fun g j => by rw [h2.slot, new_slot])
      simp only [hf1]
      refine ⟨Kept.refl hi, ?_, fun _ => by trivial⟩
      refine ((hl1.trans h3).trans hf2).cast ?_ (by simp)
      unfold owned; rw [h2.hasElems]; simp
    | done e2' r =>
      rw [hx] at hemp
      obtain ⟨rfl, h2⟩ := hemp
      have hreh := uncheckedRehashX_sat may mv hi a' e2 (fun _ => by rw [e3.al, new_al]) hpw
        (by rw [e5.length_eq, hmle]; simp only [List.length_cons, List.length_nil]; omega) e2'
      have hlen1 : a'.contents.length = 1 := by rw [e5.length_eq]; rfl
      simp only
      cases hr : t.uncheckedRehashX may mv a' e2' with
      | bad => rw [hr] at hreh; exact hreh.elim
      | threw e3' t' =>
        rw [hr] at hreh
        obtain ⟨k1, k2, k3, k4, k5, k6, k7, k8⟩ := hreh
        refine ⟨⟨k1, k2, k3, k4, k5⟩, ?_, ?_⟩
        · refine ((hl1.trans h2).trans k8).cast ?_ ?_
          · rw [hown]; unfold owned; rw [k4]; simp
          · rw [hlen1]; push_cast; ring
        · rintro (h | ⟨h, h'⟩)
          · exact k6 h
          · rw [h, h'] at k7; simp at k7
      | done e3' t' =>
        rw [hr] at hreh
        obtain ⟨k1, k2⟩ := hreh
        obtain ⟨t'', f1, f2, f3, f4, f5, f6, f7, f7', _⟩ := uncheckedRehash_spec hi a' e2
          (fun _ => by rw [e3.al, new_al]) hpw (by rw [e5.length_eq, hmle]; simp only [List.length_cons, List.length_nil]; omega)
        rw [k1] at f1; cases f1
        refine ⟨emplaceIntoNew_of e1' k1, ?_⟩
        refine ((hl1.trans h2).trans k2).cast ?_ ?_
        · show _ = owned t'.arr - owned t.arr
          have : owned t'.arr = owned a' := by unfold owned; rw [f7']
          rw [this, hown]; ring
        · show _ = ((t'.size + 1 : Nat) : Int) - t.size
          rw [f4]; push_cast; ring

/-- the strong guarantee of `unchecked_emplace_with_rehash` up to a failing transfer of the old elements -/
theorem emplaceWithRehashX_sat (may : Call → Bool) (mv : Bool) (cfg : Cfg) {t : Table K V} (hi : t.Inv) (x : K × V)
    (hno : ∀ y ∈ t.contents, t.fns.eq x.1 y.1 = false) (e : Env) :
    (t.emplaceWithRehashX may mv cfg x e).Sat
      (fun e' r => t.emplaceWithRehash cfg x = some r ∧ Balanced e e' t r.1)
      (fun e' t' => Kept t t' ∧ Balanced e e' t t' ∧
        ((mv = false ∨ may .hash = false ∧ may .transfer = false) → t' = t)) :=
  emplaceIntoX_sat may mv cfg hi x hno (growthRequest t.size) (slotsFor_pos (by omega)) (lt_maxLoad_growth t.size) e

theorem emplaceImplX_sat (may : Call → Bool) (mv : Bool) (cfg : Cfg) {t : Table K V} (hi : t.Inv) (x : K × V) (e : Env) :
    (t.emplaceImplX may mv cfg x e).Sat
      (fun e' r => t.emplaceImpl cfg x = some r ∧ Balanced e e' t r.1)
      (fun e' t' => Kept t t' ∧ Balanced e e' t t' ∧
        ((t.size < t.ml ∨ mv = false ∨ may .hash = false ∧ may .transfer = false) → t'.contents = t.contents)) := by
  have hfs := hi.find_spec x.1
  unfold Table.emplaceImplX Table.emplaceImpl
  rcases hfs with ⟨g, j, y, h1, h2, h3⟩ | ⟨h1, h2⟩
  · have hf := findX_sat may t x.1 e h1
    cases hx : t.findX may x.1 e with
    | bad => rw [hx] at hf; exact hf.elim
    | threw e' u =>
      rw [hx] at hf
      exact ⟨Kept.refl hi, hf.2.cast (by simp) (by simp), fun _ => rfl⟩
    | done e' r =>
      rw [hx] at hf
      obtain ⟨rfl, hl⟩ := hf
      refine ⟨by rw [h1], hl.cast (by simp) (by simp)⟩
  · have hno : ∀ y ∈ t.contents, t.fns.eq x.1 y.1 = false := by
      intro y hy
      obtain ⟨g, j, h⟩ := hi.mem.mp hy
      exact h2 g j y h
    have hf := findX_sat may t x.1 e h1
    cases hx : t.findX may x.1 e with
    | bad => rw [hx] at hf; exact hf.elim
    | threw e' u =>
      rw [hx] at hf
      exact ⟨Kept.refl hi, hf.2.cast (by simp) (by simp), fun _ => rfl⟩
    | done e' r =>
      rw [hx] at hf
      obtain ⟨rfl, hl⟩ := hf
      rw [h1]
      simp only
      by_cases hlt : t.size < t.ml
      · rw [if_pos hlt, if_pos hlt]
        have hu := uncheckedEmplaceX_sat may hi x hno hlt e'
        cases hux : t.uncheckedEmplaceX may x e' with
        | bad => rw [hux] at hu; exact hu.elim
        | threw e2 t' =>
          rw [hux] at hu
          obtain ⟨_, k1, k2, k3, k4, k5, k6, k7, k8⟩ := hu
          refine ⟨⟨k2, k3, k4, k7, ⟨[], by rw [k8]; exact List.Perm.refl _⟩⟩, ?_, fun _ => k8⟩
          refine (hl.trans k1).cast ?_ (by rw [k6]; simp)
          unfold owned; rw [k7]; simp
        | done e2 r =>
          rw [hux] at hu
          obtain ⟨k0, k1, k2, k3, k4, k5, k6, k7, k8⟩ := hu
          refine ⟨by rw [k0]; rfl, ?_⟩
          refine (hl.trans k1).cast ?_ (by rw [k6]; push_cast; ring)
          show _ = owned r.1.arr - owned t.arr
          unfold owned; rw [k7]; simp
      · rw [if_neg hlt, if_neg hlt]
        have hu := emplaceWithRehashX_sat may mv cfg hi x hno e'
        cases hux : t.emplaceWithRehashX may mv cfg x e' with
        | bad => rw [hux] at hu; exact hu.elim
        | threw e2 t' =>
          rw [hux] at hu
          obtain ⟨k1, k2, k3⟩ := hu
          refine ⟨k1, (hl.trans k2).cast (by simp) (by simp), ?_⟩
          rintro (h | h)
          · exact absurd h hlt
          · rw [k3 h]
        | done e2 r =>
          rw [hux] at hu
          obtain ⟨k1, k2⟩ := hu
          exact ⟨by rw [k1]; rfl, (hl.trans k2).cast (by simp) (by simp)⟩

end Foa

/-
Programs with exceptions refine the abstract specification; ledgers balance.
-/
import Verif.Foa.Refine
import Verif.Foa.ExcMachine
import Mathlib.Algebra.BigOperators.Group.Finset.Basic
import Mathlib.Tactic.Ring

namespace Foa
open Spec (Op Res Obj upd Loses Thrown)
variable {K V : Type}

/-- The ledgers equal what the first `N` containers own. -/
def Ledger (N : Nat) (e : Env) (s : Nat → Table K V) : Prop :=
  e.blocks = ((List.range N).map (fun i => owned (s i).arr)).sum ∧
  e.elems = ((List.range N).map (fun i => ((s i).size : Int))).sum

theorem sum_upd (f : Table K V → Int) (s : Nat → Table K V) (r : Nat) (t : Table K V) : ∀ N, r < N →
    ((List.range N).map (fun i => f (upd s r t i))).sum = ((List.range N).map (fun i => f (s i))).sum + (f t - f (s r)) := by
  have hlt : ∀ N, N ≤ r → ((List.range N).map (fun i => f (upd s r t i))) = ((List.range N).map (fun i => f (s i))) := by
    intro N hN
    apply List.map_congr_left
    intro i hi
    have : i ≠ r := by have := List.mem_range.mp hi; omega
    unfold Spec.upd; rw [if_neg this]
  intro N
  induction N with
  | zero => intro h; omega
  | succ N ih =>
    intro h
    rw [List.range_succ, List.map_append, List.map_append, List.sum_append, List.sum_append]
    rcases Nat.lt_or_ge r N with hr | hr
    · rw [ih hr]
      have : upd s r t N = s N := by unfold Spec.upd; rw [if_neg (by omega)]
      simp [this]; ring
    · obtain rfl : r = N := by omega
      rw [hlt _ hr]
      have : upd s r t r = t := by unfold Spec.upd; rw [if_pos rfl]
      simp [this]

theorem Ledger.upd {N : Nat} {e e' : Env} {s : Nat → Table K V} (h : Ledger N e s) {r : Nat} (hr : r < N) {t : Table K V}
    (hl : Balanced e e' (s r) t) : Ledger N e' (Spec.upd s r t) := by
  refine ⟨?_, ?_⟩
  · rw [hl.blocks, h.1, sum_upd (fun t => owned t.arr) s r t N hr]
  · rw [hl.elems, h.2, sum_upd (fun t => (t.size : Int)) s r t N hr]

theorem upd_ne {α : Type} (s : Nat → α) {r q : Nat} (h : q ≠ r) (x : α) : upd s r x q = s q := by
  unfold Spec.upd; rw [if_neg h]

theorem upd_eq {α : Type} (s : Nat → α) (r : Nat) (x : α) : upd s r x r = x := by
  unfold Spec.upd; rw [if_pos rfl]

theorem upd_comm {α : Type} (s : Nat → α) {r q : Nat} (h : r ≠ q) (x y : α) :
    upd (upd s r x) q y = upd (upd s q y) r x := by
  funext i
  unfold Spec.upd
  by_cases h1 : i = q
  · have h2 : i ≠ r := by rintro rfl; exact h h1
    rw [if_pos h1, if_neg h2, if_pos h1]
  · rw [if_neg h1]
    by_cases h2 : i = r
    · rw [if_pos h2, if_pos h2]
    · rw [if_neg h2, if_neg h2, if_neg h1]

theorem Ledger.upd2 {N : Nat} {e e' : Env} {s : Nat → Table K V} (h : Ledger N e s) {r q : Nat} (hr : r < N) (hq : q < N)
    (hne : r ≠ q) {t x : Table K V}
    (hl : Led e e' (owned t.arr + owned x.arr - owned (s r).arr - owned (s q).arr)
      ((t.size : Int) + x.size - (s r).size - (s q).size)) : Ledger N e' (Spec.upd (Spec.upd s r t) q x) := by
  refine ⟨?_, ?_⟩
  · rw [hl.blocks, h.1, sum_upd (fun t => owned t.arr) _ q x N hq, sum_upd (fun t => owned t.arr) s r t N hr,
      upd_ne s (Ne.symm hne)]
    ring
  · rw [hl.elems, h.2, sum_upd (fun t => (t.size : Int)) _ q x N hq, sum_upd (fun t => (t.size : Int)) s r t N hr,
      upd_ne s (Ne.symm hne)]
    ring

theorem Ledger.of_led {N : Nat} {e e' : Env} {s : Nat → Table K V} (h : Ledger N e s) (hl : Led e e' 0 0) : Ledger N e' s :=
  ⟨by rw [hl.blocks, h.1]; simp, by rw [hl.elems, h.2]; simp⟩

/-- growing cannot lose elements -/
def strong (may : Call → Bool) (mv : Bool) : Bool := !mv || (!may .hash && !may .transfer)

theorem strong_iff {may : Call → Bool} {mv : Bool} (h : strong may mv = true) :
    mv = false ∨ may .hash = false ∧ may .transfer = false := by
  unfold strong at h
  simpa using h

theorem kept_loses {st : Bool} {t t' : Table K V} {o : Obj K V} (h : R t o) (hk : Kept t t')
    (hs : st = true → t'.contents = t.contents) :
    Loses st o.elems t'.contents ∧ R t' { o with elems := t'.contents } := by
  refine ⟨?_, hk.inv, by rw [hk.fns]; exact h.eq, by rw [hk.al]; exact h.al, List.Perm.refl _⟩
  by_cases hst : st = true
  · exact ⟨[], by rw [hs hst]; exact h.elems.symm, fun _ => rfl⟩
  · obtain ⟨lost, hl⟩ := hk.sub
    exact ⟨lost, h.elems.symm.trans hl, fun h => absurd h hst⟩

/-- What a call must satisfy: it returns what the exception-free call returns, or throws leaving a state the specification
allows; both with balanced ledgers. -/
def Good (may : Call → Bool) (mv : Bool) (c : MCfg) (veq : K × V → K × V → Bool) (s : Nat → Table K V) (a : Nat → Obj K V)
    (op : Op K V) (e : Env) (o : Out ((Nat → Table K V) × Res K V) (Nat → Table K V)) : Prop :=
  o.Sat (fun e' y => step c veq s op = some y ∧ ∀ N, (∀ i ∈ op.vars, i < N) → Ledger N e s → Ledger N e' y.1)
    (fun e' s' => (∃ a', Thrown c.traits (strong may mv) op a a' ∧ RS s' a') ∧
      ∀ N, (∀ i ∈ op.vars, i < N) → Ledger N e s → Ledger N e' s')

theorem lift1_good {α : Type} {may : Call → Bool} {mv : Bool} {c : MCfg} {veq : K × V → K × V → Bool} {s : Nat → Table K V}
    {a : Nat → Obj K V} {op : Op K V} {e : Env} {r : Nat} (hv : r ∈ op.vars) {f : α → Option (Table K V × Res K V)}
    {o : Out α (Table K V)} {P : Env → α → Prop} {Q : Env → Table K V → Prop} (ho : o.Sat P Q)
    (hP : ∀ e' x, P e' x → ∃ y, f x = some y ∧ step c veq s op = some (upd s r y.1, y.2) ∧ Balanced e e' (s r) y.1)
    (hQ : ∀ e' t, Q e' t → Balanced e e' (s r) t ∧ ∃ a', Thrown c.traits (strong may mv) op a a' ∧ RS (upd s r t) a') :
    Good may mv c veq s a op e (lift1 s r f o) := by
  cases o with
  | bad => exact ho.elim
  | threw e' t =>
    obtain ⟨h1, h2⟩ := hQ e' t ho
    exact ⟨h2, fun N hN hl => hl.upd (hN r hv) h1⟩
  | done e' x =>
    obtain ⟨y, h1, h2, h3⟩ := hP e' x ho
    unfold lift1 Good
    simp only [h1]
    exact ⟨h2, fun N hN hl => hl.upd (hN r hv) h3⟩

theorem lift0_good {α : Type} {may : Call → Bool} {mv : Bool} {c : MCfg} {veq : K × V → K × V → Bool} {s : Nat → Table K V}
    {a : Nat → Obj K V} (h : RS s a) {op : Op K V} {e : Env} {f : α → Option (Res K V)}
    {o : Out α Unit} {P : Env → α → Prop} (ho : o.Sat P (fun e' _ => Led e e' 0 0))
    (hP : ∀ e' x, P e' x → ∃ y, f x = some y ∧ step c veq s op = some (s, y) ∧ Led e e' 0 0)
    (hT : Thrown c.traits (strong may mv) op a a) :
    Good may mv c veq s a op e (lift0 s f o) := by
  cases o with
  | bad => exact ho.elim
  | threw e' t => exact ⟨⟨a, hT, h⟩, fun N _ hl => hl.of_led ho⟩
  | done e' x =>
    obtain ⟨y, h1, h2, h3⟩ := hP e' x ho
    unfold lift0 Good
    simp only [h1]
    exact ⟨h2, fun N _ hl => hl.of_led h3⟩

theorem lift2_good {may : Call → Bool} {mv : Bool} {c : MCfg} {veq : K × V → K × V → Bool} {s : Nat → Table K V}
    {a : Nat → Obj K V} {op : Op K V} {e : Env} {r q : Nat} (hr : r ∈ op.vars) (hq : q ∈ op.vars) (hne : r ≠ q)
    {o : Out (Table K V × Table K V) (Table K V × Table K V)} {P Q : Env → Table K V × Table K V → Prop} (ho : o.Sat P Q)
    (hP : ∀ e' y, P e' y → step c veq s op = some (upd (upd s r y.1) q y.2, .unit) ∧
      Led e e' (owned y.1.arr + owned y.2.arr - owned (s r).arr - owned (s q).arr)
        ((y.1.size : Int) + y.2.size - (s r).size - (s q).size))
    (hQ : ∀ e' y, Q e' y → Led e e' (owned y.1.arr + owned y.2.arr - owned (s r).arr - owned (s q).arr)
        ((y.1.size : Int) + y.2.size - (s r).size - (s q).size) ∧
      ∃ a', Thrown c.traits (strong may mv) op a a' ∧ RS (upd (upd s r y.1) q y.2) a') :
    Good may mv c veq s a op e (lift2 s r q o) := by
  cases o with
  | bad => exact ho.elim
  | threw e' y =>
    obtain ⟨h1, h2⟩ := hQ e' y ho
    exact ⟨h2, fun N hN hl => hl.upd2 (hN r hr) (hN q hq) hne h1⟩
  | done e' y =>
    obtain ⟨h1, h2⟩ := hP e' y ho
    exact ⟨h1, fun N hN hl => hl.upd2 (hN r hr) (hN q hq) hne h2⟩

theorem replaceX_good {may : Call → Bool} {mv : Bool} {c : MCfg} {veq : K × V → K × V → Bool} {s : Nat → Table K V}
    {a : Nat → Obj K V} (h : RS s a) {op : Op K V} {e e1 : Env} {r : Nat} (hr : r ∈ op.vars) {t : Table K V}
    (hs : step c veq s op = some (upd s r t, .unit)) (hc : Created e e1 t) :
    Good may mv c veq s a op e (replaceX s r t e1) := by
  obtain ⟨e2, h1, h2⟩ := destroyTX_eq (h r).inv e1
  unfold replaceX Good
  simp only [h1]
  refine ⟨hs, fun N hN hl => hl.upd (hN r hr) ?_⟩
  exact (Led.trans hc h2).cast (by ring) (by ring)

theorem replaceX_good2 {may : Call → Bool} {mv : Bool} {c : MCfg} {veq : K × V → K × V → Bool} {s : Nat → Table K V}
    {a : Nat → Obj K V} (h : RS s a) {op : Op K V} {e e1 : Env} {r q : Nat} (hr : r ∈ op.vars) (hq : q ∈ op.vars)
    (hne : r ≠ q) {t x : Table K V} (hs : step c veq s op = some (upd (upd s r t) q x, .unit))
    (hc : Led e e1 (owned t.arr + owned x.arr - owned (s q).arr) ((t.size : Int) + x.size - (s q).size)) :
    Good may mv c veq s a op e (replaceX (upd s q x) r t e1) := by
  obtain ⟨e2, h1, h2⟩ := destroyTX_eq (h r).inv e1
  unfold replaceX Good
  rw [upd_ne s hne]
  simp only [h1]
  rw [← upd_comm s hne]
  refine ⟨hs, fun N hN hl => hl.upd2 (hN r hr) (hN q hq) hne ?_⟩
  exact (Led.trans hc h2).cast (by ring) (by ring)

theorem readIns_eq (cfg : Cfg) (t : Table K V) (x : K × V) {y : Table K V × Pos × Bool} (h : t.emplaceImpl cfg x = some y) :
    t.opInsert cfg x = Table.readIns y := by
  unfold Table.opInsert; rw [h]; rfl

theorem readAssign_eq (cfg : Cfg) (t : Table K V) (k : K) (v : V) {y : Table K V × Pos × Bool}
    (h : t.emplaceImpl cfg (k, v) = some y) : t.opInsertOrAssign cfg k v = Table.readAssign v y := by
  obtain ⟨t', p, b⟩ := y
  unfold Table.opInsertOrAssign; rw [h]
  cases b with
  | true =>
    simp only [Table.readAssign]
    cases t'.deref p <;> rfl
  | false =>
    simp only [Table.readAssign]
    cases t'.assignAt p v with
    | none => rfl
    | some t'' => simp only [Option.bind_some]; cases t''.deref p <;> rfl

theorem readIndex_eq (cfg : Cfg) (t : Table K V) (k : K) (v : V) {y : Table K V × Pos × Bool}
    (h : t.emplaceImpl cfg (k, v) = some y) : t.opIndex cfg k v = Table.readIndex y := by
  obtain ⟨t', p, b⟩ := y
  unfold Table.opIndex; rw [h]
  simp only [Table.readIndex]
  cases t'.deref p <;> rfl

theorem assignAt_same {t t' : Table K V} {p : Pos} {v : V} (h : t.assignAt p v = some t') :
    t'.size = t.size ∧ owned t'.arr = owned t.arr := by
  unfold Table.assignAt at h
  split at h
  · cases h
  · cases h; exact ⟨rfl, rfl⟩

theorem mergeSelfX_sat (may : Call → Bool) (mv : Bool) (cfg : Cfg) {t : Table K V} (hi : t.Inv) :
    ∀ (ps : List Pos) (e : Env), (∀ p ∈ ps, ∃ y, t.arr.slot p.1 p.2 = some y) →
    (Table.mergeSelfX may mv cfg ps t e).Sat
      (fun e' t' => Table.mergeSelfLoop cfg ps t = some t' ∧ Balanced e e' t t')
      (fun e' t' => Kept t t' ∧ Balanced e e' t t') := by
  intro ps
  induction ps with
  | nil => intro e _; exact ⟨rfl, Balanced.refl _ _⟩
  | cons p ps ih =>
    intro e hs
    obtain ⟨y, hy⟩ := hs p (by simp)
    unfold Table.mergeSelfX Table.mergeSelfLoop
    simp only [hy]
    -- the element is found: only the lookup can throw
    have hmem : y ∈ t.contents := hi.mem.mpr ⟨p.1, p.2, hy⟩
    rcases hi.find_spec y.1 with ⟨g, j, z, f1, f2, f3⟩ | ⟨_, f2⟩
    · have hf := findX_sat may t y.1 e f1
      have hem : t.emplaceImpl cfg y = some (t, (g, j), false) := by
        unfold Table.emplaceImpl; rw [f1]
      unfold Table.emplaceImplX
      cases hr : t.findX may y.1 e with
      | bad => rw [hr] at hf; exact hf.elim
      | threw e1 u =>
        rw [hr] at hf
        simp only
        obtain ⟨x', e2, j1, j2, j3, j4, j5, j6, j7, j8, j9⟩ := eraseAtX_eq hi hy e1
        simp only [j1]
        exact ⟨⟨j3, j4, j5, j6, [y], j7⟩, (Balanced.of_led hf.2 t).trans j8⟩
      | done e1 r =>
        rw [hr] at hf
        obtain ⟨rfl, hl⟩ := hf
        simp only [hem]
        refine (ih e1 (fun q hq => hs q (by simp [hq]))).imp ?_ ?_
        · rintro e2 t' ⟨k1, k2⟩; exact ⟨k1, (Balanced.of_led hl t).trans k2⟩
        · rintro e2 t' ⟨k1, k2⟩; exact ⟨k1, (Balanced.of_led hl t).trans k2⟩
    · have := f2 p.1 p.2 y hy
      rw [hi.law.refl] at this; cases this

theorem equalX_sat (may : Call → Bool) (veq : K × V → K × V → Bool) (x : Table K V) {y : Table K V} (hy : y.Inv) :
    ∀ (ps : List Pos) (e : Env), (∀ p ∈ ps, ∃ z, x.arr.slot p.1 p.2 = some z) →
    (Table.equalX may veq x y ps e).Sat
      (fun e' b => Table.equalLoop veq x y ps = some b ∧ Led e e' 0 0) (fun e' _ => Led e e' 0 0) := by
  intro ps
  induction ps with
  | nil => intro e _; exact ⟨rfl, Led.refl _⟩
  | cons p ps ih =>
    intro e hs
    obtain ⟨z, hz⟩ := hs p (by simp)
    unfold Table.equalX Table.equalLoop
    simp only [hz]
    rcases hy.find_spec z.1 with ⟨g, j, w, f1, f2, f3⟩ | ⟨f1, f2⟩
    · have hf := findX_sat may y z.1 e f1
      cases hr : y.findX may z.1 e with
      | bad => rw [hr] at hf; exact hf.elim
      | threw e1 u => rw [hr] at hf; exact hf.2
      | done e1 r =>
        rw [hr] at hf
        obtain ⟨rfl, hl⟩ := hf
        simp only [f1, f2]
        cases hc : e1.call may .eq with
        | none => exact hl
        | some e2 =>
          have hl2 := (hl.trans (Env.call_some hc)).cast (by simp) (by simp) (c := 0) (d := 0)
          simp only
          by_cases hv : veq z w = true
          · simp only [hv, if_true]
            refine (ih e2 (fun q hq => hs q (by simp [hq]))).imp ?_ ?_
            · rintro e3 b ⟨k1, k2⟩; exact ⟨k1, (hl2.trans k2).cast (by simp) (by simp)⟩
            · rintro e3 _ k2; exact (hl2.trans k2).cast (by simp) (by simp)
          · simp only [hv, if_false, Bool.false_eq_true]
            exact ⟨rfl, hl2⟩
    · have hf := findX_sat may y z.1 e f1
      cases hr : y.findX may z.1 e with
      | bad => rw [hr] at hf; exact hf.elim
      | threw e1 u => rw [hr] at hf; exact hf.2
      | done e1 r =>
        rw [hr] at hf
        obtain ⟨rfl, hl⟩ := hf
        simp only [f1]
        exact ⟨rfl, hl⟩

theorem eraseIt_hasElems {regular : Bool} {t : Table K V} {it : It} {y : Table K V × It}
    (h : t.eraseIt regular it = some y) : y.1.arr.hasElems = t.arr.hasElems := by
  have hb : ∀ (pc p : Nat) (t' : Table K V), t.eraseBytes pc p = some t' → t'.arr.hasElems = t.arr.hasElems := by
    intro pc p t' hb
    unfold Table.eraseBytes at hb
    split at hb
    · cases hb
    · dsimp only at hb
      revert hb
      generalize (if (t.arr.grp (pc / 16)).maybeCausedOverflow (pc % 16) = true then 1 else 0) = d
      intro hb
      by_cases hc : t.arr.hasElems = true ∧ d ≤ t.ml ∧ 1 ≤ t.size
      · rw [if_pos hc] at hb; cases hb; rfl
      · rw [if_neg hc] at hb; cases hb
  unfold Table.eraseIt at h
  split at h
  · cases h
  · split at h
    · cases h
    · rename_i hb1
      split at h
      · cases h
      · cases h; exact hb _ _ _ hb1

theorem eraseWalk_hasElems (regular : Bool) (pr : K × V → Bool) : ∀ (fuel : Nat) (t : Table K V) (it : It)
    (y : Table K V × List (K × V)), Table.eraseWalk regular pr fuel t it = some y → y.1.arr.hasElems = t.arr.hasElems := by
  intro fuel
  induction fuel with
  | zero =>
    intro t it y h
    unfold Table.eraseWalk at h
    split at h
    · cases h; rfl
    · cases h
  | succ n ih =>
    intro t it y h
    unfold Table.eraseWalk at h
    split at h
    · cases h; rfl
    · simp only at h
      split at h
      · cases h
      · split at h
        · split at h
          · cases h
          · rename_i t' it' he
            cases hw : Table.eraseWalk regular pr n t' it' with
            | none => rw [hw] at h; cases h
            | some z =>
              rw [hw] at h; cases h
              exact (ih _ _ _ hw).trans (eraseIt_hasElems he)
        · split at h
          · cases h
          · rename_i it' he
            cases hw : Table.eraseWalk regular pr n t it' with
            | none => rw [hw] at h; cases h
            | some z =>
              rw [hw] at h; cases h
              exact ih t it' z hw

theorem opEraseWalk_hasElems {regular : Bool} {pr : K × V → Bool} {t : Table K V} {y : Table K V × Res K V}
    (h : t.opEraseWalk regular pr = some y) : y.1.arr.hasElems = t.arr.hasElems := by
  unfold Table.opEraseWalk at h
  split at h
  · cases h
  · rename_i it _
    cases hw : Table.eraseWalk regular pr t.size t it with
    | none => rw [hw] at h; cases h
    | some z =>
      rw [hw] at h; cases h
      exact eraseWalk_hasElems _ _ _ _ _ _ hw

theorem xstep_good (may : Call → Bool) (mv : Bool) (c : MCfg) (veq : K × V → K × V → Bool) {s : Nat → Table K V}
    {a : Nat → Obj K V} (h : RS s a) (op : Op K V) (hpre : Spec.XPre c.traits (may .alloc) op a) (e : Env) :
    Good may mv c veq s a op e (xstep may mv c veq s op e) := by
  obtain ⟨s', o', hst, _, _⟩ := step_refines c veq h op hpre.1
  have emp : ∀ (r : Nat) (x : K × V), ((s r).emplaceImplX may mv c.toCfg x e).Sat
      (fun e' y => (s r).emplaceImpl c.toCfg x = some y ∧ Balanced e e' (s r) y.1)
      (fun e' t' => Balanced e e' (s r) t' ∧ Loses (strong may mv) (a r).elems t'.contents ∧
        R t' { a r with elems := t'.contents }) := by
    intro r x
    refine (emplaceImplX_sat may mv c.toCfg (h r).inv x e).imp (fun _ _ h => h) ?_
    rintro e' t' ⟨h1, h2, h3⟩
    exact ⟨h2, kept_loses (h r) h1 (fun hs => h3 (Or.inr (strong_iff hs)))⟩
  have find : ∀ (r : Nat) (k : K), ∃ p, (s r).find k = some p ∧ ((s r).findX may k e).Sat
      (fun e' y => y = p ∧ Led e e' 0 0) (fun e' _ => Led e e' 0 0) := by
    intro r k
    rcases (h r).inv.find_spec k with ⟨g, j, y, h1, _, _⟩ | ⟨h1, _⟩
    · exact ⟨_, h1, (findX_sat may (s r) k e h1).imp (fun _ _ h => h) (fun _ _ h => h.2)⟩
    · exact ⟨_, h1, (findX_sat may (s r) k e h1).imp (fun _ _ h => h) (fun _ _ h => h.2)⟩
  cases op with
  | construct r hs eq al n =>
    simp only [xstep]
    cases hc : e.call may .fnCopy with
    | none => exact ⟨⟨a, rfl, h⟩, fun N _ hl => hl⟩
    | some e1 =>
      simp only
      cases hnew : (Arrays.newX may c.toCfg al n e1 : Option (Env × Arrays K V)) with
      | none => exact ⟨⟨a, rfl, h⟩, fun N _ hl => hl.of_led (Env.call_some hc)⟩
      | some en =>
        obtain ⟨e2, ar⟩ := en
        obtain ⟨h1, h2⟩ := newX_created ⟨hs, eq⟩ hnew
        simp only [h1]
        refine replaceX_good h (by simp [Op.vars]) ?_ (((Env.call_some hc).trans h2).cast (by simp) (by simp))
        simp only [step, ctor, (h r).destroy, Option.map_some]
  | insert r x =>
    refine lift1_good (r := r) (op := (.insert r x)) (by simp [Op.vars]) (emp r x) ?_ ?_
    · rintro e' y ⟨h1, h2⟩
      simp only [step, on1, readIns_eq _ _ _ h1] at hst ⊢
      cases hy : Table.readIns y with
      | none => rw [hy] at hst; cases hst
      | some w =>
        refine ⟨w, rfl, by simp, ?_⟩
        unfold Table.readIns at hy
        split at hy
        · cases hy
        · cases hy; exact h2
    · rintro e' t ⟨h1, h2, h3⟩
      exact ⟨h1, _, ⟨_, h2, rfl⟩, h.upd h3⟩
  | insertRange r xs =>
    simp only [xstep]
    refine lift1_good (r := r) (op := (.insertRange r xs)) (by simp [Op.vars]) (insertRangeX_sat may mv c.toCfg xs (s r) e (h r).inv) ?_ ?_
    · rintro e' t ⟨h1, h2⟩
      exact ⟨_, rfl, by simp only [step, on1, h1, Option.map_some], h2⟩
    · rintro e' t ⟨ys, zs, t1, h1, h2, h3, h4, h5⟩
      refine ⟨h4, ?_⟩
      obtain ⟨t1', k1, k2⟩ := R.insertRange c.toCfg ys (s r) (a r) (h r)
      rw [h2] at k1; cases k1
      obtain ⟨l1, l2⟩ := kept_loses (st := strong may mv) k2 h3 (fun hs => h5 (strong_iff hs))
      have hfold : ∀ (ys : List (K × V)) (o : Obj K V),
          (ys.foldl (fun o x => (Spec.insert o x).1) o).eq = o.eq ∧ (ys.foldl (fun o x => (Spec.insert o x).1) o).al = o.al := by
        intro ys
        induction ys with
        | nil => intro o; exact ⟨rfl, rfl⟩
        | cons y ys ih =>
          intro o
          rw [List.foldl_cons, (ih _).1, (ih _).2]
          unfold Spec.insert
          split <;> exact ⟨rfl, rfl⟩
      refine ⟨_, ⟨ys, zs, t.contents, h1, l1, rfl⟩, h.upd ⟨l2.inv, ?_, ?_, List.Perm.refl _⟩⟩
      · rw [l2.eq]; exact (hfold ys (a r)).1
      · rw [l2.al]; exact (hfold ys (a r)).2
  | insertOrAssign r k v =>
    refine lift1_good (r := r) (op := (.insertOrAssign r k v)) (by simp [Op.vars]) (emp r (k, v)) ?_ ?_
    · rintro e' y ⟨h1, h2⟩
      simp only [step, on1, readAssign_eq _ _ _ _ h1] at hst ⊢
      cases hy : Table.readAssign v y with
      | none => rw [hy] at hst; cases hst
      | some w =>
        refine ⟨w, rfl, by simp, ?_⟩
        obtain ⟨t', p, b⟩ := y
        cases b with
        | true =>
          simp only [Table.readAssign] at hy
          cases hd : t'.deref p with
          | none => rw [hd] at hy; cases hy
          | some z => rw [hd] at hy; cases hy; exact h2
        | false =>
          simp only [Table.readAssign] at hy
          cases hd : t'.assignAt p v with
          | none => rw [hd] at hy; cases hy
          | some t'' =>
            rw [hd, Option.bind_some] at hy
            obtain ⟨m1, m2⟩ := assignAt_same hd
            cases hd2 : t''.deref p with
            | none => rw [hd2] at hy; cases hy
            | some z => rw [hd2] at hy; cases hy; exact Led.cast h2 (by rw [m2]) (by rw [m1])
    · rintro e' t ⟨h1, h2, h3⟩
      exact ⟨h1, _, ⟨_, h2, rfl⟩, h.upd h3⟩
  | index r k d =>
    refine lift1_good (r := r) (op := (.index r k d)) (by simp [Op.vars]) (emp r (k, d)) ?_ ?_
    · rintro e' y ⟨h1, h2⟩
      simp only [step, on1, readIndex_eq _ _ _ _ h1] at hst ⊢
      cases hy : Table.readIndex y with
      | none => rw [hy] at hst; cases hst
      | some w =>
        refine ⟨w, rfl, by simp, ?_⟩
        unfold Table.readIndex at hy
        cases hd : y.1.deref y.2.1 with
        | none => rw [hd] at hy; cases hy
        | some z => rw [hd] at hy; cases hy; exact h2
    · rintro e' t ⟨h1, h2, h3⟩
      exact ⟨h1, _, ⟨_, h2, rfl⟩, h.upd h3⟩
  | «at» r k =>
    obtain ⟨p, f1, f2⟩ := find r k
    refine lift0_good (op := (.«at» r k)) h f2 ?_ rfl
    rintro e' y ⟨rfl, hl⟩
    simp only [step, on0, Table.lookup, f1] at hst ⊢
    cases y with
    | none => exact ⟨_, rfl, rfl, hl⟩
    | some p =>
      simp only at hst ⊢
      cases hd : (s r).deref p with
      | none => rw [hd] at hst; cases hst
      | some z => exact ⟨_, rfl, rfl, hl⟩
  | find r k =>
    obtain ⟨p, f1, f2⟩ := find r k
    refine lift0_good (op := (.find r k)) h f2 ?_ rfl
    rintro e' y ⟨rfl, hl⟩
    simp only [step, on0, Table.lookup, f1] at hst ⊢
    cases y with
    | none => exact ⟨_, rfl, rfl, hl⟩
    | some p =>
      simp only at hst ⊢
      cases hd : (s r).deref p with
      | none => rw [hd] at hst; cases hst
      | some z => exact ⟨_, rfl, rfl, hl⟩
  | count r k =>
    obtain ⟨p, f1, f2⟩ := find r k
    simp only [xstep]
    refine lift0_good (op := (.count r k)) h f2 ?_ rfl
    rintro e' y ⟨rfl, hl⟩
    exact ⟨_, rfl, by simp only [step, on0, f1, Option.map_some], hl⟩
  | contains r k =>
    obtain ⟨p, f1, f2⟩ := find r k
    simp only [xstep]
    refine lift0_good (op := (.contains r k)) h f2 ?_ rfl
    rintro e' y ⟨rfl, hl⟩
    exact ⟨_, rfl, by simp only [step, on0, f1, Option.map_some], hl⟩
  | erase r k =>
    simp only [xstep]
    refine lift1_good (r := r) (op := (.erase r k)) (by simp [Op.vars]) (eraseKeyX_sat may (h r).inv k e) ?_ ?_
    · rintro e' y ⟨h1, h2⟩
      exact ⟨_, rfl, by simp only [step, on1, h1, Option.map_some], h2⟩
    · rintro e' t ⟨rfl, h2⟩
      exact ⟨h2, a, rfl, by rw [upd_same]; exact h⟩
  | eraseIt r k =>
    have ho : ((s r).eraseItX may k e).Sat
        (fun e' t => (s r).opEraseIt k = some t ∧ Balanced e e' (s r) t) (fun e' t => t = s r ∧ Balanced e e' (s r) t) := by
      unfold Table.eraseItX Table.opEraseIt
      rcases (h r).inv.find_spec k with ⟨g, j, y, f1, f2, f3⟩ | ⟨f1, _⟩
      · have hj : j < 15 := by
          rcases (h r).inv.arr with ⟨_, hl⟩ | ⟨_, hd⟩
          · exact (hl.slot_valid f2).1.2.1
          · rw [hd.slot] at f2; cases f2
        have hf := findX_sat may (s r) k e f1
        cases hr : (s r).findX may k e with
        | bad => rw [hr] at hf; exact hf.elim
        | threw e1 u => rw [hr] at hf; exact ⟨rfl, Balanced.of_led hf.2 _⟩
        | done e1 p =>
          rw [hr] at hf
          obtain ⟨rfl, hl⟩ := hf
          obtain ⟨t', e2, k1, k2, _, _, _, _, _, k8, _⟩ := eraseAtX_eq (h r).inv (p := (g, j)) f2 e1
          have hb : Table.eraseBytes (s r) (itAt (g, j)).pc (15 * g + j) = some t' := by
            rw [eraseBytes_itAt _ hj]; exact k2
          simp only [f1, hb]
          unfold Table.eraseAtX at k1
          rw [k2] at k1; cases k1
          exact ⟨rfl, (Balanced.of_led hl _).trans k8⟩
      · have hf := findX_sat may (s r) k e f1
        cases hr : (s r).findX may k e with
        | bad => rw [hr] at hf; exact hf.elim
        | threw e1 u => rw [hr] at hf; exact ⟨rfl, Balanced.of_led hf.2 _⟩
        | done e1 p =>
          rw [hr] at hf
          obtain ⟨rfl, hl⟩ := hf
          simp only [f1]
          exact ⟨rfl, Balanced.of_led hl _⟩
    simp only [xstep]
    refine lift1_good (r := r) (op := (.eraseIt r k)) (by simp [Op.vars]) ho ?_ ?_
    · rintro e' t ⟨h1, h2⟩
      exact ⟨_, rfl, by simp only [step, on1, h1, Option.map_some], h2⟩
    · rintro e' t ⟨rfl, h2⟩
      exact ⟨h2, a, rfl, by rw [upd_same]; exact h⟩
  | extract r k =>
    have ho : ((s r).extractX may k e).Sat
        (fun e' y => (s r).opExtract k = some y ∧ Balanced e e' (s r) y.1) (fun e' t => t = s r ∧ Balanced e e' (s r) t) := by
      unfold Table.extractX Table.opExtract
      rcases (h r).inv.find_spec k with ⟨g, j, y, f1, f2, f3⟩ | ⟨f1, _⟩
      · have hf := findX_sat may (s r) k e f1
        cases hr : (s r).findX may k e with
        | bad => rw [hr] at hf; exact hf.elim
        | threw e1 u => rw [hr] at hf; exact ⟨rfl, Balanced.of_led hf.2 _⟩
        | done e1 p =>
          rw [hr] at hf
          obtain ⟨rfl, hl⟩ := hf
          obtain ⟨t', e2, k1, k2, _, _, _, _, _, k8, _⟩ := eraseAtX_eq (h r).inv (p := (g, j)) f2 e1
          simp only [f1, Table.deref, f2, k1, k2]
          exact ⟨rfl, (Balanced.of_led hl _).trans k8⟩
      · have hf := findX_sat may (s r) k e f1
        cases hr : (s r).findX may k e with
        | bad => rw [hr] at hf; exact hf.elim
        | threw e1 u => rw [hr] at hf; exact ⟨rfl, Balanced.of_led hf.2 _⟩
        | done e1 p =>
          rw [hr] at hf
          obtain ⟨rfl, hl⟩ := hf
          simp only [f1]
          exact ⟨rfl, Balanced.of_led hl _⟩
    simp only [xstep]
    refine lift1_good (r := r) (op := (.extract r k)) (by simp [Op.vars]) ho ?_ ?_
    · rintro e' y ⟨h1, h2⟩
      exact ⟨_, rfl, by simp only [step, on1, h1, Option.map_some], h2⟩
    · rintro e' t ⟨rfl, h2⟩
      exact ⟨h2, a, rfl, by rw [upd_same]; exact h⟩
  | eraseIf r pr =>
    simp only [xstep]
    refine lift1_good (r := r) (op := (.eraseIf r pr)) (by simp [Op.vars]) (eraseIfX_sat may pr (s r).arr.occ (s r) e (h r).inv (nodup_occ _)
      (slots_of_occ (h r).inv.arr)) ?_ ?_
    · rintro e' t ⟨h1, h2⟩
      exact ⟨_, rfl, by simp only [step, on1, Table.eraseIf, h1, Option.map_some], h2⟩
    · rintro e' t ⟨h1, h2, _, q, rr, h4, h5⟩
      refine ⟨h2, ?_⟩
      have hnq : q.Nodup := by
        have := nodup_occ (s r).arr; rw [h4] at this; exact (List.nodup_append.mp this).1
      obtain ⟨t', k1, k2, k3, k4, k5, k6⟩ := eraseIfLoop_spec pr q (s r) (h r).inv hnq (fun p hp =>
        slots_of_occ (h r).inv.arr p (by rw [h4]; exact List.mem_append_left _ hp))
      rw [h5] at k1; cases k1
      refine ⟨_, ⟨_, t.contents, (h r).elems.symm.trans k6, ?_, rfl⟩, h.upd ⟨k2, ?_, ?_, List.Perm.refl _⟩⟩
      · intro x hx; exact (List.mem_filter.mp hx).2
      · rw [k3]; exact (h r).eq
      · rw [k4]; exact (h r).al
  | eraseWalk r pr =>
    obtain ⟨t', h1, h2, h3, h4, h5⟩ := opEraseWalk_eq (h r).inv c.regular pr
    simp only [xstep]
    unfold Good
    simp only [h1]
    refine ⟨by simp only [step, on1, h1, Option.map_some], fun N hN hl => hl.upd (hN r (by simp [Op.vars])) ?_⟩
    refine (Led.add e _).cast ?_ rfl
    -- erasing does not replace the arrays
    have hh : t'.arr.hasElems = (s r).arr.hasElems := opEraseWalk_hasElems h1
    unfold owned
    rw [hh]; ring
  | clear r =>
    obtain ⟨e', h1, h2⟩ := clearX_eq (h r).inv e
    simp only [xstep]
    unfold Good
    simp only [h1]
    exact ⟨by simp only [step, on1, Option.map_some], fun N hN hl => hl.upd (hN r (by simp [Op.vars])) h2⟩
  | rehash r n =>
    simp only [xstep]
    refine lift1_good (r := r) (op := (.rehash r n)) (by simp [Op.vars]) (rehashX_sat may mv c.toCfg (h r).inv n e) ?_ ?_
    · rintro e' t ⟨h1, h2⟩
      exact ⟨_, rfl, by simp only [step, on1, h1, Option.map_some], h2⟩
    · rintro e' t ⟨h1, h2, h3⟩
      obtain ⟨l1, l2⟩ := kept_loses (st := strong may mv) (h r) h1 (fun hs => by rw [h3 (strong_iff hs)])
      exact ⟨h2, _, ⟨_, l1, rfl⟩, h.upd l2⟩
  | reserve r n =>
    simp only [xstep]
    refine lift1_good (r := r) (op := (.reserve r n)) (by simp [Op.vars]) (reserveX_sat may mv c.toCfg (h r).inv n e) ?_ ?_
    · rintro e' t ⟨h1, h2⟩
      exact ⟨_, rfl, by simp only [step, on1, h1, Option.map_some], h2⟩
    · rintro e' t ⟨h1, h2, h3⟩
      obtain ⟨l1, l2⟩ := kept_loses (st := strong may mv) (h r) h1 (fun hs => by rw [h3 (strong_iff hs)])
      exact ⟨h2, _, ⟨_, l1, rfl⟩, h.upd l2⟩
  | copyConstruct r q al =>
    have ho := copyCtorX_sat may c.toCfg (h q).inv al e
    simp only [xstep]
    cases hr : (s q).copyCtorX may c.toCfg al e with
    | bad => rw [hr] at ho; exact ho.elim
    | threw e1 u => rw [hr] at ho; exact ⟨⟨a, rfl, h⟩, fun N _ hl => hl.of_led ho⟩
    | done e1 t =>
      rw [hr] at ho
      exact replaceX_good h (by simp [Op.vars]) (by simp only [step, ctor, (h r).destroy, ho.1, Option.map_some]) ho.2
  | moveConstruct r q =>
    have hne : r ≠ q := hpre.1
    have ho := moveCtorX_sat may c.toCfg (s q) e
    simp only [xstep]
    cases hr : (s q).moveCtorX may c.toCfg e with
    | bad => rw [hr] at ho; exact ho.elim
    | threw e1 u =>
      rw [hr] at ho
      obtain ⟨rfl, hl⟩ := ho
      exact ⟨⟨a, rfl, by rw [upd_same]; exact h⟩, fun N _ hL => by rw [upd_same]; exact hL.of_led hl⟩
    | done e1 y =>
      rw [hr] at ho
      obtain ⟨rfl, hl⟩ := ho
      exact replaceX_good2 h (by simp [Op.vars]) (by simp [Op.vars]) hne
        (by simp only [step, on2, (h r).destroy, Option.map_some]; rfl) hl
  | moveConstructAlloc r q al =>
    have hne : r ≠ q := hpre.1
    have ho := moveCtorAllocX_sat may mv c.toCfg (h q).inv al e
    simp only [xstep]
    cases hr : (s q).moveCtorAllocX may mv c.toCfg al e with
    | bad => rw [hr] at ho; exact ho.elim
    | threw e1 u =>
      rw [hr] at ho
      obtain ⟨hl, hu⟩ := ho
      refine ⟨?_, fun N hN hL => hL.upd (hN q (by simp [Op.vars])) hl⟩
      rcases hu with rfl | rfl
      · exact ⟨a, Or.inl rfl, by rw [upd_same]; exact h⟩
      · obtain ⟨d1, d2, d3, d4, _⟩ := clear_spec (h q).inv
        exact ⟨_, Or.inr rfl, h.upd ⟨d1, by rw [d3]; exact (h q).eq, by rw [d4]; exact (h q).al, by rw [d2]⟩⟩
    | done e1 y =>
      rw [hr] at ho
      obtain ⟨h1, hl⟩ := ho
      exact replaceX_good2 h (by simp [Op.vars]) (by simp [Op.vars]) hne
        (by simp only [step, on2, (h r).destroy, h1, Option.map_some]) hl
  | copyAssign r q =>
    simp only [xstep]
    by_cases hrq : r = q
    · rw [if_pos hrq]
      exact ⟨by simp only [step, hrq, if_true], fun N _ hl => hl⟩
    · rw [if_neg hrq]
      refine lift1_good (r := r) (op := (.copyAssign r q)) (by simp [Op.vars]) (copyAssignX_sat may c.toCfg (h r).inv (h q).inv e) ?_ ?_
      · rintro e' t ⟨h1, h2⟩
        exact ⟨_, rfl, by simp only [step, hrq, if_false, on1, h1, Option.map_some], h2⟩
      · rintro e' t ⟨h1, h2⟩
        refine ⟨h1, ?_⟩
        rcases h2 with rfl | ⟨k1, k2, k3, rest, k4⟩
        · exact ⟨a, Or.inl rfl, by rw [upd_same]; exact h⟩
        · refine ⟨_, Or.inr ⟨t.contents, rest, t.al, (h q).elems.symm.trans k4, ?_, rfl⟩, h.upd ⟨k1, ?_, rfl, List.Perm.refl _⟩⟩
          · rw [← (h r).al, ← (h q).al]; exact k3
          · rw [k2]; exact (h q).eq
  | moveAssign r q =>
    simp only [xstep]
    by_cases hrq : r = q
    · rw [if_pos hrq]
      exact ⟨by simp only [step, hrq, if_true], fun N _ hl => hl⟩
    · rw [if_neg hrq]
      obtain ⟨c1, c2, c3, c4, _⟩ := clear_spec (h r).inv
      obtain ⟨d1, d2, d3, d4, _⟩ := clear_spec (h q).inv
      refine lift2_good (by simp [Op.vars]) (by simp [Op.vars]) hrq (moveAssignX_sat may c.toCfg (h r).inv (h q).inv e) ?_ ?_
      · rintro e' t ⟨h1, h2⟩
        exact ⟨by simp only [step, hrq, if_false, on2, h1, Option.map_some], h2⟩
      · rintro e' t ⟨h1, h2, h3, h4, h5⟩
        refine ⟨h1, ?_⟩
        rcases h5 with rfl | ⟨_, _, k3, k4, k5⟩ | ⟨k1, k2, rest, k3⟩
        · refine ⟨_, Or.inl rfl, ?_⟩
          have : upd (upd s r (s r).clear) q (s q) = upd s r (s r).clear := by
            rw [← upd_ne s (Ne.symm hrq) (s r).clear, upd_same]
          rw [this]
          exact h.upd ⟨c1, by rw [c3]; exact (h r).eq, by rw [c4]; exact (h r).al, by rw [c2]⟩
        · rcases hpre.2 r q rfl with j | j | j
          · rw [j] at k3; cases k3
          · change c.pocma = true at j
            rw [j] at k4; cases k4
          · rw [(h r).al, (h q).al] at k5; exact absurd j k5
        · refine ⟨_, Or.inr ⟨t.1.contents, rest, (h q).elems.symm.trans k3, rfl⟩,
            (h.upd ⟨h2, ?_, ?_, List.Perm.refl _⟩).upd ?_⟩
          · rw [k1]; exact (h q).eq
          · rw [h3]; exact (h r).al
          · rw [k2]
            refine ⟨with_fns_inv d1 d2 (h r).inv.law, (h r).eq, ?_, ?_⟩
            · show (s q).clear.al = (a q).al
              rw [d4]; exact (h q).al
            · show (s q).clear.contents.Perm []
              rw [d2]
  | swap r q =>
    have hsw := swap_spec c.toCfg (h r).inv (h q).inv (by rw [(h r).al, (h q).al]; exact hpre.1)
    simp only [xstep]
    unfold Good
    simp only [hsw]
    refine ⟨by simp only [step, on2, hsw, Option.map_some], fun N hN hl => ?_⟩
    by_cases hrq : r = q
    · subst hrq
      have : upd (upd s r (s r)) r (s r) = s := by rw [upd_same, upd_same]
      simp only [this]; exact hl
    · refine hl.upd2 (hN r (by simp [Op.vars])) (hN q (by simp [Op.vars])) hrq ((Led.refl e).cast (by ring) (by ring))
  | merge r q =>
    simp only [xstep]
    by_cases hrq : r = q
    · subst hrq
      rw [if_pos rfl]
      refine lift1_good (r := r) (op := (.merge r r)) (by simp [Op.vars]) (mergeSelfX_sat may mv c.toCfg (h r).inv (s r).arr.occ e
        (slots_of_occ (h r).inv.arr)) ?_ ?_
      · rintro e' t ⟨h1, h2⟩
        exact ⟨_, rfl, by simp only [step, if_true, on1, h1, Option.map_some], h2⟩
      · rintro e' t ⟨h1, h2⟩
        obtain ⟨l1, l2⟩ := kept_loses (st := false) (h r) h1 (fun hs => by cases hs)
        refine ⟨h2, _, ?_, h.upd l2⟩
        simp only [Thrown, if_true]
        exact ⟨_, l1, rfl⟩
    · rw [if_neg hrq]
      refine lift2_good (by simp [Op.vars]) (by simp [Op.vars]) hrq (mergeX_sat may mv c.toCfg (s q).arr.occ (s r) (s q) e
        (h r).inv (h q).inv (nodup_occ _) (slots_of_occ (h q).inv.arr)) ?_ ?_
      · rintro e' t ⟨h1, h2⟩
        exact ⟨by simp only [step, hrq, if_false, Table.merge, on2, h1, Option.map_some], h2⟩
      · rintro e' t ⟨h1, h2, h3, h4, h5, h6, h7, lost, h8, h9⟩
        refine ⟨h7, _, ?_, (h.upd (o := { a r with elems := t.1.contents })
          ⟨h1, by rw [h3]; exact (h r).eq, by rw [h4]; exact (h r).al, List.Perm.refl _⟩).upd (o := { a q with elems := t.2.contents })
          ⟨h2, by rw [h5]; exact (h q).eq, by rw [h6]; exact (h q).al, List.Perm.refl _⟩⟩
        simp only [Thrown, hrq, if_false]
        exact ⟨t.1.contents, t.2.contents, lost, ((h r).elems.symm.append (h q).elems.symm).trans h8,
          fun hs => h9 (strong_iff hs), rfl⟩
  | size r => exact ⟨rfl, fun N _ hl => hl⟩
  | isEmpty r => exact ⟨rfl, fun N _ hl => hl⟩
  | iterate r =>
    simp only [xstep]
    unfold Good
    simp only [opIterate_eq (h r).inv]
    exact ⟨by simp only [step, on0, opIterate_eq (h r).inv, Option.map_some], fun N _ hl => hl⟩
  | equal r q =>
    simp only [xstep]
    by_cases hsz : (s r).size = (s q).size
    · rw [if_pos hsz]
      refine lift0_good (op := (.equal r q)) h (equalX_sat may veq (s r) (h q).inv (s r).arr.occ e (slots_of_occ (h r).inv.arr)) ?_ rfl
      rintro e' b ⟨h1, h2⟩
      exact ⟨_, rfl, by simp only [step, on0, Table.equal, hsz, if_true, h1, Option.map_some], h2⟩
    · rw [if_neg hsz]
      exact ⟨by simp only [step, on0, Table.equal, hsz, if_false, Option.map_some], fun N _ hl => hl⟩

theorem xrun_refines (may : Call → Bool) (mv : Bool) (c : MCfg) (veq : K × V → K × V → Bool) (N : Nat) :
    ∀ (ops : List (Op K V × Nat)) (s : Nat → Table K V) (a : Nat → Obj K V) (e : Env), RS s a →
    Spec.XPreAll c.traits veq (strong may mv) (may .alloc) (ops.map Prod.fst) a →
    (∀ op ∈ ops, ∀ i ∈ op.1.vars, i < N) → Ledger N e s →
    ∃ s' e' out a', xrun may mv c veq ops s e = some (s', e', out) ∧ out.map Prod.fst = ops.map Prod.fst ∧
      Spec.XRun c.traits veq (strong may mv) a out a' ∧ RS s' a' ∧ Ledger N e' s' := by
  intro ops
  induction ops with
  | nil => intro s a e h _ _ hl; exact ⟨s, e, [], a, rfl, rfl, .nil a, h, hl⟩
  | cons opn ops ih =>
    obtain ⟨op, n⟩ := opn
    intro s a e h hp hv hl
    obtain ⟨hp1, hp2, hp3⟩ := hp
    have hN : ∀ i ∈ op.vars, i < N := hv (op, n) (by simp)
    have hv' : ∀ op ∈ ops, ∀ i ∈ op.1.vars, i < N := fun o ho => hv o (by simp [ho])
    have hl' : Ledger N { e with left := n } s := hl
    have hg := xstep_good may mv c veq h op hp1 { e with left := n }
    unfold xrun
    cases hr : xstep may mv c veq s op { e with left := n } with
    | bad => rw [hr] at hg; exact hg.elim
    | done e1 y =>
      rw [hr] at hg
      obtain ⟨g1, g2⟩ := hg
      obtain ⟨s1, o1⟩ := y
      obtain ⟨s2, o2, k1, k2, k3⟩ := step_refines c veq h op hp1.1
      rw [g1] at k1; cases k1
      obtain ⟨s', e', out, a', m1, m2, m3, m4, m5⟩ := ih s1 _ e1 k3 hp2 hv' (g2 N hN hl')
      exact ⟨s', e', (op, .ok o1) :: out, a', by simp [m1], by simp [m2], .ok k2 m3, m4, m5⟩
    | threw e1 s1 =>
      rw [hr] at hg
      obtain ⟨⟨b, g1, g3⟩, g2⟩ := hg
      obtain ⟨s', e', out, a', m1, m2, m3, m4, m5⟩ := ih s1 b e1 g3 (hp3 b g1) hv' (g2 N hN hl')
      exact ⟨s', e', (op, .exc) :: out, a', by simp [m1], by simp [m2], .exc g1 m3, m4, m5⟩

theorem destroyAll_eq {s : Nat → Table K V} (hi : ∀ i, (s i).Inv) : ∀ (N : Nat) (e : Env), Ledger N e s →
    ∃ e', destroyAll s N e = some e' ∧ e'.blocks = 0 ∧ e'.elems = 0 := by
  intro N
  induction N with
  | zero => intro e hl; exact ⟨e, rfl, by simpa using hl.1, by simpa using hl.2⟩
  | succ N ih =>
    intro e hl
    obtain ⟨e1, h1, h2⟩ := destroyTX_eq (hi N) e
    obtain ⟨l1, l2⟩ := hl
    rw [List.range_succ, List.map_append, List.sum_append] at l1 l2
    obtain ⟨e', k1, k2, k3⟩ := ih e1 ⟨by rw [h2.blocks, l1]; simp, by rw [h2.elems, l2]; simp⟩
    exact ⟨e', by unfold destroyAll; simp only [h1, k1], k2, k3⟩

theorem start_ledger (c : MCfg) (h : K → Nat) (eq : K → K → Bool) (N : Nat) :
    Ledger N (startEnv c N) (start c h eq : Nat → Table K V) := by
  have h0 : ∀ i, owned (start c h eq i : Table K V).arr = if c.fancy then 1 else 0 := by
    intro i
    unfold owned
    show (if (Arrays.new_ c.toCfg 0 0 : Arrays K V).hasElems = true then (1 : Int) else 0) = _
    by_cases hf : c.fancy = true
    · simp [Arrays.new_, hf]
    · simp [Arrays.new_, hf]
  refine ⟨?_, ?_⟩
  · simp only [h0, startEnv, List.map_const', List.length_range, List.sum_replicate]
    split <;> simp
  · symm; apply List.sum_eq_zero
    intro x hx
    obtain ⟨i, _, rfl⟩ := List.mem_map.mp hx
    rfl

end Foa

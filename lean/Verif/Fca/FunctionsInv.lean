/-
The double buffer of function objects: invariants and refinement.
-/
import Verif.Fca.Functions

namespace Fca.Fun
open Spec (upd)
open SpecFn (Op Uses)
open Fns2
variable {F : Type}

/-- exactly one pair, the current one, is constructed -/
structure Holds (s : Fns2 F) (f : F) : Prop where
  cur : s.cur = 0 ∨ s.cur = 1
  here : s.slot s.cur = some f
  there : s.slot (1 - s.cur) = none

/-- both pairs are constructed; the current one is `g` -/
structure Both (s : Fns2 F) (g f : F) : Prop where
  cur : s.cur = 2 ∨ s.cur = 3
  here : s.slot (s.cur - 2) = some g
  there : s.slot (3 - s.cur) = some f

def Out.Sat {α σ : Type} (o : Out F α σ) (D : Env F → α → Prop) (T : Env F → σ → Prop) : Prop :=
  match o with
  | .done e a => D e a
  | .threw e s => T e s
  | .bad => False

theorem Out.Sat.mono {α σ : Type} {o : Out F α σ} {D D' : Env F → α → Prop} {T T' : Env F → σ → Prop} (h : o.Sat D T)
    (hd : ∀ e a, D e a → D' e a) (ht : ∀ e s, T e s → T' e s) : o.Sat D' T' := by
  cases o
  · exact hd _ _ h
  · exact ht _ _ h
  · exact h

theorem Out.Sat.bind {α β σ : Type} {o : Out F α σ} {f : Env F → α → Out F β σ} {D : Env F → β → Prop} {T : Env F → σ → Prop}
    (h : o.Sat (fun e a => (f e a).Sat D T) T) : (o.bind f).Sat D T := by
  cases o
  · exact h
  · exact h
  · exact h

theorem Out.Sat.onThrow {α σ τ : Type} {o : Out F α σ} {h : Env F → σ → Option (Env F × τ)} {D : Env F → α → Prop}
    {T : Env F → τ → Prop} (ho : o.Sat D (fun e s => ∃ e' s', h e s = some (e', s') ∧ T e' s')) : (o.onThrow h).Sat D T := by
  cases o with
  | done e a => exact ho
  | threw e s =>
    obtain ⟨e', s', h1, h2⟩ := ho
    simp only [Out.onThrow, h1]; exact h2
  | bad => exact ho

theorem ofOpt_sat {α σ : Type} {o : Option (Env F × α)} {D : Env F → α → Prop} {T : Env F → σ → Prop} {e : Env F} {a : α}
    (h : o = some (e, a)) (hd : D e a) : (ofOpt o : Out F α σ).Sat D T := by
  subst h; exact hd

theorem ask_sat {σ : Type} (s : σ) (e : Env F) {D : Env F → Unit → Prop} {T : Env F → σ → Prop}
    (hd : ∀ e', e'.live = e.live → e'.tr = e.tr → D e' ()) (ht : T e s) : (ask s e).Sat D T := by
  unfold ask
  split
  · exact ht
  · exact hd _ rfl rfl

theorem Holds.current {s : Fns2 F} {f : F} (h : Holds s f) : s.current = some f := by
  have := h.here
  unfold Fns2.current
  rcases h.cur with hc | hc <;> rw [hc] at this ⊢ <;> exact this

theorem Both.current {s : Fns2 F} {g f : F} (h : Both s g f) : s.current = some g := by
  have := h.here
  unfold Fns2.current
  rcases h.cur with hc | hc <;> rw [hc] at this ⊢ <;> exact this

theorem upd_eq {α : Type} (s : Nat → α) (i : Nat) (x : α) : upd s i x i = x := by simp [upd]
theorem upd_other {α : Type} (s : Nat → α) {i j : Nat} (h : j ≠ i) (x : α) : upd s i x j = s j := by simp [upd, h]

theorem constructSpare_sat {s : Fns2 F} {g : F} (h : Holds s g) (f : F) (e : Env F) :
    (s.constructSpare f e).Sat (fun e' s' => Both s' g f ∧ e'.live = e.live + 1 ∧ e'.tr = e.tr)
      (fun e' s' => s' = s ∧ e'.live = e.live ∧ e'.tr = e.tr) := by
  have h1 := h.here
  have h2 := h.there
  rcases h.cur with hc | hc
  all_goals
    rw [hc] at h1 h2
    unfold Fns2.constructSpare Fns2.constructAt
    simp only [hc]
    simp [h2]
    apply Out.Sat.bind
    apply Out.Sat.bind
    refine ask_sat s e ?_ ⟨rfl, rfl, rfl⟩
    intro e' k1 k2
    refine ⟨⟨?_, ?_, ?_⟩, by simp [k1], k2⟩
    all_goals simp [upd, h1]

theorem destroyAt_eq {s : Fns2 F} {i : Nat} (hi : i < 2) {f : F} (h : s.slot i = some f) (e : Env F) :
    s.destroyAt i e = some ({ e with live := e.live - 1 }, { s with slot := upd s.slot i none }) := by
  unfold Fns2.destroyAt
  have : i = 0 ∨ i = 1 := by omega
  rcases this with rfl | rfl <;> simp [h]

theorem cleanupSpare_eq {s : Fns2 F} {g f : F} (h : Both s g f) (e : Env F) :
    ∃ e' s', s.cleanupSpare e = some (e', s') ∧ Holds s' g ∧ e'.live = e.live - 1 ∧ e'.tr = e.tr := by
  have h1 := h.here
  have h2 := h.there
  unfold Fns2.cleanupSpare
  rcases h.cur with hc | hc
  all_goals
    rw [hc] at h1 h2
    simp only [hc]
    rw [if_pos (by decide)]
    simp only [Nat.reduceAnd, Nat.reduceXor]
    rw [destroyAt_eq (by omega) (f := f) (by exact h2)]
    refine ⟨_, _, rfl, ⟨?_, ?_, ?_⟩, rfl, rfl⟩
    · simp
    · simpa [upd] using h1
    · simp [upd]

theorem switch_eq {s : Fns2 F} {g f : F} (h : Both s g f) (e : Env F) :
    ∃ e' s', s.switch e = some (e', s') ∧ Holds s' f ∧ e'.live = e.live - 1 ∧ e'.tr = e.tr := by
  have h1 := h.here
  have h2 := h.there
  unfold Fns2.switch
  rcases h.cur with hc | hc
  all_goals
    rw [hc] at h1 h2
    simp only [hc]
    rw [if_neg (by decide)]
    simp only [Nat.reduceAnd]
    rw [destroyAt_eq (by omega) (f := g) (by exact h1)]
    refine ⟨_, _, rfl, ⟨?_, ?_, ?_⟩, rfl, rfl⟩
    · simp [hc]
    · simpa [upd, hc] using h2
    · simp [upd, hc]

theorem dtor_eq {s : Fns2 F} {f : F} (h : Holds s f) (e : Env F) :
    ∃ s', s.dtor e = some ({ e with live := e.live - 1 }, s') := by
  have h1 := h.here
  unfold Fns2.dtor
  rcases h.cur with hc | hc
  all_goals
    rw [hc] at h1 ⊢
    simp only [Nat.reduceAnd, ne_eq, not_true_eq_false, if_false]
    exact ⟨_, destroyAt_eq (by omega) h1 e⟩

theorem ctor_sat (nt : Bool) (f : F) (e : Env F) :
    (ctor nt f e).Sat (fun e' s => Holds s f ∧ e'.live = e.live + 1 ∧ e'.tr = e.tr)
      (fun e' _ => e'.live = e.live ∧ e'.tr = e.tr) := by
  unfold ctor constructAt raw
  rw [if_neg (by decide)]
  simp only [Option.isSome_none, Bool.false_eq_true, if_false]
  have hh : Holds ({ cur := 0, slot := upd (fun _ => none) 0 (some f) } : Fns2 F) f :=
    ⟨Or.inl rfl, by simp [upd], by simp [upd]⟩
  split
  · exact ⟨hh, rfl, rfl⟩
  · apply Out.Sat.bind
    refine ask_sat _ e (fun e' k1 k2 => ⟨hh, by simp [k1], k2⟩) ⟨rfl, rfl⟩

theorem setCurrent_eq {s : Fns2 F} {g : F} (h : Holds s g) (f : F) : ∃ s', s.setCurrent f = some s' ∧ Holds s' f := by
  unfold Fns2.setCurrent
  rw [h.current]
  refine ⟨_, rfl, ?_⟩
  have h2 := h.there
  rcases h.cur with hc | hc
  all_goals
    rw [hc] at h2
    refine ⟨h.cur, ?_, ?_⟩
    · simp [hc, upd]
    · simpa [hc, upd] using h2

theorem uses_sat {s : Fns2 F} {f : F} (h : s.current = some f) : ∀ (n : Nat) (e : Env F),
    (s.uses n e).Sat (fun e' _ => e'.live = e.live ∧ e'.tr = e.tr ++ List.replicate n f)
      (fun e' s' => s' = s ∧ e'.live = e.live ∧ ∃ i, e'.tr = e.tr ++ List.replicate i f) := by
  intro n
  induction n with
  | zero => intro e; exact ⟨rfl, by simp⟩
  | succ n ih =>
    intro e
    unfold Fns2.uses
    simp only [h]
    apply Out.Sat.bind
    refine ask_sat s _ ?_ ⟨rfl, rfl, 1, rfl⟩
    intro e' k1 k2
    refine (ih e').mono ?_ ?_
    · rintro e'' _ ⟨j1, j2⟩
      refine ⟨j1.trans k1, ?_⟩
      rw [j2, k2, List.replicate_succ]; simp
    · rintro e'' s' ⟨j0, j1, i, j2⟩
      refine ⟨j0, j1.trans k1, i + 1, ?_⟩
      rw [j2, k2, List.replicate_succ]; simp

theorem build_sat (nt : Bool) (f : F) (n : Nat) (e : Env F) :
    (build nt f n e).Sat (fun e' s => Holds s f ∧ e'.live = e.live + 1 ∧ e'.tr = e.tr ++ List.replicate n f)
      (fun e' _ => e'.live = e.live ∧ ∃ i, e'.tr = e.tr ++ List.replicate i f) := by
  unfold build
  apply Out.Sat.bind
  apply Out.Sat.onThrow
  refine (ctor_sat nt f e).mono ?_ ?_
  · rintro e1 s ⟨h1, h2, h3⟩
    apply Out.Sat.bind
    apply Out.Sat.onThrow
    refine (uses_sat h1.current n e1).mono ?_ ?_
    · rintro e2 _ ⟨h4, h5⟩
      exact ⟨h1, h4.trans h2, by rw [h5, h3]⟩
    · rintro e2 s2 ⟨rfl, h4, i, h5⟩
      obtain ⟨s', h6⟩ := dtor_eq h1 e2
      refine ⟨_, (), by rw [h6]; rfl, ?_, i, ?_⟩
      · show e2.live - 1 = _; omega
      · show e2.tr = _; rw [h5, h3]
  · rintro e1 _ ⟨h1, h2⟩
    exact ⟨e1, (), rfl, h1, 0, by simp [h2]⟩

/-- outcome of an assignment by which the pair `g` becomes `f` -/
theorem assignSame_sat {s x : Fns2 F} {g f : F} (h : Holds s g) (hx : Holds x f) (m n : Nat) (e : Env F) :
    (assignSame s x m n e).Sat (fun e' s' => Holds s' f ∧ e'.live = e.live ∧
        e'.tr = e.tr ++ List.replicate m g ++ List.replicate n f)
      (fun e' s' => e'.live = e.live ∧ ((Holds s' g ∧ ∃ i, e'.tr = e.tr ++ List.replicate i g) ∨
        (Holds s' f ∧ ∃ i j, e'.tr = e.tr ++ List.replicate i g ++ List.replicate j f))) := by
  unfold assignSame
  rw [hx.current]
  apply Out.Sat.bind
  refine (constructSpare_sat h f e).mono ?_ ?_
  · rintro e1 s1 ⟨h1, h2, h3⟩
    apply Out.Sat.bind
    apply Out.Sat.onThrow
    refine (uses_sat h1.current m e1).mono ?_ ?_
    · rintro e2 _ ⟨h4, h5⟩
      obtain ⟨e3, s3, k1, k2, k3, k4⟩ := switch_eq h1 e2
      apply Out.Sat.bind
      refine ofOpt_sat k1 ?_
      apply Out.Sat.bind
      refine (uses_sat k2.current n e3).mono ?_ ?_
      · rintro e4 _ ⟨j1, j2⟩
        exact ⟨k2, by omega, by rw [j2, k4, h5, h3]⟩
      · rintro e4 s4 ⟨rfl, j1, i, j2⟩
        exact ⟨by omega, Or.inr ⟨k2, m, i, by rw [j2, k4, h5, h3]⟩⟩
    · rintro e2 s2 ⟨rfl, h4, i, h5⟩
      obtain ⟨e3, s3, k1, k2, k3, k4⟩ := cleanupSpare_eq h1 e2
      exact ⟨e3, s3, k1, by omega, Or.inl ⟨k2, i, by rw [k4, h5, h3]⟩⟩
  · rintro e1 s1 ⟨rfl, h1, h2⟩
    exact ⟨h1, Or.inl ⟨h, 0, by simp [h2]⟩⟩

theorem assignProp_sat {s x : Fns2 F} {g f : F} (h : Holds s g) (hx : Holds x f) (n : Nat) (e : Env F) :
    (assignProp s x n e).Sat (fun e' s' => Holds s' f ∧ e'.live = e.live ∧ e'.tr = e.tr ++ List.replicate n f)
      (fun e' s' => e'.live = e.live ∧ ((Holds s' g ∧ e'.tr = e.tr) ∨
        (Holds s' f ∧ ∃ j, e'.tr = e.tr ++ List.replicate j f))) := by
  unfold assignProp
  apply Out.Sat.bind
  refine ask_sat s e ?_ ⟨rfl, Or.inl ⟨h, rfl⟩⟩
  intro e0 l1 l2
  rw [hx.current]
  apply Out.Sat.bind
  refine (constructSpare_sat h f e0).mono ?_ ?_
  · rintro e1 s1 ⟨h1, h2, h3⟩
    obtain ⟨e3, s3, k1, k2, k3, k4⟩ := switch_eq h1 e1
    apply Out.Sat.bind
    refine ofOpt_sat k1 ?_
    apply Out.Sat.bind
    refine (uses_sat k2.current n e3).mono ?_ ?_
    · rintro e4 _ ⟨j1, j2⟩
      exact ⟨k2, by omega, by rw [j2, k4, h3, l2]⟩
    · rintro e4 s4 ⟨rfl, j1, i, j2⟩
      exact ⟨by omega, Or.inr ⟨k2, i, by rw [j2, k4, h3, l2]⟩⟩
  · rintro e1 s1 ⟨rfl, h1, h2⟩
    exact ⟨by omega, Or.inl ⟨h, by rw [h2, l2]⟩⟩

theorem moveAssignEq_sat (c : Cfg F) {s x : Fns2 F} {g f : F} (h : Holds s g) (hx : Holds x f) (e : Env F) :
    (moveAssignEq c s x e).Sat (fun e' y => Holds y.1 f ∧ (Holds y.2 f ∨ Holds y.2 (c.mv f)) ∧ e'.live = e.live ∧ e'.tr = e.tr)
      (fun e' s' => Holds s' g ∧ e'.live = e.live ∧ e'.tr = e.tr) := by
  unfold moveAssignEq
  rw [hx.current]
  dsimp only
  split
  · obtain ⟨s', h1, h2⟩ := setCurrent_eq h f
    obtain ⟨x', h3, h4⟩ := setCurrent_eq hx (c.mv f)
    rw [h1, h3]
    exact ⟨h2, Or.inr h4, rfl, rfl⟩
  · apply Out.Sat.bind
    refine (constructSpare_sat h f e).mono ?_ ?_
    · rintro e1 s1 ⟨h1, h2, h3⟩
      obtain ⟨e3, s3, k1, k2, k3, k4⟩ := switch_eq h1 e1
      apply Out.Sat.bind
      refine ofOpt_sat k1 ?_
      exact ⟨k2, Or.inl hx, by omega, by rw [k4, h3]⟩
    · rintro e1 s1 ⟨rfl, h1, h2⟩
      exact ⟨h, h1, h2⟩

theorem swapThrowing_sat {s x : Fns2 F} {g f : F} (h : Holds s g) (hx : Holds x f) (e : Env F) :
    (swapThrowing s x e).Sat (fun e' y => Holds y.1 f ∧ Holds y.2 g ∧ e'.live = e.live ∧ e'.tr = e.tr)
      (fun e' y => Holds y.1 g ∧ Holds y.2 f ∧ e'.live = e.live ∧ e'.tr = e.tr) := by
  unfold swapThrowing
  rw [hx.current]
  apply Out.Sat.bind
  apply Out.Sat.onThrow
  refine (constructSpare_sat h f e).mono ?_ ?_
  · rintro e1 s1 ⟨h1, h2, h3⟩
    rw [h1.current]
    apply Out.Sat.bind
    apply Out.Sat.onThrow
    refine (constructSpare_sat hx g e1).mono ?_ ?_
    · rintro e2 x1 ⟨k1, k2, k3⟩
      obtain ⟨e3, s3, i1, i2, i3, i4⟩ := switch_eq h1 e2
      apply Out.Sat.bind
      refine ofOpt_sat i1 ?_
      obtain ⟨e4, x4, j1, j2, j3, j4⟩ := switch_eq k1 e3
      apply Out.Sat.bind
      refine ofOpt_sat j1 ?_
      exact ⟨i2, j2, by omega, by rw [j4, i4, k3, h3]⟩
    · rintro e2 x1 ⟨rfl, k2, k3⟩
      obtain ⟨e3, s3, i1, i2, i3, i4⟩ := cleanupSpare_eq h1 e2
      exact ⟨e3, (s3, x1), by rw [i1]; rfl, i2, hx, by omega, by rw [i4, k3, h3]⟩
  · rintro e1 s1 ⟨rfl, h1, h2⟩
    exact ⟨e1, _, rfl, h, hx, h1, h2⟩

theorem swapNothrow_sat {s x : Fns2 F} {g f : F} (h : Holds s g) (hx : Holds x f) (e : Env F) :
    (swapNothrow s x e).Sat (fun e' y => Holds y.1 f ∧ Holds y.2 g ∧ e'.live = e.live ∧ e'.tr = e.tr) (fun _ _ => False) := by
  unfold swapNothrow
  rw [h.current, hx.current]
  obtain ⟨s', h1, h2⟩ := setCurrent_eq h f
  obtain ⟨x', h3, h4⟩ := setCurrent_eq hx g
  dsimp only
  rw [h1, h3]
  exact ⟨h2, h4, rfl, rfl⟩

/-! ### Programs -/

/-- one variable: no object, or an object whose only constructed pair is `f` -/
def RV (x : Option (Fns2 F)) (a : Option F) : Prop :=
  match a with
  | none => x = none
  | some f => ∃ s, x = some s ∧ Holds s f

def RS (s : Vars F) (a : Nat → Option F) : Prop := ∀ i, RV (s i) (a i)

theorem RS.upd {s : Vars F} {a : Nat → Option F} (h : RS s a) (r : Nat) {x : Option (Fns2 F)} {b : Option F} (hx : RV x b) :
    RS (Spec.upd s r x) (Spec.upd a r b) := by
  intro i; unfold Spec.upd; split
  · exact hx
  · exact h i

theorem RS.some {s : Vars F} {a : Nat → Option F} (h : RS s a) {r : Nat} (ha : a r ≠ none) :
    ∃ x f, s r = some x ∧ a r = some f ∧ Holds x f := by
  have := h r
  cases hr : a r with
  | none => exact absurd hr ha
  | some f =>
    rw [hr] at this
    obtain ⟨x, h1, h2⟩ := this
    exact ⟨x, f, h1, rfl, h2⟩

theorem RV.mk {x : Fns2 F} {f : F} (h : Holds x f) : RV (some x) (some f) := ⟨x, rfl, h⟩

/-- number of objects among the first `N` variables -/
def count (s : Vars F) (N : Nat) : Int := ((List.range N).map (fun i => if (s i).isSome then (1 : Int) else 0)).sum

theorem count_upd (s : Vars F) (r : Nat) (x : Option (Fns2 F)) : ∀ N, r < N →
    count (upd s r x) N = count s N + ((if x.isSome then 1 else 0) - (if (s r).isSome then 1 else 0)) := by
  have hlt : ∀ N, N ≤ r → count (upd s r x) N = count s N := by
    intro N hN
    unfold count
    congr 1
    apply List.map_congr_left
    intro i hi
    rw [List.mem_range] at hi
    rw [upd_other s (by omega)]
  intro N
  induction N with
  | zero => intro h; omega
  | succ N ih =>
    intro h
    have h1 : ∀ t : Vars F, count t (N + 1) = count t N + (if (t N).isSome then 1 else 0) := by
      intro t; unfold count; rw [List.range_succ]; simp
    rw [h1, h1]
    by_cases hN : r = N
    · subst hN
      rw [hlt r (by omega), upd_eq]; omega
    · rw [ih (by omega), upd_other s (by omega)]; omega

/-- what a call of the model must satisfy: `l` is the change of the number of live pairs -/
def Good (c : Cfg F) (s : Vars F) (a : Nat → Option F) (op : Op F) (e : Env F) (o : Out F (Vars F) (Vars F)) : Prop :=
  o.Sat (fun e' s' => (∃ a', SpecFn.Step c.mv a op e'.tr a' ∧ RS s' a') ∧
      ∀ N, (∀ i ∈ op.vars, i < N) → e'.live - count s' N = e.live - count s N)
    (fun e' s' => (∃ a', SpecFn.Thrown c.mv a op e'.tr a' ∧ RS s' a') ∧
      ∀ N, (∀ i ∈ op.vars, i < N) → e'.live - count s' N = e.live - count s N)

theorem upd_self' {α : Type} (s : Nat → α) {r : Nat} {x : α} (h : s r = x) : upd s r x = s := by
  funext i; unfold upd; split
  · next hi => rw [hi, h]
  · rfl

theorem count_same (s : Vars F) {r : Nat} {x y : Fns2 F} (hr : s r = some x) {N : Nat} (hN : r < N) :
    count (upd s r (some y)) N = count s N := by
  rw [count_upd s r _ N hN, hr]; simp

theorem count_same2 (s : Vars F) {r q : Nat} (hrq : r ≠ q) {x x' y y' : Fns2 F} (hr : s r = some x) (hq : s q = some y) {N : Nat}
    (hN : r < N) (hM : q < N) : count (upd (upd s r (some x')) q (some y')) N = count s N := by
  rw [count_same (upd s r (some x')) (by rw [upd_other s (Ne.symm hrq)]; exact hq) hM, count_same s hr hN]

theorem count_new (s : Vars F) {r : Nat} {y : Fns2 F} (hr : s r = none) {N : Nat} (hN : r < N) :
    count (upd s r (some y)) N = count s N + 1 := by
  rw [count_upd s r _ N hN, hr]; simp

theorem step_good (c : Cfg F) {s : Vars F} {a : Nat → Option F} (h : RS s a) (op : Op F) (hp : SpecFn.Pre a op) (e : Env F)
    (he : e.tr = []) : Good c s a op e (step c s op e) := by
  cases op with
  | construct r f n =>
    have hr : s r = none := by have := h r; rw [show a r = none from hp] at this; exact this
    have hb := build_sat false f n e
    simp only [step]
    cases hx : build false f n e with
    | bad => rw [hx] at hb; exact hb.elim
    | threw e' _ =>
      rw [hx] at hb
      obtain ⟨h1, i, h2⟩ := hb
      exact ⟨⟨a, ⟨⟨i, by rw [h2, he]; rfl⟩, rfl⟩, h⟩, fun N _ => by rw [h1]⟩
    | done e' y =>
      rw [hx] at hb
      obtain ⟨h1, h2, h3⟩ := hb
      refine ⟨⟨_, ⟨by rw [h3, he]; rfl, rfl⟩, h.upd r (RV.mk h1)⟩, fun N hN => ?_⟩
      rw [count_new s hr (hN r (by simp [Op.vars]))]; omega
  | copyConstruct r q n =>
    have hr : s r = none := by have := h r; rw [hp.1] at this; exact this
    obtain ⟨x, f, k1, k2, k3⟩ := h.some hp.2
    have hb := build_sat false f n e
    simp only [step, k1, k3.current]
    cases hx : build false f n e with
    | bad => rw [hx] at hb; exact hb.elim
    | threw e' _ =>
      rw [hx] at hb
      obtain ⟨h1, i, h2⟩ := hb
      exact ⟨⟨a, ⟨f, k2, ⟨i, by rw [h2, he]; rfl⟩, rfl⟩, h⟩, fun N _ => by rw [h1]⟩
    | done e' y =>
      rw [hx] at hb
      obtain ⟨h1, h2, h3⟩ := hb
      refine ⟨⟨_, ⟨f, k2, by rw [h3, he]; rfl, rfl⟩, h.upd r (RV.mk h1)⟩, fun N hN => ?_⟩
      rw [count_new s hr (hN r (by simp [Op.vars]))]; omega
  | moveConstruct r q n =>
    have hr : s r = none := by have := h r; rw [hp.1] at this; exact this
    obtain ⟨x, f, k1, k2, k3⟩ := h.some hp.2
    have hrq : r ≠ q := by rintro rfl; rw [hr] at k1; cases k1
    -- the source afterwards
    have hsrc : ∃ x' f', (if c.nothrowMoveCtor then x.setCurrent (c.mv f) else some x) = some x' ∧ Holds x' f' ∧
        (f' = f ∨ f' = c.mv f) := by
      split
      · obtain ⟨x', j1, j2⟩ := setCurrent_eq k3 (c.mv f)
        exact ⟨x', _, j1, j2, Or.inr rfl⟩
      · exact ⟨x, f, rfl, k3, Or.inl rfl⟩
    obtain ⟨x', f', j1, j2, j3⟩ := hsrc
    have hb := build_sat c.nothrowMoveCtor f n e
    simp only [step, k1, k3.current, j1]
    cases hx : build c.nothrowMoveCtor f n e with
    | bad => rw [hx] at hb; exact hb.elim
    | threw e' _ =>
      rw [hx] at hb
      obtain ⟨h1, i, h2⟩ := hb
      refine ⟨⟨upd a q (some f'), ⟨f, k2, ⟨i, by rw [h2, he]; rfl⟩, ?_⟩, h.upd q (RV.mk j2)⟩, fun N hN => ?_⟩
      · rcases j3 with rfl | rfl
        · exact Or.inl (upd_self' a k2)
        · exact Or.inr rfl
      · rw [count_same s k1 (hN q (by simp [Op.vars]))]; omega
    | done e' y =>
      rw [hx] at hb
      obtain ⟨h1, h2, h3⟩ := hb
      refine ⟨⟨upd (upd a r (some f)) q (some f'), ⟨f, k2, by rw [h3, he]; rfl, ?_⟩, (h.upd r (RV.mk h1)).upd q (RV.mk j2)⟩,
        fun N hN => ?_⟩
      · rcases j3 with rfl | rfl
        · exact Or.inl (upd_self' _ (by rw [upd_other a (Ne.symm hrq)]; exact k2))
        · exact Or.inr rfl
      · rw [count_same (upd s r (some y)) (by rw [upd_other s (Ne.symm hrq)]; exact k1) (hN q (by simp [Op.vars])),
          count_new s hr (hN r (by simp [Op.vars]))]
        omega
  | copyAssign r q prop m n =>
    obtain ⟨x, g, k1, k2, k3⟩ := h.some hp.1
    obtain ⟨y, f, j1, j2, j3⟩ := h.some hp.2
    simp only [step, k1, j1]
    split
    · next hrq => exact ⟨⟨a, by simp only [SpecFn.Step, if_pos hrq]; exact ⟨he, trivial⟩, h⟩, fun N _ => rfl⟩
    · next hrq =>
      have hT : ∀ e' x', e'.live = e.live → ((Holds x' g ∧ ∃ i, e'.tr = List.replicate i g) ∨
          (Holds x' f ∧ ∃ i j, e'.tr = List.replicate i g ++ List.replicate j f)) →
          Good c s a (.copyAssign r q prop m n) e (.threw e' (upd s r (some x'))) := by
        intro e' x' l1 l2
        refine ⟨?_, fun N hN => ?_⟩
        · rcases l2 with ⟨l2, i, l3⟩ | ⟨l2, i, j, l3⟩
          · refine ⟨a, ⟨g, f, k2, j2, Or.inl ⟨⟨i, l3⟩, rfl⟩⟩, ?_⟩
            have := h.upd r (RV.mk l2)
            rwa [upd_self' a k2] at this
          · exact ⟨_, ⟨g, f, k2, j2, Or.inr ⟨⟨i, j, l3⟩, rfl⟩⟩, h.upd r (RV.mk l2)⟩
        · rw [count_same s k1 (hN r (by simp [Op.vars])), l1]
      have hD : ∀ e' x' i, e'.live = e.live → i ≤ m → Holds x' f → e'.tr = List.replicate i g ++ List.replicate n f →
          Good c s a (.copyAssign r q prop m n) e (.done e' (upd s r (some x'))) := by
        intro e' x' i l1 l2 l3 l4
        refine ⟨⟨_, ?_, h.upd r (RV.mk l3)⟩, fun N hN => ?_⟩
        · simp only [SpecFn.Step, if_neg hrq]
          exact ⟨g, f, k2, j2, ⟨i, l2, l4⟩, rfl⟩
        · rw [count_same s k1 (hN r (by simp [Op.vars])), l1]
      cases prop with
      | true =>
        have hb := assignProp_sat k3 j3 n e
        rw [if_pos rfl]
        cases hx : assignProp x y n e with
        | bad => rw [hx] at hb; exact hb.elim
        | threw e' x' =>
          rw [hx] at hb
          obtain ⟨l1, l2⟩ := hb
          refine hT e' x' l1 ?_
          rcases l2 with ⟨l2, l3⟩ | ⟨l2, i, l3⟩
          · exact Or.inl ⟨l2, 0, by rw [l3, he]; rfl⟩
          · exact Or.inr ⟨l2, 0, i, by rw [l3, he]; rfl⟩
        | done e' x' =>
          rw [hx] at hb
          obtain ⟨l1, l2, l3⟩ := hb
          exact hD e' x' 0 l2 (by omega) l1 (by rw [l3, he]; rfl)
      | false =>
        have hb := assignSame_sat k3 j3 m n e
        rw [if_neg (by simp)]
        cases hx : assignSame x y m n e with
        | bad => rw [hx] at hb; exact hb.elim
        | threw e' x' =>
          rw [hx] at hb
          obtain ⟨l1, l2⟩ := hb
          refine hT e' x' l1 ?_
          rcases l2 with ⟨l2, i, l3⟩ | ⟨l2, i, j, l3⟩
          · exact Or.inl ⟨l2, i, by rw [l3, he]; rfl⟩
          · exact Or.inr ⟨l2, i, j, by rw [l3, he]; rfl⟩
        | done e' x' =>
          rw [hx] at hb
          obtain ⟨l1, l2, l3⟩ := hb
          exact hD e' x' m l2 (by omega) l1 (by rw [l3, he]; rfl)
  | moveAssign r q realloc m n =>
    obtain ⟨x, g, k1, k2, k3⟩ := h.some hp.1
    obtain ⟨y, f, j1, j2, j3⟩ := h.some hp.2
    simp only [step, k1, j1]
    split
    · next hrq => exact ⟨⟨a, by simp only [SpecFn.Step, if_pos hrq]; exact ⟨he, trivial⟩, h⟩, fun N _ => rfl⟩
    · next hrq =>
      cases realloc with
      | true =>
        have hb := assignSame_sat k3 j3 m n e
        rw [if_pos rfl]
        cases hx : assignSame x y m n e with
        | bad => rw [hx] at hb; exact hb.elim
        | threw e' x' =>
          rw [hx] at hb
          obtain ⟨l1, l2⟩ := hb
          refine ⟨?_, fun N hN => ?_⟩
          · rcases l2 with ⟨l2, i, l3⟩ | ⟨l2, i, j, l3⟩
            · refine ⟨a, ⟨g, f, k2, j2, Or.inl ⟨⟨i, by rw [l3, he]; rfl⟩, rfl⟩⟩, ?_⟩
              have := h.upd r (RV.mk l2)
              rwa [upd_self' a k2] at this
            · exact ⟨_, ⟨g, f, k2, j2, Or.inr ⟨⟨i, j, by rw [l3, he]; rfl⟩, rfl⟩⟩, h.upd r (RV.mk l2)⟩
          · rw [count_same s k1 (hN r (by simp [Op.vars])), l1]
        | done e' x' =>
          rw [hx] at hb
          obtain ⟨l1, l2, l3⟩ := hb
          refine ⟨⟨upd a r (some f), ?_, h.upd r (RV.mk l1)⟩, fun N hN => ?_⟩
          · simp only [SpecFn.Step, if_neg hrq]
            exact ⟨g, f, k2, j2, ⟨m, n, Nat.le_refl _, Nat.le_refl _, by rw [l3, he]; rfl⟩, Or.inl rfl⟩
          · rw [count_same s k1 (hN r (by simp [Op.vars])), l2]
      | false =>
        have hb := moveAssignEq_sat c k3 j3 e
        rw [if_neg (by simp)]
        cases hx : moveAssignEq c x y e with
        | bad => rw [hx] at hb; exact hb.elim
        | threw e' x' =>
          rw [hx] at hb
          obtain ⟨l1, l2, l3⟩ := hb
          refine ⟨⟨a, ⟨g, f, k2, j2, Or.inl ⟨⟨0, by rw [l3, he]; rfl⟩, rfl⟩⟩, ?_⟩, fun N hN => ?_⟩
          · have := (h.upd r (RV.mk l1)).upd q (RV.mk j3)
            rwa [upd_self' a k2, upd_self' a j2] at this
          · dsimp only
            rw [count_same2 s hrq k1 j1 (hN r (by simp [Op.vars])) (hN q (by simp [Op.vars])), l2]
        | done e' z =>
          rw [hx] at hb
          obtain ⟨l1, l2, l3, l4⟩ := hb
          have hz : ∃ f', Holds z.2 f' ∧ (f' = f ∨ f' = c.mv f) := by
            rcases l2 with l2 | l2
            · exact ⟨_, l2, Or.inl rfl⟩
            · exact ⟨_, l2, Or.inr rfl⟩
          obtain ⟨f', m1, m2⟩ := hz
          refine ⟨⟨upd (upd a r (some f)) q (some f'), ?_, (h.upd r (RV.mk l1)).upd q (RV.mk m1)⟩, fun N hN => ?_⟩
          · simp only [SpecFn.Step, if_neg hrq]
            refine ⟨g, f, k2, j2, ⟨0, 0, Nat.zero_le _, Nat.zero_le _, by rw [l4, he]; rfl⟩, ?_⟩
            rcases m2 with rfl | rfl
            · exact Or.inl (upd_self' _ (by rw [upd_other a (Ne.symm hrq)]; exact j2))
            · exact Or.inr rfl
          · rw [count_same2 s hrq k1 j1 (hN r (by simp [Op.vars])) (hN q (by simp [Op.vars])), l3]
  | swap r q =>
    obtain ⟨x, g, k1, k2, k3⟩ := h.some hp.1
    obtain ⟨y, f, j1, j2, j3⟩ := h.some hp.2
    simp only [step, k1, j1]
    by_cases hrq : r = q
    · subst hrq
      simp only [if_true, ite_self]
      refine ⟨⟨a, ⟨he, ?_⟩, h⟩, fun N _ => rfl⟩
      rw [upd_self' a rfl, upd_self' a rfl]
    · simp only [if_neg hrq]
      have hD : ∀ e' (z : Fns2 F × Fns2 F), Holds z.1 f → Holds z.2 g → e'.live = e.live → e'.tr = e.tr →
          Good c s a (.swap r q) e (.done e' (upd (upd s r (some z.1)) q (some z.2))) := by
        intro e' z l1 l2 l3 l4
        refine ⟨⟨_, ⟨by rw [l4, he], rfl⟩, ?_⟩, fun N hN => ?_⟩
        · rw [j2, k2]
          exact (h.upd r (RV.mk l1)).upd q (RV.mk l2)
        · rw [count_same2 s hrq k1 j1 (hN r (by simp [Op.vars])) (hN q (by simp [Op.vars])), l3]
      split
      · have hb := swapNothrow_sat k3 j3 e
        cases hx : swapNothrow x y e with
        | bad => rw [hx] at hb; exact hb.elim
        | threw e' z => rw [hx] at hb; exact hb.elim
        | done e' z =>
          rw [hx] at hb
          obtain ⟨l1, l2, l3, l4⟩ := hb
          exact hD e' z l1 l2 l3 l4
      · have hb := swapThrowing_sat k3 j3 e
        cases hx : swapThrowing x y e with
        | bad => rw [hx] at hb; exact hb.elim
        | threw e' z =>
          rw [hx] at hb
          obtain ⟨l1, l2, l3, l4⟩ := hb
          refine ⟨⟨a, ⟨by rw [l4, he], rfl⟩, ?_⟩, fun N hN => ?_⟩
          · have := (h.upd r (RV.mk l1)).upd q (RV.mk l2)
            rwa [upd_self' a k2, upd_self' a j2] at this
          · rw [count_same2 s hrq k1 j1 (hN r (by simp [Op.vars])) (hN q (by simp [Op.vars])), l3]
        | done e' z =>
          rw [hx] at hb
          obtain ⟨l1, l2, l3, l4⟩ := hb
          exact hD e' z l1 l2 l3 l4
  | use r n =>
    obtain ⟨x, f, k1, k2, k3⟩ := h.some hp
    have hb := uses_sat k3.current n e
    simp only [step, k1]
    cases hx : x.uses n e with
    | bad => rw [hx] at hb; exact hb.elim
    | threw e' _ =>
      rw [hx] at hb
      obtain ⟨_, h1, i, h2⟩ := hb
      exact ⟨⟨a, ⟨f, k2, ⟨i, by rw [h2, he]; rfl⟩, rfl⟩, h⟩, fun N _ => by rw [h1]⟩
    | done e' _ =>
      rw [hx] at hb
      obtain ⟨h1, h2⟩ := hb
      exact ⟨⟨a, ⟨f, k2, by rw [h2, he]; rfl, rfl⟩, h⟩, fun N _ => by rw [h1]⟩
  | destroy r =>
    obtain ⟨x, f, k1, k2, k3⟩ := h.some hp
    obtain ⟨s', h1⟩ := dtor_eq k3 e
    simp only [step, k1, h1]
    refine ⟨⟨_, ⟨he, rfl⟩, h.upd r rfl⟩, fun N hN => ?_⟩
    rw [count_upd s r _ N (hN r (by simp [Op.vars])), k1]
    simp; omega

theorem RS.isSome {s : Vars F} {a : Nat → Option F} (h : RS s a) (r : Nat) : (s r).isSome = true ↔ a r ≠ none := by
  have := h r
  cases ha : a r with
  | none => rw [ha] at this; rw [show s r = none from this]; simp
  | some f => rw [ha] at this; obtain ⟨x, k1, _⟩ := this; rw [k1]; simp

theorem RS.isNone {s : Vars F} {a : Nat → Option F} (h : RS s a) (r : Nat) : (s r).isNone = true ↔ a r = none := by
  have := h.isSome r
  cases hs : s r <;> cases ha : a r <;> simp_all

theorem applicable_iff {s : Vars F} {a : Nat → Option F} (h : RS s a) (op : Op F) :
    applicable s op = true ↔ SpecFn.Pre a op := by
  cases op <;> simp only [applicable, SpecFn.Pre, Bool.and_eq_true, h.isSome, h.isNone]

theorem run_refines (c : Cfg F) (N : Nat) : ∀ (ops : List (Op F × Nat)) (s : Vars F) (a : Nat → Option F) (e : Env F), RS s a →
    (∀ op ∈ ops, ∀ i ∈ op.1.vars, i < N) → e.live = count s N →
    ∃ s' e' out a', run c ops s e = some (s', e', out) ∧ out.map Prod.fst = ops.map Prod.fst ∧
      SpecFn.Run c.mv a out a' ∧ RS s' a' ∧ e'.live = count s' N
  | [], s, a, e, h, _, hl => ⟨s, e, [], a, rfl, rfl, .nil a, h, hl⟩
  | (op, n) :: ops, s, a, e, h, hN, hl => by
    have hN' : ∀ o ∈ ops, ∀ i ∈ o.1.vars, i < N := fun o ho => hN o (List.mem_cons_of_mem _ ho)
    have hv : ∀ i ∈ op.vars, i < N := hN (op, n) (List.mem_cons_self ..)
    by_cases hp : applicable s op = true
    · have hp' := (applicable_iff h op).1 hp
      have hg := step_good c h op hp' { e with left := n, tr := [] } rfl
      cases hx : step c s op { e with left := n, tr := [] } with
      | bad => rw [hx] at hg; exact hg.elim
      | done e1 s1 =>
        rw [hx] at hg
        obtain ⟨⟨a1, k1, k2⟩, k3⟩ := hg
        have := k3 N hv
        obtain ⟨s', e', out, a', j1, j2, j3, j4, j5⟩ := run_refines c N ops s1 a1 e1 k2 hN' (by dsimp only at this; omega)
        exact ⟨s', e', (op, .returned e1.tr) :: out, a', by simp only [run, hp, if_true, hx, j1]; rfl, by simp [j2],
          .ok hp' k1 j3, j4, j5⟩
      | threw e1 s1 =>
        rw [hx] at hg
        obtain ⟨⟨a1, k1, k2⟩, k3⟩ := hg
        have := k3 N hv
        obtain ⟨s', e', out, a', j1, j2, j3, j4, j5⟩ := run_refines c N ops s1 a1 e1 k2 hN' (by dsimp only at this; omega)
        exact ⟨s', e', (op, .threw e1.tr) :: out, a', by simp only [run, hp, if_true, hx, j1]; rfl, by simp [j2],
          .exc hp' k1 j3, j4, j5⟩
    · obtain ⟨s', e', out, a', j1, j2, j3, j4, j5⟩ := run_refines c N ops s a e h hN' hl
      exact ⟨s', e', (op, .skipped) :: out, a', by simp only [run, hp, Bool.false_eq_true, if_false, j1]; rfl, by simp [j2],
        .skip (fun hc => hp ((applicable_iff h op).2 hc)) j3, j4, j5⟩

end Fca.Fun

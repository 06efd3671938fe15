/-
Lemmas about systems of several concurrent containers: invariant, effect of operations on two containers, runs.
-/
import Verif.Conc.Multi
import Verif.Conc.TabLin
import Verif.Conc.TabSweep
import Verif.Foa.Refine

namespace Conc.Multi
open Foa Conc.Tab SpecT
open Conc.Locking (Mode)

variable {K V : Type}

/-! ### operations on whole containers read and write only the containers involved -/

section
variable {α : Type}

/-- `x` where an operation is involved, `y` elsewhere. -/
def mix (o : COp K V) (x y : Nat → α) (d : Nat) : α := if d ∈ o.uses then x d else y d

theorem mix_of {o : COp K V} {x y : Nat → α} {d : Nat} (h : d ∈ o.uses) : mix o x y d = x d := if_pos h
theorem mix_not {o : COp K V} {x y : Nat → α} {d : Nat} (h : d ∉ o.uses) : mix o x y d = y d := if_neg h

end

theorem mix_upd {α : Type} {o : COp K V} {s s2 : Nat → α} (h : ∀ d ∈ o.uses, s2 d = s d) {r : Nat} (hr : r ∈ o.uses) (x : α) :
    mix o (Spec.upd s r x) s2 = Spec.upd s2 r x := by
  funext d
  unfold mix Spec.upd
  by_cases hd : d ∈ o.uses
  · rw [if_pos hd, h d hd]
  · have hdr : d ≠ r := fun e => hd (e ▸ hr)
    rw [if_neg hd, if_neg hdr]

theorem mix_upd2 {α : Type} {o : COp K V} {s s2 : Nat → α} (h : ∀ d ∈ o.uses, s2 d = s d) {r q : Nat} (hr : r ∈ o.uses)
    (hq : q ∈ o.uses) (x y : α) : mix o (Spec.upd (Spec.upd s r x) q y) s2 = Spec.upd (Spec.upd s2 r x) q y := by
  funext d
  unfold mix Spec.upd
  by_cases hd : d ∈ o.uses
  · rw [if_pos hd, h d hd]
  · have hdr : d ≠ r := fun e => hd (e ▸ hr)
    have hdq : d ≠ q := fun e => hd (e ▸ hq)
    rw [if_neg hd, if_neg hdq, if_neg hdr]

theorem mix_self {α : Type} {o : COp K V} {s s2 : Nat → α} (h : ∀ d ∈ o.uses, s2 d = s d) : mix o s s2 = s2 := by
  funext d
  unfold mix
  by_cases hd : d ∈ o.uses
  · rw [if_pos hd, h d hd]
  · rw [if_neg hd]

theorem on1_local {o : COp K V} {s s2 : Nat → Table K V} (h : ∀ d ∈ o.uses, s2 d = s d) {r : Nat} (hr : r ∈ o.uses)
    (x : Option (Table K V × Spec.Res K V)) : on1 s2 r x = (on1 s r x).map fun y => (mix o y.1 s2, y.2) := by
  cases x with
  | none => rfl
  | some x => simp only [on1, Option.map_some, mix_upd h hr]

theorem on0_local {o : COp K V} {s s2 : Nat → Table K V} (h : ∀ d ∈ o.uses, s2 d = s d)
    (x : Option (Spec.Res K V)) : on0 s2 x = (on0 s x).map fun y => (mix o y.1 s2, y.2) := by
  cases x with
  | none => rfl
  | some x => simp only [on0, Option.map_some, mix_self h]

theorem on2_local {o : COp K V} {s s2 : Nat → Table K V} (h : ∀ d ∈ o.uses, s2 d = s d) {r q : Nat} (hr : r ∈ o.uses)
    (hq : q ∈ o.uses) (x : Option (Table K V × Table K V)) : on2 s2 r q x = (on2 s r q x).map fun y => (mix o y.1 s2, y.2) := by
  cases x with
  | none => rfl
  | some x => simp only [on2, Option.map_some, mix_upd2 h hr hq]

theorem ctor_local {o : COp K V} {s s2 : Nat → Table K V} (h : ∀ d ∈ o.uses, s2 d = s d) {r : Nat} (hr : r ∈ o.uses)
    (x : Option (Table K V)) : ctor s2 r x = (ctor s r x).map fun y => (mix o y.1 s2, y.2) := by
  unfold ctor
  rw [h r hr]
  cases (s r).destroy with
  | none => rfl
  | some _ =>
    cases x with
    | none => rfl
    | some x => simp only [Option.map_some, mix_upd h hr]

theorem uses_fst {r q : Nat} : r ∈ [r, q] := List.mem_cons_self
theorem uses_snd {r q : Nat} : q ∈ [r, q] := List.mem_cons_of_mem _ List.mem_cons_self

theorem step_local (c : MCfg) (veq : K × V → K × V → Bool) (o : COp K V) {s s2 : Nat → Table K V} (h : ∀ d ∈ o.uses, s2 d = s d) :
    step c veq s2 o.op = (step c veq s o.op).map fun x => (mix o x.1 s2, x.2) := by
  cases o with
  | construct r f al n => exact ctor_local h (o := .construct r f al n) List.mem_cons_self _
  | copyConstruct r q al =>
    simp only [COp.op, step]
    rw [h q uses_snd]
    exact ctor_local h uses_fst _
  | moveConstruct r q =>
    simp only [COp.op, step]
    rw [h r uses_fst, h q uses_snd]
    cases (s r).destroy with
    | none => rfl
    | some _ => exact on2_local h uses_fst uses_snd _
  | moveConstructAlloc r q al =>
    simp only [COp.op, step]
    rw [h r uses_fst, h q uses_snd]
    cases (s r).destroy with
    | none => rfl
    | some _ => exact on2_local h uses_fst uses_snd _
  | copyAssign r q =>
    simp only [COp.op, step]
    split
    · simp only [Option.map_some, mix_self h]
    · rw [h r uses_fst, h q uses_snd]
      exact on1_local h uses_fst _
  | moveAssign r q =>
    simp only [COp.op, step]
    split
    · simp only [Option.map_some, mix_self h]
    · rw [h r uses_fst, h q uses_snd]
      exact on2_local h uses_fst uses_snd _
  | swap r q =>
    simp only [COp.op, step]
    rw [h r uses_fst, h q uses_snd]
    exact on2_local h uses_fst uses_snd _
  | merge r q =>
    simp only [COp.op, step]
    split
    · rw [h r uses_fst]
      exact on1_local h uses_fst _
    · rw [h r uses_fst, h q uses_snd]
      exact on2_local h uses_fst uses_snd _
  | equal r q =>
    simp only [COp.op, step]
    rw [h r uses_fst, h q uses_snd]
    exact on0_local h _

/-- The specification, too, looks only at the objects involved. -/
theorem spec_local (tr : Spec.Traits) (veq : K × V → K × V → Bool) (o : COp K V) {a a2 : Nat → Spec.Obj K V}
    (h : ∀ d ∈ o.uses, a2 d = a d) :
    Spec.step tr veq o.op a2 = (mix o (Spec.step tr veq o.op a).1 a2, (Spec.step tr veq o.op a).2) := by
  cases o with
  | construct r f al n => simp only [COp.op, Spec.step]; rw [mix_upd h (o := .construct r f al n) List.mem_cons_self]
  | copyConstruct r q al =>
    simp only [COp.op, Spec.step]
    rw [h q uses_snd, mix_upd h uses_fst]
  | moveConstruct r q =>
    simp only [COp.op, Spec.step]
    rw [h q uses_snd, mix_upd2 h uses_fst uses_snd]
  | moveConstructAlloc r q al =>
    simp only [COp.op, Spec.step]
    rw [h q uses_snd, mix_upd2 h uses_fst uses_snd]
  | copyAssign r q =>
    simp only [COp.op, Spec.step]
    rw [h r uses_fst, h q uses_snd, mix_upd h uses_fst]
  | moveAssign r q =>
    simp only [COp.op, Spec.step]
    split
    · rw [mix_self h]
    · rw [h r uses_fst, h q uses_snd, mix_upd2 h uses_fst uses_snd]
  | swap r q =>
    simp only [COp.op, Spec.step]
    rw [h r uses_fst, h q uses_snd, mix_upd2 h uses_fst uses_snd]
  | merge r q =>
    simp only [COp.op, Spec.step]
    split
    · rw [mix_self h]
    · rw [h r uses_fst, h q uses_snd, mix_upd2 h uses_fst uses_snd]
  | equal r q =>
    simp only [COp.op, Spec.step]
    rw [h r uses_fst, h q uses_snd, mix_self h]

/-! ### effect of operations on whole containers -/

theorem uses_head (o : COp K V) : ∃ r, r ∈ o.uses := by cases o <;> exact ⟨_, List.mem_cons_self⟩

theorem pre_spec {c : MCfg} {o : COp K V} {tabs : Nat → Table K V} {a : Nat → Spec.Obj K V}
    (h : ∀ d ∈ o.uses, R (tabs d) (a d)) (hp : o.Pre c tabs) : Spec.Pre c.traits o.op a := by
  cases o with
  | construct r f al n => exact ⟨hp.hash_lt, hp.refl, hp.symm, hp.trans, hp.compat⟩
  | copyConstruct r q al => exact hp
  | moveConstruct r q => exact hp
  | moveConstructAlloc r q al => exact hp
  | copyAssign r q => trivial
  | moveAssign r q => trivial
  | swap r q =>
    refine hp.imp id fun e => ?_
    rw [← (h r uses_fst).al, ← (h q uses_snd).al]
    exact e
  | merge r q =>
    show (a r).eq = (a q).eq
    rw [← (h r uses_fst).eq, ← (h q uses_snd).eq]
    exact hp
  | equal r q => trivial

theorem spec_not_list (tr : Spec.Traits) (veq : K × V → K × V → Bool) (o : COp K V) (a : Nat → Spec.Obj K V)
    {res : Spec.Res K V} (h : res.Agrees (Spec.step tr veq o.op a).2) : res = (Spec.step tr veq o.op a).2 := by
  have hl : ∀ l, (Spec.step tr veq o.op a).2 ≠ .list l := by
    intro l
    cases o <;> simp only [COp.op, Spec.step] <;> (try split) <;> exact fun h => by cases h
  generalize (Spec.step tr veq o.op a).2 = y at h hl
  cases y with
  | list l => exact absurd rfl (hl l)
  | _ => cases res <;> exact h

theorem exec_spec (c : MCfg) (veq : K × V → K × V → Bool) (o : COp K V) {tabs : Nat → Table K V} {a : Nat → Spec.Obj K V}
    (h : ∀ d ∈ o.uses, R (tabs d) (a d)) (hp : o.Pre c tabs) :
    ∃ tabs' res, step c veq tabs o.op = some (tabs', res) ∧ res = (Spec.step c.traits veq o.op a).2 ∧
      (∀ d ∈ o.uses, R (tabs' d) ((Spec.step c.traits veq o.op a).1 d)) ∧ ∀ d, d ∉ o.uses → tabs' d = tabs d := by
  obtain ⟨r0, hr0⟩ := uses_head o
  have hmix : ∀ d ∈ o.uses, tabs d = mix o tabs (fun _ => tabs r0) d := fun d hd => (mix_of hd).symm
  have hmix' : ∀ d ∈ o.uses, mix o a (fun _ => a r0) d = a d := fun d hd => mix_of hd
  have hRS : RS (mix o tabs (fun _ => tabs r0)) (mix o a (fun _ => a r0)) := by
    intro d
    by_cases hd : d ∈ o.uses
    · rw [mix_of hd, mix_of hd]; exact h d hd
    · rw [mix_not hd, mix_not hd]; exact h r0 hr0
  have hpre : Spec.Pre c.traits o.op (mix o a (fun _ => a r0)) := by
    refine pre_spec (c := c) (o := o) (fun d hd => ?_) hp
    rw [mix_of hd]
    exact h d hd
  obtain ⟨s', res, h1, h2, h3⟩ := step_refines c veq hRS o.op hpre
  rw [spec_local c.traits veq o hmix'] at h2 h3
  refine ⟨_, res, by rw [step_local c veq o hmix, h1]; rfl, spec_not_list _ _ _ _ h2, fun d hd => ?_, fun d hd => mix_not hd⟩
  rw [mix_of hd]
  have := h3 d
  dsimp only at this
  rw [mix_of hd] at this
  exact this

/-! ### one container, with steps that replace it -/

/-- What a step of the whole system is for one container: a step of one of its operations, nothing, or its replacement while no
thread is inside. -/
inductive Ext (cfg : Cfg) (s s' : State K V) : Prop where
  | one (u : Nat) : StepBy cfg u s s' → Ext cfg s s'
  | skip : s' = s → Ext cfg s s'
  | repl : (∀ u, (s.pc u).inside = false) → s'.pc = s.pc → s'.mem.tab.Inv → Ext cfg s s'

theorem Ext.inv {cfg : Cfg} {s s' : State K V} (h : Ext cfg s s') (hi : SInv s) (hw : NoWrap s) : SInv s' := by
  cases h with
  | one u h => exact hi.step hw h
  | skip h => rw [h]; exact hi
  | repl ho hp ht =>
    refine SInv.of_inv ht (fun u => by rw [hp]; exact ho u) fun u => ?_
    rw [hp]
    exact PcOk.of_outside (ho u) (hi.pcs u)

/-- The invariant of the system. -/
structure MInv (s : MState K V) : Prop where
  each : ∀ d, SInv (s.view d)
  good : ∀ t, s.two t ≠ .bad

theorem view_put (s : MState K V) (d : Nat) (x : State K V) : (s.put d x).view d = x := by
  simp [MState.view, MState.put]
theorem view_put_ne (s : MState K V) {d e : Nat} (h : e ≠ d) (x : State K V) : (s.put d x).view e = s.view e := by
  simp [MState.view, MState.put, h]

/-- The abstract object a container is when nobody is inside. -/
def absObj (m : Mem K V) : Spec.Obj K V := ⟨m.tab.fns.eq, m.tab.al, m.tab.contents⟩

theorem R_abs {s : State K V} (hi : SInv s) (ho : ∀ u, (s.pc u).inside = false) : R s.mem.tab (absObj s.mem) :=
  ⟨hi.quiescent ho, rfl, rfl, List.Perm.refl _⟩

theorem MInv.uses {s : MState K V} (hi : MInv s) {t : Nat} {o : COp K V} (hf : Free s t o) :
    ∀ d ∈ o.uses, R (s.tabs d) (absObj (s.mem d)) := fun d hd => R_abs (hi.each d) fun u => hf.out u d hd

/-- The view of one container along a step. -/
theorem MStepBy.ext {c : MCfg} {veq : K × V → K × V → Bool} {t : Nat} {s s' : MState K V} {w : Option Nat}
    (h : MStepBy c veq t s w s') (hi : MInv s) (d : Nat) : Ext c.toCfg (s.view d) (s'.view d) := by
  cases h with
  | one e x h =>
    by_cases hd : d = e
    · subst hd; rw [view_put]; exact .one t h
    · rw [view_put_ne s hd]; exact .skip rfl
  | call o h => exact .skip rfl
  | exec o tabs' res cnt h hf hp hs hc =>
    obtain ⟨tabs2, res2, h1, _, h3, h4⟩ := exec_spec c veq o (hi.uses hf) hp
    rw [hs] at h1
    cases h1
    by_cases hd : d ∈ o.uses
    · exact .repl (fun u => hf.out u d hd) rfl (h3 d hd).inv
    · refine .skip ?_
      simp only [MState.view, h4 d hd, hc d hd, MState.tabs]
  | execBad o h hf hp hs => exact .skip rfl

/-- Which container a thread moves in, if it is there. -/
theorem MStepBy.own {c : MCfg} {veq : K × V → K × V → Bool} {t : Nat} {s s' : MState K V} {d : Nat}
    (h : MStepBy c veq t s (some d) s') : StepBy c.toCfg t (s.view d) (s'.view d) := by
  cases h with
  | one e x h => rw [view_put]; exact h

/-- A step of the thread itself that is not a step of its operation on `d` does not touch `d` if that operation is under way. -/
theorem MStepBy.else_ {c : MCfg} {veq : K × V → K × V → Bool} {t : Nat} {s s' : MState K V} {w : Option Nat}
    (h : MStepBy c veq t s w s') (hi : MInv s) {d : Nat} (hw : w ≠ some d) (hd : atRest (s.pc t d) = false) :
    s'.view d = s.view d := by
  cases h with
  | one e x h => exact view_put_ne s (fun e => hw (by rw [e])) x
  | call o h => rfl
  | exec o tabs' res cnt h hf hp hs hc =>
    obtain ⟨tabs2, res2, h1, _, h3, h4⟩ := exec_spec c veq o (hi.uses hf) hp
    rw [hs] at h1
    cases h1
    by_cases hu : d ∈ o.uses
    · rw [hf.rest d hu] at hd; cases hd
    · simp only [MState.view, h4 d hu, hc d hu, MState.tabs]
  | execBad o h hf hp hs => rfl

/-- A step that is not one of thread `t` in container `d` leaves the place of `t` in `d` alone. -/
theorem MStepBy.other {c : MCfg} {veq : K × V → K × V → Bool} {t u : Nat} {s s' : MState K V} {w : Option Nat}
    (h : MStepBy c veq u s w s') {d : Nat} (hn : ¬ (u = t ∧ w = some d)) : s'.pc t d = s.pc t d := by
  cases h with
  | one e x h =>
    by_cases hd : d = e
    · subst hd
      have hu : t ≠ u := fun e => hn ⟨e.symm, rfl⟩
      have := h.other hu
      simp only [MState.put, if_true]
      exact this
    · simp [MState.put, hd]
  | call o h => rfl
  | exec o tabs' res cnt h hf hp hs hc => rfl
  | execBad o h hf hp hs => rfl

theorem MInv.step {c : MCfg} {veq : K × V → K × V → Bool} {t : Nat} {s s' : MState K V} {w : Option Nat} (hi : MInv s)
    (hw : MNoWrap s) (h : MStepBy c veq t s w s') : MInv s' := by
  refine ⟨fun d => (h.ext hi d).inv (hi.each d) (hw d), fun u => ?_⟩
  cases h with
  | one e x h => exact hi.good u
  | call o h =>
    show (if u = t then TPc.called o else s.two u) ≠ .bad
    split
    · exact fun h => by cases h
    · exact hi.good u
  | exec o tabs' res cnt h hf hp hs hc =>
    show (if u = t then TPc.done (o.answer s.tabs tabs' res) else s.two u) ≠ .bad
    split
    · exact fun h => by cases h
    · exact hi.good u
  | execBad o h hf hp hs =>
    obtain ⟨tabs2, res2, h1, _⟩ := exec_spec c veq o (hi.uses hf) hp
    rw [hs] at h1
    cases h1

theorem MReach.inv {c : MCfg} {veq : K × V → K × V → Bool} {f : Fns K} (hf : f.Lawful) {s : MState K V}
    (h : MReach c veq f s) : MInv s := by
  induction h with
  | init => exact ⟨fun d => SInv.init c.toCfg hf 0 0, fun t h => by cases h⟩
  | step _ hw hs ih => exact ih.step hw hs

theorem MRun.inv {c : MCfg} {veq : K × V → K × V → Bool} {σ : Nat → MState K V} {who : Nat → Nat} {loc : Nat → Option Nat} {n : Nat}
    (h : MRun c veq σ who loc n) (h0 : MInv (σ 0)) : ∀ i ≤ n, MInv (σ i) := by
  intro i
  induction i with
  | zero => intro _; exact h0
  | succ i ih => intro hi; exact (ih (by omega)).step (h.nowrap i (by omega)) (h.step i (by omega))

/-! ### operations with a key -/

theorem pending_active {p : Pc K V} {o : KOp K V} (h : p.pending = some o) : atRest p = false := by
  cases p <;> first | (cases h; done) | rfl

/-- `lin_points` for a system in which `own i` are the steps of the operation of thread `t`. -/
theorem lin_gen {cfg : Cfg} {σ : Nat → State K V} {own : Nat → Prop} {n : Nat} {t : Nat} (hI : ∀ i ≤ n, SInv (σ i))
    (hW : ∀ i < n, NoWrap (σ i)) (hE : ∀ i < n, Ext cfg (σ i) (σ (i + 1)))
    (hown : ∀ i < n, own i → StepBy cfg t (σ i) (σ (i + 1)))
    (hoth : ∀ i < n, ¬ own i → (σ (i + 1)).pc t = (σ i).pc t)
    {o : KOp K V} (hs : (σ 0).pc t = .start (.key o)) (hd : ∀ i < n, ∀ r, (σ i).pc t ≠ .done r) :
    ∀ i ≤ n,
      (((σ i).pc t).pending = some o ∧ (∀ l < i, own l → Same (σ l).mem.elems (σ (l + 1)).mem.elems) ∧
        (AheadPc (σ i).mem ((σ i).pc t) ∨ ∃ l ≤ i, NoKey (σ l).mem o.key)) ∨
      (∃ r, ((σ i).pc t).result = some r ∧
        ((∃ l < i, own l ∧ o.Spec (σ l).mem.tab.fns.eq (σ l).mem.elems (σ (l + 1)).mem.elems r ∧
            ∀ l' < i, own l' → l' ≠ l → Same (σ l').mem.elems (σ (l' + 1)).mem.elems) ∨
         (o.isInsert = false ∧ r = 0 ∧ (∃ l ≤ i, NoKey (σ l).mem o.key) ∧
            ∀ l' < i, own l' → Same (σ l').mem.elems (σ (l' + 1)).mem.elems))) := by
  intro i
  induction i with
  | zero =>
    intro _
    left
    rw [hs]
    exact ⟨rfl, fun l hl => absurd hl (Nat.not_lt_zero _), .inl trivial⟩
  | succ i ih =>
    intro hi
    have hin : i < n := by omega
    have hinv := hI i (by omega)
    have hw := hW i hin
    by_cases hu : own i
    · have hstep := hown i hin hu
      rcases ih (by omega) with ⟨h1, h2, h3⟩ | ⟨r, h1, h2⟩
      · rcases hstep.pending_self hinv hw h1 with ⟨e1, e2, e3⟩ | ⟨r, e1, e2⟩ | ⟨e1, e2, e3, e4⟩
        · left
          refine ⟨e1, fun l hl hlt => ?_, ?_⟩
          · rcases Nat.lt_succ_iff_lt_or_eq.1 hl with hl | rfl
            · exact h2 l hl hlt
            · exact e2
          · exact h3.imp e3 (fun ⟨l, hl, hl'⟩ => ⟨l, by omega, hl'⟩)
        · right
          exact ⟨r, e1, .inl ⟨i, by omega, hu, e2, fun l hl hlt hne => h2 l (by omega) hlt⟩⟩
        · right
          refine ⟨0, e2, .inr ⟨e1, rfl, ?_, fun l hl hlt => ?_⟩⟩
          · rcases h3 with h3 | ⟨l, hl, hl'⟩
            · exact ⟨i, by omega, e4 h3⟩
            · exact ⟨l, by omega, hl'⟩
          · rcases Nat.lt_succ_iff_lt_or_eq.1 hl with hl | rfl
            · exact h2 l hl hlt
            · exact e3
      · obtain ⟨e1, e2⟩ := hstep.result_self hinv hw h1 (hd i hin)
        right
        refine ⟨r, e1, ?_⟩
        rcases h2 with ⟨l, hl, hlt, hsp, hsame⟩ | ⟨q1, q2, ⟨l, hl, hl'⟩, q4⟩
        · refine .inl ⟨l, by omega, hlt, hsp, fun l' hl' hlt' hne => ?_⟩
          rcases Nat.lt_succ_iff_lt_or_eq.1 hl' with hl' | rfl
          · exact hsame l' hl' hlt' hne
          · exact e2
        · refine .inr ⟨q1, q2, ⟨l, by omega, hl'⟩, fun l' hl' hlt' => ?_⟩
          rcases Nat.lt_succ_iff_lt_or_eq.1 hl' with hl' | rfl
          · exact q4 l' hl' hlt'
          · exact e2
    · have hpc := hoth i hin hu
      rw [hpc]
      rcases ih (by omega) with ⟨h1, h2, h3⟩ | ⟨r, h1, h2⟩
      · left
        refine ⟨h1, fun l hl hlt => ?_, ?_⟩
        · rcases Nat.lt_succ_iff_lt_or_eq.1 hl with hl | rfl
          · exact h2 l hl hlt
          · exact absurd hlt hu
        · rcases h3 with h3 | ⟨l, hl, hl'⟩
          · cases hE i hin with
            | one u hstep =>
              by_cases hut : t = u
              · -- the thread itself, with a step that is also possible for it: its place does not change
                subst hut
                rcases hstep.pending_self hinv hw h1 with ⟨_, _, e3⟩ | ⟨r, e1, _⟩ | ⟨_, e1, _⟩
                · left; rw [← hpc]; exact e3 h3
                · rw [hpc] at e1
                  generalize (σ i).pc t = p at h1 e1
                  cases p <;> first | (cases h1; done) | cases e1
                · rw [hpc] at e1
                  generalize (σ i).pc t = p at h1 e1
                  cases p <;> first | (cases h1; done) | cases e1
              · rcases ahead_other hinv hw hstep hut (pending_key h1) h3 with h4 | h4
                · exact .inl h4
                · exact .inr ⟨i, by omega, h4⟩
            | skip h => left; rw [h]; exact h3
            | repl ho _ _ =>
              left
              have h4 := ho t
              revert h4
              cases (σ i).pc t <;> intro h4 <;> trivial
          · exact .inr ⟨l, by omega, hl'⟩
      · right
        refine ⟨r, h1, ?_⟩
        rcases h2 with ⟨l, hl, hlt, hsp, hsame⟩ | ⟨q1, q2, ⟨l, hl, hl'⟩, q4⟩
        · refine .inl ⟨l, by omega, hlt, hsp, fun l' hl' hlt' hne => ?_⟩
          rcases Nat.lt_succ_iff_lt_or_eq.1 hl' with hl' | rfl
          · exact hsame l' hl' hlt' hne
          · exact absurd hlt' hu
        · refine .inr ⟨q1, q2, ⟨l, by omega, hl'⟩, fun l' hl' hlt' => ?_⟩
          rcases Nat.lt_succ_iff_lt_or_eq.1 hl' with hl' | rfl
          · exact q4 l' hl' hlt'
          · exact absurd hlt' hu

theorem MRun.sub {c : MCfg} {veq : K × V → K × V → Bool} {σ : Nat → MState K V} {who : Nat → Nat} {loc : Nat → Option Nat} {n : Nat}
    (h : MRun c veq σ who loc n) {a b : Nat} (hab : a ≤ b) (hb : b ≤ n) :
    MRun c veq (fun i => σ (a + i)) (fun i => who (a + i)) (fun i => loc (a + i)) (b - a) :=
  ⟨fun i hi => h.step (a + i) (by omega), fun i hi => h.nowrap (a + i) (by omega)⟩

/-- Operations with a key on container `d`. -/
theorem MRun.lin {c : MCfg} {veq : K × V → K × V → Bool} {σ : Nat → MState K V} {who : Nat → Nat} {loc : Nat → Option Nat} {n : Nat}
    (hr : MRun c veq σ who loc n) (h0 : MInv (σ 0)) {t d : Nat} {o : KOp K V} (hs : (σ 0).pc t d = .start (.key o))
    (hd : ∀ i < n, ∀ r, (σ i).pc t d ≠ .done r) {r : Nat} (hdone : (σ n).pc t d = .done r) :
    (∃ l < n, who l = t ∧ loc l = some d ∧
        o.Spec ((σ l).mem d).tab.fns.eq ((σ l).mem d).elems ((σ (l + 1)).mem d).elems r ∧
        ∀ l' < n, who l' = t → l' ≠ l → Same ((σ l').mem d).elems ((σ (l' + 1)).mem d).elems) ∨
      (o.isInsert = false ∧ r = 0 ∧ (∃ l ≤ n, NoKey ((σ l).mem d) o.key) ∧
        ∀ l' < n, who l' = t → Same ((σ l').mem d).elems ((σ (l' + 1)).mem d).elems) := by
  have hI := hr.inv h0
  have hoth : ∀ i < n, ¬ (who i = t ∧ loc i = some d) → (σ (i + 1)).pc t d = (σ i).pc t d := fun i hi hn =>
    (hr.step i hi).other hn
  have hown : ∀ i < n, (who i = t ∧ loc i = some d) → StepBy c.toCfg t ((σ i).view d) ((σ (i + 1)).view d) := by
    intro i hi ⟨h1, h2⟩
    have := hr.step i hi
    rw [h1, h2] at this
    exact this.own
  -- the thread is not at rest before its return
  have hact : ∀ i < n, atRest ((σ i).pc t d) = false := by
    have key : ∀ i ≤ n, (((σ i).pc t d).pending = some o ∨ ∃ r, ((σ i).pc t d).result = some r) := by
      intro i hi
      have := lin_gen (σ := fun i => (σ i).view d) (own := fun i => who i = t ∧ loc i = some d) (n := n) (t := t) (o := o)
        (fun i hi => (hI i hi).each d) (fun i hi => hr.nowrap i hi d) (fun i hi => (hr.step i hi).ext (hI i (by omega)) d)
        hown hoth hs hd i hi
      rcases this with ⟨h1, _⟩ | ⟨r, h1, _⟩
      · exact .inl h1
      · exact .inr ⟨r, h1⟩
    intro i hi
    rcases key i (by omega) with h | ⟨r, h⟩
    · exact pending_active h
    · have hne := hd i hi
      generalize (σ i).pc t d = p at h hne
      cases p <;> first | (cases h; done) | (exact absurd rfl (hne _)) | rfl
  -- steps of the thread elsewhere
  have hels : ∀ i < n, who i = t → loc i ≠ some d → Same ((σ i).mem d).elems ((σ (i + 1)).mem d).elems := by
    intro i hi hw hl
    have h1 := hr.step i hi
    rw [hw] at h1
    have h2 := h1.else_ (hI i (by omega)) hl (hact i hi)
    have : (σ (i + 1)).mem d = (σ i).mem d := congrArg State.mem h2
    rw [this]
    exact Same.rfl' _
  have := lin_gen (σ := fun i => (σ i).view d) (own := fun i => who i = t ∧ loc i = some d) (n := n) (t := t) (o := o)
    (fun i hi => (hI i hi).each d) (fun i hi => hr.nowrap i hi d) (fun i hi => (hr.step i hi).ext (hI i (by omega)) d)
    hown hoth hs hd n le_rfl
  have hdone' : ((σ n).view d).pc t = .done r := hdone
  simp only [hdone'] at this
  rcases this with ⟨h1, _⟩ | ⟨r', h1, h2⟩
  · cases h1
  · cases h1
    rcases h2 with ⟨l, hl, hlo, hsp, hsame⟩ | ⟨q1, q2, q3, q4⟩
    · refine .inl ⟨l, hl, hlo.1, hlo.2, hsp, fun l' hl' hw hne => ?_⟩
      by_cases hc : loc l' = some d
      · exact hsame l' hl' ⟨hw, hc⟩ hne
      · exact hels l' hl' hw hc
    · refine .inr ⟨q1, q2, q3, fun l' hl' hw => ?_⟩
      by_cases hc : loc l' = some d
      · exact q4 l' hl' ⟨hw, hc⟩
      · exact hels l' hl' hw hc

/-! ### whole-table passes -/

theorem start_sweep_step {cfg : Cfg} {s s' : State K V} {t : Nat} (h : StepBy cfg t s s') {md : Mode} {act : K × V → Verdict V}
    (hs : s.pc t = .start (.sweep md act)) : ∀ o, s'.pc t ≠ .start o := by
  intro o ho
  cases h with
  | @quiet pc' h =>
    rw [State.set_pc, upd_self] at ho
    rcases h.to_start ho with hq | ⟨r, hq⟩ <;> rw [hs] at hq <;> cases hq
  | @eff m' pc' h => rw [hs] at h; cases h
  | @alone m' pc' ho h => rw [hs] at h; cases h

theorem sweeping_inside {p : Pc K V} {act : K × V → Verdict V} {md : Mode} (h : p.sweeping act md) (hs : ∀ o, p ≠ .start o)
    (hd : ∀ r, p ≠ .done r) : p.inside = true := by
  cases p with
  | start o => exact absurd rfl (hs o)
  | done r => exact absurd rfl (hd r)
  | _ => first | rfl | exact absurd h id

theorem sweeping_start {p : Pc K V} {act : K × V → Verdict V} {md : Mode} (h : p.sweeping act md) {o : Op K V} (hs : p = .start o) :
    p = .start (.sweep md act) := by
  subst hs
  cases o with
  | sweep md' act' => obtain ⟨rfl, rfl⟩ := h; rfl
  | _ => exact absurd h id

section
variable {cfg : Cfg} {σ : Nat → State K V} {own : Nat → Prop} {n t : Nat} {md : Mode} {act : K × V → Verdict V}
  (hI : ∀ i ≤ n, SInv (σ i)) (hW : ∀ i < n, NoWrap (σ i)) (hE : ∀ i < n, Ext cfg (σ i) (σ (i + 1)))
  (hown : ∀ i < n, own i → StepBy cfg t (σ i) (σ (i + 1)))
  (hoth : ∀ i < n, ¬ own i → (σ (i + 1)).pc t = (σ i).pc t)
  (hs : (σ 0).pc t = .start (.sweep md act)) (hd : ∀ i < n, ∀ r, (σ i).pc t ≠ .done r)
include hI hW hown hoth hs hd

theorem sweeping_gen : ∀ i ≤ n, ((σ i).pc t).sweeping act md := by
  intro i
  induction i with
  | zero => intro _; rw [hs]; exact ⟨rfl, rfl⟩
  | succ i ih =>
    intro hi
    have hin : i < n := by omega
    by_cases hu : own i
    · exact ((hown i hin hu).sweeping (hI i (by omega)) (hW i hin) (hd i hin) (ih (by omega))).1
    · rw [hoth i hin hu]
      exact ih (by omega)

/-- The instant at which the pass begins. -/
theorem sweep_begins : ∀ i ≤ n, (∀ j ≤ i, (σ j).pc t = .start (.sweep md act)) ∨
    ∃ a < i, own a ∧ (∀ j ≤ a, (σ j).pc t = .start (.sweep md act)) ∧ ∀ j, a < j → j ≤ i → ∀ o, (σ j).pc t ≠ .start o := by
  have hsw := sweeping_gen hI hW hown hoth hs hd
  intro i
  induction i with
  | zero => intro _; left; intro j hj; rw [Nat.le_zero.1 hj]; exact hs
  | succ i ih =>
    intro hi
    have hin : i < n := by omega
    rcases ih (by omega) with h | ⟨a, ha, hoa, h1, h2⟩
    · by_cases hu : own i
      · refine .inr ⟨i, by omega, hu, h, fun j hj hj' => ?_⟩
        have : j = i + 1 := by omega
        subst this
        exact start_sweep_step (hown i hin hu) (h i le_rfl)
      · refine .inl fun j hj => ?_
        rcases Nat.lt_succ_iff_lt_or_eq.1 (Nat.lt_succ_of_le hj) with hj | rfl
        · exact h j (by omega)
        · rw [hoth i hin hu]; exact h i le_rfl
    · refine .inr ⟨a, by omega, hoa, h1, fun j hj hj' o ho => ?_⟩
      rcases Nat.lt_succ_iff_lt_or_eq.1 (Nat.lt_succ_of_le hj') with hj' | rfl
      · exact h2 j hj (by omega) o ho
      · by_cases hu : own i
        · have hst := hown i hin hu
          have hin' := sweeping_inside (hsw i (by omega)) (h2 i ha le_rfl) (hd i hin)
          generalize σ (i + 1) = s1 at hst ho
          cases hst with
          | @quiet pc' h =>
            rw [State.set_pc, upd_self] at ho
            rcases h.to_start ho with hq | ⟨r, hq⟩
            · rw [hq] at hin'; cases hin'
            · exact hd i hin r hq
          | @eff m' pc' h => rw [State.set_pc, upd_self] at ho; exact h.to_start ho
          | @alone m' pc' hout h => rw [hout t] at hin'; cases hin'
        · rw [hoth i hin hu] at ho
          exact h2 i ha le_rfl o ho

include hE

/-- A pass in a system with replacements: every key that is there all the time is passed exactly once. -/
theorem pass_gen (hns : ∀ l < n, own l → ∀ y v a, Passes (σ l) t y → act y ≠ .stop v a) {r : Nat} (hr : (σ n).pc t = .done r) {x : K}
    (hx : ∀ i ≤ n, Present (σ i).mem.tab.fns.eq (σ i).mem.elems x) :
    ∃ l < n, own l ∧ (∃ y, Passes (σ l) t y ∧ (σ l).mem.tab.fns.eq x y.1 = true) ∧
      ∀ l' < n, own l' → (∃ y, Passes (σ l') t y ∧ (σ l').mem.tab.fns.eq x y.1 = true) → l' = l := by
  classical
  have hsw := sweeping_gen hI hW hown hoth hs hd
  rcases sweep_begins hI hW hown hoth hs hd n le_rfl with h | ⟨a, ha, hoa, h1, h2⟩
  · rw [h n le_rfl] at hr; cases hr
  have hins : ∀ i, a < i → i < n → ((σ i).pc t).inside = true := fun i h3 h4 =>
    sweeping_inside (hsw i (by omega)) (h2 i h3 (by omega)) (hd i h4)
  have hF : ∀ i ≤ n - a, (σ (a + i)).mem.tab.fns = (σ a).mem.tab.fns := by
    intro i
    induction i with
    | zero => intro _; rfl
    | succ i ih =>
      intro hi
      rw [← ih (by omega)]
      by_cases hu : own (a + i)
      · exact (hown (a + i) (by omega) hu).fns (hI (a + i) (by omega))
      · have h3 : a < a + i := by
          rcases Nat.eq_zero_or_pos i with rfl | h
          · exact absurd hoa hu
          · omega
        have := hE (a + i) (by omega)
        cases this with
        | one u h => exact h.fns (hI (a + i) (by omega))
        | skip h => rw [show a + (i + 1) = a + i + 1 from rfl, h]
        | repl ho _ _ => exact absurd (hins (a + i) h3 (by omega)) (by rw [ho t]; decide)
  have hnw : ∀ i, ¬ own (a + i) → (if own (a + i) then t else t + 1) ≠ t := fun i h => by rw [if_neg h]; omega
  have hyw : ∀ i, (if own (a + i) then t else t + 1) = t → own (a + i) := fun i h => by
    by_contra hc
    exact hnw i hc h
  have key := sweep_gen (cfg := cfg) (σ := fun i => σ (a + i)) (who := fun i => if own (a + i) then t else t + 1) (n := n - a) (t := t)
    (fun i hi => hI (a + i) (by omega)) hF (fun i hi => hW (a + i) (by omega))
    (fun i hi hu => hown (a + i) (by omega) (hyw i hu))
    (fun i hi hu => hoth (a + i) (by omega) (fun h => hu (by rw [if_pos h])))
    (by
      intro i hi hu hin x g j y hy he hp
      cases hE (a + i) (by omega) with
      | one u h => exact stays (hI (a + i) (by omega)) (hW (a + i) (by omega)) h hin hy he hp
      | skip h => exact ⟨y, by rw [show a + (i + 1) = a + i + 1 from rfl, h]; exact hy, rfl⟩
      | repl ho _ _ => rw [ho t] at hin; cases hin)
    (fun i hi hu => hns (a + i) (by omega) (hyw i hu)) (h1 a le_rfl) (fun i hi => hd (a + i) (by omega)) (x := x)
    (fun i hi => by have := hx (a + i) (by omega); rw [hF i hi] at this; exact this) (n - a) le_rfl
  have hF' : ∀ l, a ≤ l → l < n → (σ l).mem.tab.fns = (σ a).mem.tab.fns := fun l h3 h4 => by
    have := hF (l - a) (by omega)
    rwa [Nat.add_sub_cancel' h3] at this
  have hv : ∀ l, a ≤ l → l < n → (Vis (fun i => σ (a + i)) (fun i => if own (a + i) then t else t + 1) t x (l - a) ↔
      own l ∧ ∃ y, Passes (σ l) t y ∧ (σ l).mem.tab.fns.eq x y.1 = true) := by
    intro l h3 h4
    have hf := hF' l h3 h4
    simp only [Vis, Nat.add_zero, Nat.add_sub_cancel' h3, hf]
    constructor
    · rintro ⟨h5, h6⟩
      refine ⟨?_, h6⟩
      by_contra hc
      rw [if_neg hc] at h5
      omega
    · rintro ⟨h5, h6⟩
      exact ⟨if_pos h5, h6⟩
  have hbefore : ∀ l, l < a → ¬ ∃ y, Passes (σ l) t y ∧ (σ l).mem.tab.fns.eq x y.1 = true := by
    rintro l hl ⟨y, ⟨_, _, _, _, _, _, hq, _⟩, _⟩
    rw [h1 l hl.le] at hq
    cases hq
  simp only [Nat.add_sub_cancel' ha.le] at key
  rw [hr] at key
  rcases key with ⟨h3, _⟩ | ⟨_, g0, j0, y, v, _, _, h3, _, h5⟩
  · cases h3
  · obtain ⟨l, hl, hvl, hun⟩ := h5 h3
    have hvl' := (hv (a + l) (by omega) (by omega)).1 (by rw [Nat.add_sub_cancel_left]; exact hvl)
    refine ⟨a + l, by omega, hvl'.1, hvl'.2, fun l' hl' ho' hp' => ?_⟩
    have hal : a ≤ l' := by
      by_contra hc
      exact hbefore l' (by omega) hp'
    have := hun (l' - a) (by omega) ((hv l' hal hl').2 ⟨ho', hp'⟩)
    omega

end

end Conc.Multi

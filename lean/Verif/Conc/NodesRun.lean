/-
Calls on node handles along a run; executable runs for examples. Lemmas only; the model is `Verif.Conc.Nodes`.
-/
import Verif.Conc.NodesInv
import Verif.Conc.TabRun

namespace Conc.Nodes
open Conc.Tab Foa Node
open SpecT (Con Same Replaced Removed Added Present)
open Spec (upd)
open Conc.Locking (Mode)

variable {K V : Type}

/-- A continuation `σ 0, ..., σ n` with the labels `ls 0, ..., ls (n-1)`. -/
structure Run (cfg : Foa.Cfg) (pocma : Bool) (al : Nat) (σ : Nat → St K V) (ls : Nat → Lab K V) (n : Nat) : Prop where
  step : ∀ i < n, Step cfg pocma al (σ i) (ls i) (σ (i + 1))
  nowrap : ∀ i < n, NoWrap (σ i).tab

theorem Run.inv {cfg : Foa.Cfg} {pocma : Bool} {al : Nat} {σ : Nat → St K V} {ls : Nat → Lab K V} {n : Nat}
    (h : Run cfg pocma al σ ls n) (h0 : Inv al (σ 0)) : ∀ i ≤ n, Inv al (σ i) := by
  intro i
  induction i with
  | zero => intro _; exact h0
  | succ i ih => intro hi; exact (ih (by omega)).step (h.nowrap i (by omega)) (h.step i (by omega))

/-- The thread whose step of the table this is. -/
def Lab.thread : Lab K V → Option Nat
  | .call t _ | .tab t => some t
  | _ => none

/-- What a step does to the table by itself. -/
theorem Step.table {cfg : Foa.Cfg} {pocma : Bool} {al : Nat} {s s' : St K V} {lab : Lab K V} (hi : Inv al s) (hw : NoWrap s.tab)
    (h : Step cfg pocma al s lab s') :
    (∃ t, lab.thread = some t ∧ StepBy cfg t s.tab s'.tab) ∨ (lab.thread = none ∧ s'.tab = s.tab) := by
  cases h with
  | call t c o hf hp ho =>
    left
    refine ⟨t, rfl, .quiet ?_⟩
    rcases hf.2 with e | ⟨r, e⟩
    · rw [e]; exact .call o
    · rw [e]; exact .callAgain r o
  | tab t s1 m hnd h0 h1 hs he => exact .inl ⟨t, rfl, hs⟩
  | tabBad t s1 h0 h1 hs he =>
    obtain ⟨m', hnd', e, h⟩ := hi.tab_step hw h0 h1 hs
    rw [he] at e; cases e
  | _ => exact .inr ⟨rfl, rfl⟩

theorem Step.fns {cfg : Foa.Cfg} {pocma : Bool} {al : Nat} {s s' : St K V} {lab : Lab K V} (hi : Inv al s) (hw : NoWrap s.tab)
    (h : Step cfg pocma al s lab s') : s'.tab.mem.tab.fns = s.tab.mem.tab.fns := by
  rcases h.table hi hw with ⟨t, _, h⟩ | ⟨_, h⟩
  · exact h.fns hi.tab
  · rw [h]

theorem Run.fns {cfg : Foa.Cfg} {pocma : Bool} {al : Nat} {σ : Nat → St K V} {ls : Nat → Lab K V} {n : Nat}
    (h : Run cfg pocma al σ ls n) (h0 : Inv al (σ 0)) : ∀ i ≤ n, (σ i).tab.mem.tab.fns = (σ 0).tab.mem.tab.fns := by
  intro i
  induction i with
  | zero => intro _; rfl
  | succ i ih =>
    intro hi
    rw [(h.step i (by omega)).fns (h.inv h0 i (by omega)) (h.nowrap i (by omega)), ih (by omega)]

/-- Steps that are not those of the call of thread `t` leave it, its handle and the node in it alone. -/
theorem Step.frame {cfg : Foa.Cfg} {pocma : Bool} {al : Nat} {s s' : St K V} {lab : Lab K V} (hi : Inv al s) (hw : NoWrap s.tab)
    (h : Step cfg pocma al s lab s') {t g : Nat} (hu : (s.task t).uses = some g) (hl : lab ≠ .tab t)
    (hr : ∀ r, lab ≠ .ret t r) :
    s'.task t = s.task t ∧ s'.tab.pc t = s.tab.pc t ∧ s'.hnd g = s.hnd g ∧
      ∀ i, (s.hnd g).p = some i → s'.heap.cell i = s.heap.cell i := by
  have hnone : s.task t ≠ .none := by intro e; rw [e] at hu; cases hu
  cases h with
  | call u c o hf hp ho =>
    have : t ≠ u := by rintro rfl; exact hnone hf.1
    exact ⟨by simp [supd, this], by simp [State.set, this], rfl, fun _ _ => rfl⟩
  | tabBad u s1 h0 h1 hs he =>
    obtain ⟨m', hnd', e, h⟩ := hi.tab_step hw h0 h1 hs
    rw [he] at e; cases e
  | tab u s1 m hnd h0 h1 hs he =>
    have hut : t ≠ u := by rintro rfl; exact hl rfl
    refine ⟨rfl, hs.other hut, ?_⟩
    obtain ⟨hm, _, hlist⟩ := step_moved hi.tab hw hs h0 h1 (hi.fine u)
    have hT := hi.thr u
    have hO := hi.own
    show hnd g = s.hnd g ∧ ∀ i, (s.hnd g).p = some i → m.cell i = s.heap.cell i
    cases hc : change s.tab.mem (s.tab.pc u) with
    | keep => rw [hc] at he; cases he; exact ⟨rfl, fun _ _ => rfl⟩
    | put x =>
      obtain ⟨md, f2, f1, hp⟩ := change_put hc
      rw [hc] at he
      cases hk : s.task u with
      | none => rw [hk] at hT; have := hT _ hp; cases this
      | emplace j =>
        rw [hk] at he hT
        cases he
        refine ⟨rfl, fun i hg => ?_⟩
        rcases hT with ⟨_, x', _, _, a1, a2, a3, _⟩ | ⟨r, a1⟩
        · rw [hp] at a1; cases a1
          have : i ≠ x.2.1 := by
            rintro rfl
            obtain ⟨v, hv⟩ := hO.liveH g _ hg
            rw [a2, a3] at hv; cases hv
          simp only [construct, supd, Elem.node, if_neg this]
        · rw [result_pending a1] at hp; cases hp
      | insert l =>
        rw [hk] at he
        cases he
        have : g ≠ l := by rintro rfl; exact hut (hi.use t u g hu (by rw [hk]; rfl))
        exact ⟨by simp [supd, this], fun _ _ => rfl⟩
      | extract l =>
        rw [hk] at hT
        rcases hT with ⟨_, _, a1, _⟩ | ⟨a1, _⟩ | ⟨a1, _⟩
        · rw [hp] at a1; cases a1
        · rw [result_pending a1] at hp; cases hp
        · rw [result_pending a1] at hp; cases hp
    | take y =>
      rw [hc] at hm he
      cases hm with
      | take _ hy hr =>
        have key : ∀ i, (s.hnd g).p = some i → i ≠ y.2.1 := by
          rintro i hg rfl; exact hO.apart y g hy hg
        have hfree : (s.heap.free al (Elem.node y)).map (fun m' => (m', s.hnd)) = some (m, hnd) →
            hnd g = s.hnd g ∧ ∀ i, (s.hnd g).p = some i → m.cell i = s.heap.cell i := by
          intro e
          rw [Option.map_eq_some_iff] at e
          obtain ⟨m', e1, e2⟩ := e
          cases e2
          refine ⟨rfl, fun i hg => ?_⟩
          rw [(free_eq e1).1]
          simp only [supd, Elem.node, if_neg (key i hg)]
        cases hk : s.task u with
        | extract l =>
          rw [hk] at he
          simp only [apply, Option.map_eq_some_iff] at he
          obtain ⟨x, _, e⟩ := he
          cases e
          have : g ≠ l := by rintro rfl; exact hut (hi.use t u g hu (by rw [hk]; rfl))
          refine ⟨by simp [supd, this], fun i hg => ?_⟩
          simp only [store, supd, Elem.node, if_neg (key i hg)]
        | none => rw [hk] at he; exact hfree he
        | emplace j => rw [hk] at he; exact hfree he
        | insert l => rw [hk] at he; exact hfree he
    | all =>
      obtain ⟨l1, l2⟩ := hlist hc
      rw [hc] at he
      simp only [apply, Option.map_eq_some_iff] at he
      obtain ⟨m', e1, e2⟩ := he
      cases e2
      obtain ⟨m2, e3, _, hcell, _⟩ := Own.freeAll s.tab.mem.tab.contents hO l1 (fun x hx => (l2 x).2 hx)
      rw [e1] at e3; cases e3
      refine ⟨rfl, fun i hg => ?_⟩
      rw [hcell, if_neg]
      intro hmem
      obtain ⟨y, hy, rfl⟩ := List.mem_map.1 hmem
      exact hO.apart y g ((l2 y).2 hy) hg
  | ret u r hnd hp hn he =>
    have hut : t ≠ u := by rintro rfl; exact hr r rfl
    obtain ⟨hnd', e, _, _, h4⟩ := hi.ret_step hp
    rw [he] at e; cases e
    refine ⟨by simp [supd, hut], rfl, h4 g ?_, fun _ _ => rfl⟩
    rintro ⟨a, _⟩
    exact hut (hi.use t u g hu (by rw [a]; rfl))
  | retBad u r hp hn he =>
    obtain ⟨hnd', e, h, _⟩ := hi.ret_step hp
    rw [he] at e; cases e
  | drop l m hl' he =>
    have hgl : g ≠ l := by rintro rfl; exact hl' t hu
    refine ⟨rfl, rfl, by simp [supd, hgl], fun i hg => ?_⟩
    show m.cell i = s.heap.cell i
    cases hp : (s.hnd l).p with
    | none =>
      rw [hi.dflt hl' hp] at he
      simp only [Open.destroy, Hnd.dflt, Option.isNone_none, if_true] at he
      cases he; rfl
    | some j =>
      have hfull := hi.full hp
      obtain ⟨m', e, _⟩ := hi.freeH hl' hp
      rw [hfull] at he
      simp [Open.destroy, Open.destroyNode, Open.alOf, Open.reset, e] at he
      subst he
      have : i ≠ j := by rintro rfl; exact hgl (hi.own.uniqH g l _ hg hp)
      rw [(free_eq e).1]; simp [supd, this]
  | dropBad l hl' he =>
    obtain ⟨m', e, h⟩ := hi.drop_step hl'
    rw [he] at e; cases e
  | move a b r hab hl' he =>
    have ha : g ≠ a := by rintro rfl; exact (hl' t).2 hu
    have hb : g ≠ b := by rintro rfl; exact (hl' t).1 hu
    refine ⟨rfl, rfl, by simp [supd, ha, hb], fun i hg => ?_⟩
    show r.1.cell i = s.heap.cell i
    have hub : ∀ u, (s.task u).uses ≠ some b := fun u => (hl' u).1
    have hua : ∀ u, (s.task u).uses ≠ some a := fun u => (hl' u).2
    cases hp : (s.hnd a).p with
    | none =>
      have hra : r.1 = s.heap := by
        rw [hi.dflt hua hp] at he
        cases hq : (s.hnd b).p with
        | none => rw [hi.dflt hub hq] at he; simp [Open.assign, Hnd.dflt] at he; rw [← he]
        | some k =>
          rw [hi.full hq] at he
          simp [Open.assign, Open.take, Open.alOf, Open.emplace, Open.reset, Hnd.dflt] at he
          rw [← he]
      rw [hra]
    | some j =>
      obtain ⟨m', e, _⟩ := hi.freeH hua hp
      have hrm : r.1 = m' := by
        rw [hi.full hp] at he
        cases hq : (s.hnd b).p with
        | none =>
          rw [hi.dflt hub hq] at he
          simp [Open.assign, Open.destroyNode, Open.alOf, Open.reset, Hnd.dflt, e] at he
          rw [← he]
        | some k =>
          rw [hi.full hq] at he
          simp [Open.assign, Open.destroyNode, Open.alOf, Open.reset, Hnd.dflt, e] at he
          rw [← he]
      have : i ≠ j := by rintro rfl; exact ha (hi.own.uniqH g a _ hg hp)
      rw [hrm, (free_eq e).1]; simp [supd, this]
  | moveBad a b hab hl' he =>
    obtain ⟨r', e, h, _⟩ := hi.move_step pocma hab (fun u => (hl' u).1) (fun u => (hl' u).2)
    rw [he] at e; cases e
  | write l j m f hl' hp he =>
    have hgl : g ≠ l := by rintro rfl; exact hl' t hu
    refine ⟨rfl, rfl, rfl, fun i hg => ?_⟩
    obtain ⟨x, m', _, e, e', _⟩ := hi.write_step f hl' hp
    rw [he] at e; cases e
    have : i ≠ j := by rintro rfl; exact hgl (hi.own.uniqH g l _ hg hp)
    show m.cell i = _
    rw [e']; simp [supd, this]
  | writeBad l j f hl' hp he =>
    obtain ⟨x, m', _, e, _, h⟩ := hi.write_step f hl' hp
    rw [he] at e; cases e

/-- The step of a call that has not taken effect. -/
theorem tab_self {cfg : Foa.Cfg} {pocma : Bool} {al : Nat} {s s' : St K V} {t : Nat} (hi : Inv al s) (hw : NoWrap s.tab)
    (h : Step cfg pocma al s (.tab t) s') :
    s'.task = s.task ∧ StepBy cfg t s.tab s'.tab ∧ (∀ r, s.tab.pc t ≠ .done r) ∧
      apply al (s.task t) s.tab.mem.tab.contents s.heap s.hnd (change s.tab.mem (s.tab.pc t)) = some (s'.heap, s'.hnd) := by
  cases h with
  | tab u s1 m hnd h0 h1 hs he => exact ⟨rfl, hs, h1, he⟩
  | tabBad u s1 h0 h1 hs he =>
    obtain ⟨m', hnd', e, h⟩ := hi.tab_step hw h0 h1 hs
    rw [he] at e; cases e

/-! ### executable runs -/

/-- Finitely many threads. -/
structure NSys (K V : Type) where
  tab : Sys K (Nat × V)
  heap : Heap K V
  hnd : Nat → Hnd
  tasks : List Task

def NSys.task (S : NSys K V) (t : Nat) : Task := S.tasks.getD t .none
def NSys.state (S : NSys K V) : St K V := ⟨S.tab.state, S.heap, S.hnd, S.task, false⟩

def NSys.unused (S : NSys K V) (h : Nat) : Bool := S.tasks.all fun k => k.uses != some h

theorem NSys.unused_iff {S : NSys K V} {h : Nat} (hu : S.unused h = true) : ∀ u, (S.task u).uses ≠ some h := by
  intro u
  simp only [NSys.task, List.getD_eq_getElem?_getD]
  by_cases hl : u < S.tasks.length
  · rw [List.getElem?_eq_getElem hl]
    have := (List.all_eq_true.1 hu) _ (List.getElem_mem hl)
    simpa using this
  · rw [List.getElem?_eq_none (by omega)]
    intro e; cases e

def isFree : Pc K (Nat × V) → Bool
  | .idle | .done _ => true
  | _ => false

theorem isFree_iff {p : Pc K (Nat × V)} (h : isFree p = true) : p = .idle ∨ ∃ r, p = .done r := by
  cases p <;> simp only [isFree] at h <;> first | exact .inl rfl | exact .inr ⟨_, rfl⟩ | cases h

def preB (al : Nat) (S : NSys K V) : Call K V → Bool
  | .insertNode _ h _ _ => S.unused h && Open.accepts al (S.hnd h)
  | .extract h _ _ => S.unused h && (S.hnd h).p.isNone
  | _ => true

theorem preB_iff {al : Nat} {S : NSys K V} {c : Call K V} (h : preB al S c = true) : c.Pre al S.state := by
  cases c <;> simp only [preB, Bool.and_eq_true, Option.isNone_iff_eq_none] at h <;>
    first | exact trivial | exact ⟨NSys.unused_iff h.1, h.2⟩

/-- Executes a label; an argument is not executed if it does not apply. -/
def NSys.step (cfg : Foa.Cfg) (pocma : Bool) (al : Nat) (S : NSys K V) : Lab K V → Option (NSys K V)
  | .call t c =>
    if t < S.tasks.length ∧ t < S.tab.pcs.length ∧ S.task t = .none ∧ isFree (S.tab.pc t) = true ∧ preB al S c = true then
      match c.op S.state with
      | none => none
      | some o => some ⟨⟨S.tab.mem, S.tab.pcs.set t (.start o)⟩, { S.heap with next := c.next S.state }, S.hnd,
          S.tasks.set t (c.task S.state)⟩
    else none
  | .tab t =>
    if isFree (S.tab.pc t) = true then none
    else
      match S.tab.step cfg (.go t) with
      | none => none
      | some T =>
        match apply al (S.task t) S.tab.mem.tab.contents S.heap S.hnd (change S.tab.mem (S.tab.pc t)) with
        | none => none
        | some r => some ⟨T, r.1, r.2, S.tasks⟩
  | .ret t r =>
    if t < S.tasks.length ∧ S.task t ≠ .none ∧ (S.tab.pc t).answer = some r then
      match finish S.hnd (S.task t) r with
      | none => none
      | some hnd => some ⟨S.tab, S.heap, hnd, S.tasks.set t .none⟩
    else none
  | .drop h =>
    if S.unused h = true then
      match Open.destroy S.heap (S.hnd h) with
      | none => none
      | some m => some ⟨S.tab, m, upd S.hnd h .dflt, S.tasks⟩
    else none
  | .move g h =>
    if g ≠ h ∧ S.unused h = true ∧ S.unused g = true then
      match Open.assign pocma S.heap (S.hnd g) (S.hnd h) with
      | none => none
      | some r => some ⟨S.tab, r.1, upd (upd S.hnd g r.2.1) h r.2.2, S.tasks⟩
    else none
  | .write h f =>
    if S.unused h = true then
      match (S.hnd h).p with
      | none => none
      | some i =>
        match S.heap.write i f with
        | none => none
        | some m => some ⟨S.tab, m, S.hnd, S.tasks⟩
    else none

theorem tasks_set {S : NSys K V} {t : Nat} (ht : t < S.tasks.length) (k : Task) :
    (fun u => (S.tasks.set t k).getD u .none) = upd S.task t k := by
  funext u
  simp only [NSys.task, supd, List.getD_eq_getElem?_getD, List.getElem?_set]
  split
  · rename_i h
    subst h
    simp [ht]
  · rename_i h
    rw [if_neg (fun h' => h h'.symm)]

theorem NSys.step_sound {cfg : Foa.Cfg} {pocma : Bool} {al : Nat} {S S' : NSys K V} {lab : Lab K V}
    (h : S.step cfg pocma al lab = some S') : Step cfg pocma al S.state lab S'.state := by
  cases lab with
  | call t c =>
    simp only [NSys.step] at h
    split at h
    · rename_i hc
      obtain ⟨h1, h2, h3, h4, h5⟩ := hc
      split at h
      · cases h
      · rename_i o ho
        cases h
        have := Step.call (cfg := cfg) (pocma := pocma) (al := al) (s := S.state) t c o ⟨h3, isFree_iff h4⟩ (preB_iff h5) ho
        have ht : ∀ a b c k, NSys.task (⟨a, b, c, S.tasks.set t k⟩ : NSys K V) = upd S.task t k :=
          fun _ _ _ k => tasks_set h1 k
        simp only [NSys.state, Sys.set_state h2, ht] at this ⊢
        exact this
    · cases h
  | tab t =>
    simp only [NSys.step] at h
    split at h
    · cases h
    · rename_i hf
      split at h
      · cases h
      · rename_i T hT
        split at h
        · cases h
        · rename_i r hr
          cases h
          refine Step.tab (s := S.state) t T.state r.1 r.2 ?_ ?_ (Sys.step_sound hT).2 hr
          · intro e
            rw [show S.tab.pc t = _ from e] at hf
            exact hf rfl
          · intro q e
            rw [show S.tab.pc t = _ from e] at hf
            exact hf rfl
  | ret t r =>
    simp only [NSys.step] at h
    split at h
    · rename_i hc
      obtain ⟨h1, h2, h3⟩ := hc
      split at h
      · cases h
      · rename_i hnd hh
        cases h
        have := Step.ret (cfg := cfg) (pocma := pocma) (al := al) (s := S.state) t r hnd (Pc.answer_eq h3) h2 hh
        have ht : ∀ a b c k, NSys.task (⟨a, b, c, S.tasks.set t k⟩ : NSys K V) = upd S.task t k :=
          fun _ _ _ k => tasks_set h1 k
        simp only [NSys.state, ht] at this ⊢
        exact this
    · cases h
  | drop g =>
    simp only [NSys.step] at h
    split at h
    · rename_i hc
      split at h
      · cases h
      · rename_i m hm
        cases h
        exact Step.drop (s := S.state) g m (NSys.unused_iff hc) hm
    · cases h
  | move a b =>
    simp only [NSys.step] at h
    split at h
    · rename_i hc
      split at h
      · cases h
      · rename_i r hr
        cases h
        exact Step.move (s := S.state) a b r hc.1 (fun u => ⟨NSys.unused_iff hc.2.1 u, NSys.unused_iff hc.2.2 u⟩) hr
    · cases h
  | write g f =>
    simp only [NSys.step] at h
    split at h
    · rename_i hc
      split at h
      · cases h
      · rename_i i hi
        split at h
        · cases h
        · rename_i m hm
          cases h
          exact Step.write (s := S.state) g i m f (NSys.unused_iff hc) hi hm
    · cases h

/-- The state after some labels; every state on the way is checked for wrap-around. -/
def NSys.run (cfg : Foa.Cfg) (pocma : Bool) (al : Nat) : NSys K V → List (Lab K V) → Option (NSys K V)
  | S, [] => some S
  | S, l :: ls =>
    if S.tab.nowrap = true then
      match S.step cfg pocma al l with
      | none => none
      | some T => T.run cfg pocma al ls
    else none

def NSys.init (cfg : Foa.Cfg) (f : Fns K) (al n threads : Nat) : NSys K V :=
  ⟨Sys.init cfg f al n threads, .init, fun _ => .dflt, List.replicate threads .none⟩

theorem NSys.init_state (cfg : Foa.Cfg) (f : Fns K) (al n threads : Nat) :
    (NSys.init cfg f al n threads : NSys K V).state = Nodes.init cfg f al n := by
  have : (NSys.init cfg f al n threads : NSys K V).task = fun _ => .none := by
    funext u
    simp only [NSys.task, NSys.init, List.getD_eq_getElem?_getD, List.getElem?_replicate]
    split <;> rfl
  simp only [NSys.state, this]
  simp only [NSys.init, Nodes.init, Sys.init_state]

/-- The states of the run. -/
def NSys.trace (cfg : Foa.Cfg) (pocma : Bool) (al : Nat) : NSys K V → List (Lab K V) → Nat → St K V
  | S, _, 0 => S.state
  | S, [], _ + 1 => S.state
  | S, l :: ls, i + 1 =>
    match S.step cfg pocma al l with
    | none => S.state
    | some T => T.trace cfg pocma al ls i

theorem NSys.trace_run {cfg : Foa.Cfg} {pocma : Bool} {al : Nat} : ∀ (ls : List (Lab K V)) {S S' : NSys K V},
    S.run cfg pocma al ls = some S' →
    Run cfg pocma al (S.trace cfg pocma al ls) (fun i => ls.getD i (.drop 0)) ls.length ∧ S.trace cfg pocma al ls ls.length = S'.state
  | [], S, S', h => by
    cases h
    exact ⟨⟨fun i hi => absurd hi (Nat.not_lt_zero _), fun i hi => absurd hi (Nat.not_lt_zero _)⟩, rfl⟩
  | l :: ls, S, S', h => by
    simp only [NSys.run] at h
    split at h
    · rename_i hw
      split at h
      · cases h
      · rename_i T hT
        obtain ⟨⟨a, b⟩, c⟩ := NSys.trace_run ls h
        have e : ∀ i, S.trace cfg pocma al (l :: ls) (i + 1) = T.trace cfg pocma al ls i := by
          intro i; simp only [NSys.trace, hT]
        have e0 : ∀ (S : NSys K V) ls, S.trace cfg pocma al ls 0 = S.state := by intro S ls; cases ls <;> rfl
        refine ⟨⟨fun i hi => ?_, fun i hi => ?_⟩, by rw [List.length_cons, e]; exact c⟩
        · cases i with
          | zero => rw [e, e0, e0]; exact NSys.step_sound hT
          | succ i => rw [e, e]; exact a i (by simpa using hi)
        · cases i with
          | zero => rw [e0]; exact Sys.nowrap_sound hw
          | succ i => rw [e]; exact b i (by simpa using hi)
    · cases h

theorem Run.reach {cfg : Foa.Cfg} {pocma : Bool} {f : Fns K} {al c : Nat} {σ : Nat → St K V} {ls : Nat → Lab K V} {n : Nat}
    (h : Run cfg pocma al σ ls n) (h0 : Reach cfg pocma f al c (σ 0)) : ∀ i ≤ n, Reach cfg pocma f al c (σ i) := by
  intro i
  induction i with
  | zero => intro _; exact h0
  | succ i ih => intro hi; exact .step (ih (by omega)) (h.nowrap i (by omega)) (h.step i (by omega))

end Conc.Nodes

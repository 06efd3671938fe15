/-
Visitation, erasure and operations on the whole of concurrent node containers (C70): the nodes.
-/
import Verif.Props.ConcNodes

namespace Props.ConcNodes
open Conc.Nodes Foa Node
open SpecT (Con Same Replaced Removed Added Present)
open Conc.Locking (Mode)

variable {K V : Type}

/-- A call that works on no handle: its thread has no task, and its operation is pending or has taken effect. -/
theorem task_none {cfg : Foa.Cfg} {pocma : Bool} {al : Nat} {σ : Nat → St K V} {ls : Nat → Lab K V} {n : Nat}
    (hr : Run cfg pocma al σ ls n) (h0 : Inv al (σ 0)) {t a : Nat} {c : Call K V} {q : Conc.Tab.Op K (Nat × V)}
    (hk : c.task (σ a) = .none) (ho : c.op (σ a) = some q) (ha : ls a = .call t c) {b : Nat} (hb : b ≤ n)
    (hrun : ∀ i, a < i → i < b → ∀ r, (σ i).tab.pc t ≠ .done r)
    (good : Conc.Tab.Pc K (Nat × V) → Prop) (hg0 : good (.start q)) (hgi : ¬ good .idle)
    (hgs : ∀ i, a < i → i < b → good ((σ i).tab.pc t) → Conc.Tab.StepBy cfg t (σ i).tab (σ (i + 1)).tab →
      good ((σ (i + 1)).tab.pc t)) :
    ∀ i, a < i → i ≤ b → (σ i).task t = .none ∧ good ((σ i).tab.pc t) ∧
      (i < b → ∀ c', ls i ≠ .call t c') := by
  intro i
  induction i with
  | zero => intro h; exact absurd h (Nat.not_lt_zero _)
  | succ i ih =>
    intro hai hib
    have hin : i < n := by omega
    have hstep := hr.step i hin
    have hinv := hr.inv h0 i (by omega)
    have hw := hr.nowrap i hin
    have main : (σ (i + 1)).task t = .none ∧ good ((σ (i + 1)).tab.pc t) := by
      by_cases hia : i = a
      · subst hia
        rw [ha] at hstep
        generalize hσ : σ (i + 1) = s' at hstep
        cases hstep with
        | call _ _ o' hf hp ho' =>
          rw [ho] at ho'; cases ho'
          refine ⟨by simp [supd, hk], ?_⟩
          simpa [Conc.Tab.State.set] using hg0
      · have hlt : a < i := by omega
        obtain ⟨h1, h2, h3⟩ := ih hlt (by omega)
        have h3 := h3 (by omega)
        have hs := hgs i hlt (by omega) h2
        generalize hσ : σ (i + 1) = s' at hstep hs
        generalize hl : ls i = lab at hstep
        cases hstep with
        | call u c' o' hf hp ho' =>
          have : t ≠ u := by rintro rfl; exact h3 c' hl
          exact ⟨by simp [supd, this, h1], by simpa [Conc.Tab.State.set, this] using h2⟩
        | tab u s1 m hnd p0 p1 hs1 he =>
          refine ⟨h1, ?_⟩
          by_cases hut : t = u
          · subst hut; exact hs hs1
          · show good (s1.pc t)
            rw [hs1.other hut]; exact h2
        | tabBad u s1 p0 p1 hs1 he =>
          obtain ⟨m', hnd', e, _⟩ := hinv.tab_step hw p0 p1 hs1
          rw [he] at e; cases e
        | ret u r hnd hp hn he =>
          have : t ≠ u := by rintro rfl; exact hn h1
          exact ⟨by simp [supd, this, h1], h2⟩
        | retBad u r hp hn he => exact ⟨h1, h2⟩
        | _ => exact ⟨h1, h2⟩
    refine ⟨main.1, main.2, fun hlt c' e => ?_⟩
    have hstep := hr.step (i + 1) (by omega)
    rw [e] at hstep
    generalize σ (i + 1 + 1) = s' at hstep
    cases hstep with
    | call _ _ o' hf hp ho' =>
      rcases hf.2 with e | ⟨r, e⟩
      · rw [e] at main; exact hgi main.2
      · exact hrun (i + 1) hai hlt r e

/-- The operation with a key `o` is pending or has taken effect. -/
def Busy' (o : Conc.Tab.KOp K (Nat × V)) (p : Conc.Tab.Pc K (Nat × V)) : Prop := p.pending = some o ∨ ∃ r, p.result = some r

/-- A call with a key that works on no handle. -/
theorem task_none_key {cfg : Foa.Cfg} {pocma : Bool} {al : Nat} {σ : Nat → St K V} {ls : Nat → Lab K V} {n : Nat}
    (hr : Run cfg pocma al σ ls n) (h0 : Inv al (σ 0)) {t a b r : Nat} {c : Call K V} {o : Conc.Tab.KOp K (Nat × V)}
    (he : Runs σ ls t c a b r) (hk : c.task (σ a) = .none) (ho : c.op (σ a) = some (.key o)) (hb : b ≤ n) :
    ∀ i, a < i → i ≤ b → (σ i).task t = .none ∧ Busy' o ((σ i).tab.pc t) ∧ (i < b → ∀ c', ls i ≠ .call t c') := by
  refine task_none hr h0 hk ho he.called hb he.running (Busy' o) (.inl rfl) ?_ ?_
  · rintro (h | ⟨r, h⟩) <;> cases h
  · intro i h1 h2 h3 h4
    have hinv := hr.inv h0 i (by omega)
    have hw := hr.nowrap i (by omega)
    rcases h3 with h3 | ⟨q, h3⟩
    · rcases step_own hinv.tab hw h4 h3 with h | ⟨q, h, _⟩
      · exact .inl h.1
      · exact .inr ⟨q, h⟩
    · exact .inr ⟨q, (step_result hinv.tab hw h4 h3 (he.running i h1 h2)).1⟩

/-! ### an example: another run -/

def kAcc (y : Nat × Nat) : Option Nat := if y.2 = 10 then none else some 10

/-- One thread emplaces 1, changes its mapped value to 11, tries to erase it (the predicate sets the value back and declines),
erases it, tries again; emplaces 5 and clears the container. -/
def kLabs : List (Lab Nat Nat) :=
  [.call 0 (.emplace .shared (1, 10) (·.2) (·.2))] ++ exGo 0 26 ++ [.ret 0 1, .call 0 (.visit .excl 1 fun y => y.2 + 1)] ++
  exGo 0 22 ++ [.call 0 (.erase 1 kAcc)] ++ exGo 0 22 ++ [.call 0 (.erase 1 kAcc)] ++ exGo 0 24 ++ [.call 0 (.erase 1 kAcc)] ++
  exGo 0 19 ++ [.call 0 (.emplace .shared (5, 10) (·.2) (·.2))] ++ exGo 0 26 ++ [.ret 0 1, .call 0 .clear] ++ exGo 0 1

def kRun (i : Nat) : St Nat Nat := ex0.trace {} true 0 kLabs i
def kLs (i : Nat) : Lab Nat Nat := kLabs.getD i (.drop 0)

theorem k0_reach : Reach {} true Props.ConcTable.exF 0 20 (kRun 0) := by
  rw [show kRun 0 = ex0.state from rfl, ex0, NSys.init_state]
  exact .init

set_option maxRecDepth 100000 in
theorem k_run : Run {} true 0 kRun kLs 149 := by
  have h : (ex0.run {} true 0 kLabs).isSome = true := by decide +kernel
  obtain ⟨S', hS⟩ := Option.isSome_iff_exists.1 h
  exact (NSys.trace_run kLabs hS).1

theorem k_runs {c : Call Nat Nat} {a b r : Nat} (h1 : a < b) (h2 : kLs a = .call 0 c)
    (h3 : ((kRun b).tab.pc 0).answer = some r) (h4 : ∀ i, i < b → a < i → ((kRun i).tab.pc 0).answer = none) :
    Runs kRun kLs 0 c a b r := by
  refine ⟨h1, h2, Conc.Tab.Pc.answer_eq h3, fun i hi hb q hq => ?_⟩
  have := h4 i hb hi
  rw [hq] at this
  cases this

set_option maxRecDepth 100000 in
theorem k_visit : Runs kRun kLs 0 (.visit .excl 1 fun y => y.2 + 1) 28 51 1 :=
  k_runs (by decide) rfl (by decide +kernel) (by decide +kernel)
set_option maxRecDepth 100000 in
theorem k_kept : Runs kRun kLs 0 (.erase 1 kAcc) 51 74 0 := k_runs (by decide) rfl (by decide +kernel) (by decide +kernel)
set_option maxRecDepth 100000 in
theorem k_erased : Runs kRun kLs 0 (.erase 1 kAcc) 74 99 1 := k_runs (by decide) rfl (by decide +kernel) (by decide +kernel)
set_option maxRecDepth 100000 in
theorem k_absent : Runs kRun kLs 0 (.erase 1 kAcc) 99 119 0 := k_runs (by decide) rfl (by decide +kernel) (by decide +kernel)
set_option maxRecDepth 100000 in
theorem k_clear : Runs kRun kLs 0 .clear 147 149 0 := k_runs (by decide) rfl (by decide +kernel) (by decide +kernel)

/-- `visit`, `cvisit`, `contains`, `count`: the element with an equivalent key is passed to the callback, which may change the
mapped value if the visitation is not const, and stays in its node; or no such element is there. -/
theorem C70_visit {cfg : Foa.Cfg} {pocma : Bool} {f : Fns K} (hf : f.Lawful) {al cap : Nat} {σ : Nat → St K V} {ls : Nat → Lab K V}
    {n : Nat} (h0 : Reach cfg pocma f al cap (σ 0)) (hr : Run cfg pocma al σ ls n) {t : Nat} {m : Mode} {k : K}
    {g : K × V → V} {a b r : Nat} (he : Runs σ ls t (.visit m k g) a b r) (hb : b ≤ n) :
    (∃ l, a < l ∧ l < b ∧ inCall (ls l) = some t ∧ r = 1 ∧ ∃ k' i v, Elems (σ l) (k', (i, v)) ∧ f.eq k k' = true ∧
      Replaced (Elems (σ l)) (Elems (σ (l + 1))) (k', (i, v)) (k', (i, if m = .excl then g (k', v) else v))) ∨
    (r = 0 ∧ ∃ l, a < l ∧ l ≤ b ∧ ¬ Present f.eq (Elems (σ l)) k) := by
  rcases keyed hf h0 hr he rfl hb with ⟨l, h1, h2, h3, h4⟩ | ⟨_, l, h1, h2, h3, h4⟩
  · cases m
    · rcases h4 with ⟨⟨k', i, v⟩, y1, y2, y3, rfl⟩ | ⟨y1, y2, rfl⟩
      · exact .inl ⟨l, h1, h2, h3, rfl, k', i, v, y1, y2, y3⟩
      · exact .inr ⟨rfl, l, h1, by omega, y1⟩
    · rcases h4 with ⟨⟨k', i, v⟩, y1, y2, y3, rfl⟩ | ⟨y1, y2, rfl⟩
      · exact .inl ⟨l, h1, h2, h3, rfl, k', i, v, y1, y2, y3⟩
      · exact .inr ⟨rfl, l, h1, by omega, y1⟩
  · exact .inr ⟨h3, l, h1, h2, h4⟩

example : Props.ConcTable.exF.Lawful ∧ Reach {} true Props.ConcTable.exF 0 20 (kRun 0) ∧ Run {} true 0 kRun kLs 149 ∧
    Runs kRun kLs 0 (.visit .excl 1 fun y => y.2 + 1) 28 51 1 :=
  ⟨Props.ConcTable.exF_lawful, k0_reach, k_run, k_visit⟩

/-- `erase(k)`, `erase_if(k,p)`: the element with an equivalent key is removed and its node freed, in the same step, if the
predicate accepts it; else it stays, in its node, with the value the predicate leaves; or no such element is there. -/
theorem C70_erase {cfg : Foa.Cfg} {pocma : Bool} {f : Fns K} (hf : f.Lawful) {al cap : Nat} {σ : Nat → St K V} {ls : Nat → Lab K V}
    {n : Nat} (h0 : Reach cfg pocma f al cap (σ 0)) (hr : Run cfg pocma al σ ls n) {t : Nat} {k : K}
    {p : K × V → Option V} {a b r : Nat} (he : Runs σ ls t (.erase k p) a b r) (hb : b ≤ n) :
    (∃ l, a < l ∧ l < b ∧ ls l = .tab t ∧ ∃ k' i v, Elems (σ l) (k', (i, v)) ∧ f.eq k k' = true ∧
      ((r = 1 ∧ p (k', v) = none ∧ Removed (Elems (σ l)) (Elems (σ (l + 1))) (k', (i, v)) ∧ Alive (σ l) i ∧
          ¬ Alive (σ (l + 1)) i) ∨
       ∃ v', r = 0 ∧ p (k', v) = some v' ∧ Replaced (Elems (σ l)) (Elems (σ (l + 1))) (k', (i, v)) (k', (i, v')))) ∨
    (r = 0 ∧ ∃ l, a < l ∧ l ≤ b ∧ ¬ Present f.eq (Elems (σ l)) k) := by
  have hi0 := h0.inv hf
  rcases keyed hf h0 hr he rfl hb with ⟨l, h1, h2, h3, h4⟩ | ⟨_, l, h1, h2, h3, h4⟩
  · obtain ⟨g1, g2, g3⟩ := task_none_key hr hi0 he rfl rfl hb l h1 (by omega)
    have hlab : ls l = .tab t := by
      cases hl : ls l with
      | call u c' => rw [hl] at h3; cases h3; exact absurd hl (g3 h2 c')
      | tab u => rw [hl] at h3; cases h3; rfl
      | _ => rw [hl] at h3; cases h3
    have hil := hr.inv hi0 l (by omega)
    have hw := hr.nowrap l (by omega)
    have hs := hr.step l (by omega)
    rw [hlab] at hs
    obtain ⟨_, hsb, hd, happ⟩ := tab_self hil hw hs
    rw [g1] at happ
    rcases h4 with ⟨⟨k', i, v⟩, y1, y2, ⟨y3, y4, rfl⟩ | ⟨v', y3, y4, rfl⟩⟩ | ⟨y1, y2, rfl⟩
    · refine .inl ⟨l, h1, h2, hlab, k', i, v, y1, y2, .inl ⟨rfl, ?_, y4, ?_, ?_⟩⟩
      · have : (p (k', v)).map (fun w => (i, w)) = none := y3
        simpa using this
      · obtain ⟨w, hw'⟩ := hil.own.live _ y1
        exact fun e => by rw [show (σ l).heap.cell i = _ from hw'] at e; cases e
      · have h0' : (σ l).tab.pc t ≠ .idle := by
          intro e; rw [e] at g2; rcases g2 with h | ⟨_, h⟩ <;> cases h
        have hm := (step_moved hil.tab hw hsb h0' hd (hil.fine t)).1
        have hc : change (σ l).tab.mem ((σ l).tab.pc t) = .keep ∨ ∃ y, change (σ l).tab.mem ((σ l).tab.pc t) = .take y := by
          rcases g2 with h | ⟨q, h⟩
          · rcases step_own hil.tab hw hsb h with ⟨_, h⟩ | ⟨q, _, ⟨_, h⟩ | ⟨_, h⟩⟩
            · exact .inl h
            · exact .inr h
            · exact .inl h
          · exact .inl (step_result hil.tab hw hsb h hd).2
        change Moved (Elems (σ l)) (Elems (σ (l + 1))) _ at hm
        rcases hc with hc | ⟨y, hc⟩
        · rw [hc] at hm
          exfalso
          cases hm with
          | same h => exact ((y4 _).1 ((h _).2 y1)).2 rfl
          | repl y z hy hz hrp =>
            have hz' := (y4 z).1 ((hrp z).2 (.inr rfl))
            have hzy : z = y := hil.own.uniq z y hz'.1 hy hz
            subst hzy
            exact ((y4 _).1 ((hrp _).2 (.inl ⟨y1, fun e => hz'.2 e.symm⟩))).2 rfl
        · rw [hc] at hm happ
          cases hm with
          | take _ hy hrm =>
            have hyx : y = (k', i, v) := by
              by_contra hne
              exact ((y4 _).1 ((hrm _).2 ⟨y1, fun e => hne e.symm⟩)).2 rfl
            subst hyx
            simp only [apply, Option.map_eq_some_iff] at happ
            obtain ⟨m', e1, e2⟩ := happ
            have e2' : m' = (σ (l + 1)).heap := (Prod.mk.inj e2).1
            have := (free_eq e1).1
            intro ha
            apply ha
            rw [← e2', this]
            simp [supd, Elem.node]
    · have y3' : (p (k', v)).map (fun w => (i, w)) = some v' := y3
      rw [Option.map_eq_some_iff] at y3'
      obtain ⟨w, z1, z2⟩ := y3'
      subst z2
      exact .inl ⟨l, h1, h2, hlab, k', i, v, y1, y2, .inr ⟨w, rfl, z1, y4⟩⟩
    · exact .inr ⟨rfl, l, h1, by omega, y1⟩
  · exact .inr ⟨h3, l, h1, h2, h4⟩

example : Props.ConcTable.exF.Lawful ∧ Reach {} true Props.ConcTable.exF 0 20 (kRun 0) ∧ Run {} true 0 kRun kLs 149 ∧
    Runs kRun kLs 0 (.erase 1 kAcc) 51 74 0 ∧ Runs kRun kLs 0 (.erase 1 kAcc) 74 99 1 ∧
    Runs kRun kLs 0 (.erase 1 kAcc) 99 119 0 :=
  ⟨Props.ConcTable.exF_lawful, k0_reach, k_run, k_kept, k_erased, k_absent⟩

/-- `clear`, `rehash` and `reserve` take effect in one step. `clear` empties the container and frees the nodes of all its
elements; `rehash` and `reserve` change no element and no node. -/
theorem C70_whole {cfg : Foa.Cfg} {pocma : Bool} {f : Fns K} (hf : f.Lawful) {al cap : Nat} {σ : Nat → St K V} {ls : Nat → Lab K V}
    {n : Nat} (h0 : Reach cfg pocma f al cap (σ 0)) (hr : Run cfg pocma al σ ls n) {t : Nat} {c : Call K V}
    (hc : c = .clear ∨ (∃ m, c = .rehash m) ∨ ∃ m, c = .reserve m) {a b r : Nat} (he : Runs σ ls t c a b r) (hb : b ≤ n) :
    r = 0 ∧ ∃ l, a < l ∧ l < b ∧ ls l = .tab t ∧
      ((c = .clear ∧ (∀ x, ¬ Elems (σ (l + 1)) x) ∧
          ∀ i, Alive (σ (l + 1)) i ↔ Alive (σ l) i ∧ ¬ ∃ k v, Elems (σ l) (k, (i, v))) ∨
       (c ≠ .clear ∧ Same (Elems (σ l)) (Elems (σ (l + 1))) ∧ (σ (l + 1)).heap = (σ l).heap)) := by
  have hi0 := h0.inv hf
  have hle := he.lt
  obtain ⟨e, ho, hk, hce⟩ : ∃ e, c.op (σ a) = some (.ex e) ∧ c.task (σ a) = .none ∧
      ((c = .clear ∧ e = .clear) ∨ (c ≠ .clear ∧ ((∃ m, e = .rehash m) ∨ ∃ m, e = .reserve m))) := by
    rcases hc with rfl | ⟨m, rfl⟩ | ⟨m, rfl⟩
    · exact ⟨_, rfl, rfl, .inl ⟨rfl, rfl⟩⟩
    · exact ⟨_, rfl, rfl, .inr ⟨(by intro h; cases h), .inl ⟨m, rfl⟩⟩⟩
    · exact ⟨_, rfl, rfl, .inr ⟨(by intro h; cases h), .inr ⟨m, rfl⟩⟩⟩
  have exs : ∀ i, i < n → (σ i).tab.pc t = .start (.ex e) → Conc.Tab.StepBy cfg t (σ i).tab (σ (i + 1)).tab →
      ∃ q, (σ (i + 1)).tab.pc t = .done q := by
    intro i hi hpc hs
    have hi' := (hr.inv hi0 i (by omega)).tab.step (hr.nowrap i hi) hs
    have hbad := Conc.Tab.pcOk_not_bad (hi'.pcs t)
    generalize (σ (i + 1)).tab = s' at hs hbad
    cases hs with
    | quiet h => rw [hpc] at h; cases h
    | eff h => rw [hpc] at h; cases h
    | @alone m' pc' hout h =>
      rw [hpc] at h
      simp only [Conc.Tab.State.set_pc] at hbad ⊢
      cases h with
      | ex _ t' q cnt' _ _ => exact ⟨q, by simp⟩
      | exBad => exact absurd (by simp) hbad
  have key := task_none hr hi0 hk ho he.called hb he.running
    (fun p => p = .start (.ex e) ∨ ∃ q, p = .done q) (.inl rfl) (by rintro (h | ⟨q, h⟩) <;> cases h)
    (fun i h1 h2 h3 h4 => by
      rcases h3 with h3 | ⟨q, h3⟩
      · exact .inr (exs i (by omega) h3 h4)
      · exact absurd h3 (he.running i h1 h2 q))
  have hab : a + 1 < b := by
    rcases Nat.lt_or_ge (a + 1) b with h | h
    · exact h
    · have hb' : b = a + 1 := by omega
      subst hb'
      exfalso
      have hs := hr.step a (by omega)
      have hov := he.over
      rw [he.called] at hs
      generalize σ (a + 1) = s' at hs hov
      cases hs with
      | call _ _ o' _ _ _ => simp [Conc.Tab.State.set] at hov
  obtain ⟨l, rfl⟩ : ∃ l, b = l + 1 := ⟨b - 1, by omega⟩
  obtain ⟨g1, g2, g3⟩ := key l (by omega) (by omega)
  have hpc : (σ l).tab.pc t = .start (.ex e) := by
    rcases g2 with h | ⟨q, h⟩
    · exact h
    · exact absurd h (he.running l (by omega) (by omega) q)
  have hil := hr.inv hi0 l (by omega)
  have hw := hr.nowrap l (by omega)
  have hs := hr.step l (by omega)
  have hov := he.over
  have hlab : ls l = .tab t := by
    rcases hs.table hil hw with ⟨u, hu, hsb⟩ | ⟨_, h⟩
    · by_cases hut : t = u
      · subst hut
        cases hl : ls l with
        | call u c' => rw [hl] at hu; cases hu; exact absurd hl (g3 (by omega) c')
        | tab u => rw [hl] at hu; cases hu; rfl
        | _ => rw [hl] at hu; cases hu
      · rw [hsb.other hut, hpc] at hov; cases hov
    · rw [h, hpc] at hov; cases hov
  rw [hlab] at hs
  obtain ⟨_, hsb, hd, happ⟩ := tab_self hil hw hs
  rw [g1] at happ
  have hm := step_moved hil.tab hw hsb (by rw [hpc]; intro h; cases h) hd (hil.fine t)
  have hrt := (hr.reach h0 l (by omega)).tab
  obtain ⟨_, q, hq1, hq⟩ := Props.ConcTable.C42_container_operations hf hrt (e := e) hpc hsb
  have hqr : q = r := by rw [Props.ConcTable.Returned, hov] at hq1; cases hq1; rfl
  subst hqr
  refine ⟨by rcases hce with ⟨_, rfl⟩ | ⟨_, ⟨m, rfl⟩ | ⟨m, rfl⟩⟩ <;> exact hq.2, l, by omega, by omega, hlab, ?_⟩
  rcases hce with ⟨hcl, rfl⟩ | ⟨hcl, hce⟩
  · left
    have hch : change (σ l).tab.mem ((σ l).tab.pc t) = .all := by rw [hpc]; rfl
    obtain ⟨l1, l2⟩ := hm.2.2 hch
    have hm := hm.1
    rw [hch] at hm happ
    simp only [apply, Option.map_eq_some_iff] at happ
    obtain ⟨m', e1, e2⟩ := happ
    obtain ⟨m2, e3, _, hcell, _⟩ := Own.freeAll (σ l).tab.mem.tab.contents hil.own l1 (fun x hx => (l2 x).2 hx)
    rw [e1] at e3; cases e3
    have e2' : m' = (σ (l + 1)).heap := (Prod.mk.inj e2).1
    subst e2'
    refine ⟨hcl, ?_, fun i => ?_⟩
    · cases hm with
      | all h => exact h
    · have hiff : i ∈ (σ l).tab.mem.tab.contents.map Elem.node ↔ ∃ k v, Elems (σ l) (k, (i, v)) := by
        constructor
        · intro h
          obtain ⟨⟨k, i', v⟩, h1, rfl⟩ := List.mem_map.1 h
          exact ⟨k, v, (l2 _).2 h1⟩
        · rintro ⟨k, v, h⟩
          exact List.mem_map.2 ⟨(k, i, v), (l2 _).1 h, rfl⟩
      rw [Alive, Alive, hcell, ← hiff]
      by_cases h : i ∈ (σ l).tab.mem.tab.contents.map Elem.node <;> simp [h]
  · right
    have hch : change (σ l).tab.mem ((σ l).tab.pc t) = .keep := by
      rw [hpc]; rcases hce with ⟨m, rfl⟩ | ⟨m, rfl⟩ <;> rfl
    rw [hch] at happ
    have : (σ (l + 1)).heap = (σ l).heap := by
      simp only [apply, Option.some.injEq, Prod.mk.injEq] at happ; exact happ.1.symm
    refine ⟨hcl, ?_, this⟩
    rcases hce with ⟨m, rfl⟩ | ⟨m, rfl⟩ <;> exact hq.1

example : Props.ConcTable.exF.Lawful ∧ Reach {} true Props.ConcTable.exF 0 20 (kRun 0) ∧ Run {} true 0 kRun kLs 149 ∧
    Runs kRun kLs 0 .clear 147 149 0 :=
  ⟨Props.ConcTable.exF_lawful, k0_reach, k_run, k_clear⟩

end Props.ConcNodes

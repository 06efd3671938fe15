/-
Passes over the whole of a concurrent node container: `visit_all`, `visit_while`, `erase_if` (C70).
-/
import Verif.Props.ConcNodesKey
import Verif.Props.ConcPassStop

namespace Props.ConcNodes
open Conc.Nodes Foa Node
open SpecT (Con Same Replaced Removed Added Present)
open Conc.Locking (Mode)
open Conc.Tab (Verdict Passes)

variable {K V : Type}

/-- While the call of a pass is in progress, its thread has no task and is inside the pass. -/
theorem task_none_sweep {cfg : Foa.Cfg} {pocma : Bool} {al : Nat} {σ : Nat → St K V} {ls : Nat → Lab K V} {n : Nat}
    (hr : Run cfg pocma al σ ls n) (h0 : Inv al (σ 0)) {t a b r : Nat} {m : Mode} {act : K × V → Verdict V}
    (he : Runs σ ls t (.sweep m act) a b r) (hb : b ≤ n) :
    ∀ i, a < i → i ≤ b → (σ i).task t = .none ∧ ((σ i).tab.pc t).sweeping (onValueA act) m ∧ (i < b → ∀ c', ls i ≠ .call t c') := by
  refine task_none hr h0 (q := .sweep m (onValueA act)) rfl rfl he.called hb he.running
    (fun p => p.sweeping (onValueA act) m) ⟨rfl, rfl⟩ (fun h => h) ?_
  intro i h1 h2 h3 h4
  exact (h4.sweeping (hr.inv h0 i (by omega)).tab (hr.nowrap i (by omega)) (he.running i h1 h2) h3).1

/-- What one step of a pass may do: nothing, or what the callback says to the element passed. An element kept stays in its node
and no node is allocated or freed; the node of an element erased is freed. -/
theorem C70_pass_effect {cfg : Foa.Cfg} {pocma : Bool} {f : Fns K} (hf : f.Lawful) {al cap : Nat} {σ : Nat → St K V}
    {ls : Nat → Lab K V} {n : Nat} (h0 : Reach cfg pocma f al cap (σ 0)) (hr : Run cfg pocma al σ ls n) {t : Nat} {m : Mode}
    {act : K × V → Verdict V} {a b r : Nat} (he : Runs σ ls t (.sweep m act) a b r) (hb : b ≤ n) {l : Nat} (hl : a < l)
    (hlb : l < b) (hlab : ls l = .tab t) :
    ((∀ y, ¬ Passes (σ l).tab t y) ∧ Same (Elems (σ l)) (Elems (σ (l + 1))) ∧ (σ (l + 1)).heap = (σ l).heap) ∨
    ∃ k i v, Passes (σ l).tab t (k, (i, v)) ∧ Elems (σ l) (k, (i, v)) ∧
      ((∃ w d, (act (k, v) = .go w d ∨ act (k, v) = .stop w d) ∧
          Replaced (Elems (σ l)) (Elems (σ (l + 1))) (k, (i, v)) (k, (i, if m = .excl then w else v)) ∧
          (σ (l + 1)).heap = (σ l).heap) ∨
       (act (k, v) = .erase ∧ Removed (Elems (σ l)) (Elems (σ (l + 1))) (k, (i, v)) ∧ Alive (σ l) i ∧
          ¬ Alive (σ (l + 1)) i)) := by
  have hi0 := h0.inv hf
  obtain ⟨g1, g2, g3⟩ := task_none_sweep hr hi0 he hb l hl (by omega)
  have hil := hr.inv hi0 l (by omega)
  have hw := hr.nowrap l (by omega)
  have hs := hr.step l (by omega)
  rw [hlab] at hs
  obtain ⟨_, hsb, hd, happ⟩ := tab_self hil hw hs
  rw [g1] at happ
  have heap_of_keep : change (σ l).tab.mem ((σ l).tab.pc t) = .keep → (σ (l + 1)).heap = (σ l).heap := by
    intro hc
    rw [hc] at happ
    simp only [apply, Option.some.injEq, Prod.mk.injEq] at happ
    exact happ.1.symm
  rcases (hsb.sweeping hil.tab hw hd g2).2 with ⟨h1, h2⟩ | ⟨⟨k, i, v⟩, hy, h2⟩
  · refine .inl ⟨h2, h1, heap_of_keep ?_⟩
    cases hp : (σ l).tab.pc t with
    | swAt m' act' g js q =>
      cases js with
      | nil => rfl
      | cons j js =>
        cases hsl : (σ l).tab.mem.slot g j with
        | none => simp only [change, hsl]
        | some y => exact absurd ⟨m', act', g, j, js, q, hp, hsl⟩ (h2 y)
    | start o =>
      rw [hp] at g2
      cases o with
      | sweep m' act' => rfl
      | key o => exact absurd g2 id
      | ex e => exact absurd g2 id
    | insInc o c pb j => rw [hp] at g2; exact absurd g2 id
    | hit o pb j => rw [hp] at g2; exact absurd g2 id
    | _ => rfl
  · right
    obtain ⟨m', act', g, j, js, q, hp, hsl⟩ := id hy
    rw [hp] at g2
    obtain ⟨rfl, rfl⟩ := g2
    have hch : change (σ l).tab.mem ((σ l).tab.pc t) =
        (match onValueA act (k, (i, v)) with | .erase => .take (k, (i, v)) | _ => .keep) := by
      rw [hp]; simp only [change, hsl]
      cases onValueA act (k, (i, v)) <;> rfl
    have hel : Elems (σ l) (k, (i, v)) := ⟨g, j, hsl⟩
    refine ⟨k, i, v, hy, hel, ?_⟩
    cases ha : act (k, v) with
    | go w d =>
      have hoa : onValueA act (k, (i, v)) = .go (i, w) d := by
        show (match act (k, v) with | .go w d => Verdict.go (i, w) d | .stop w d => .stop (i, w) d | .erase => .erase) = _
        rw [ha]
      rw [hoa] at hch h2
      refine .inl ⟨w, d, .inl rfl, ?_, heap_of_keep hch⟩
      rcases h2 with ⟨u, d', e, h⟩ | ⟨u, d', e, h⟩ | ⟨e, _⟩
      · cases e
        cases m' <;> exact h
      · cases e
      · cases e
    | stop w d =>
      have hoa : onValueA act (k, (i, v)) = .stop (i, w) d := by
        show (match act (k, v) with | .go w d => Verdict.go (i, w) d | .stop w d => .stop (i, w) d | .erase => .erase) = _
        rw [ha]
      rw [hoa] at hch h2
      refine .inl ⟨w, d, .inr rfl, ?_, heap_of_keep hch⟩
      rcases h2 with ⟨u, d', e, h⟩ | ⟨u, d', e, h⟩ | ⟨e, _⟩
      · cases e
      · cases e
        cases m' <;> exact h
      · cases e
    | erase =>
      have hoa : onValueA act (k, (i, v)) = .erase := by
        show (match act (k, v) with | .go w d => Verdict.go (i, w) d | .stop w d => .stop (i, w) d | .erase => .erase) = _
        rw [ha]
      rw [hoa] at hch h2
      right
      rcases h2 with ⟨u, d', e, h⟩ | ⟨u, d', e, h⟩ | ⟨_, h⟩
      · cases e
      · cases e
      · refine ⟨rfl, h, ?_, ?_⟩
        · obtain ⟨w, hw'⟩ := hil.own.live _ hel
          exact fun e => by rw [show (σ l).heap.cell i = _ from hw'] at e; cases e
        · rw [hch] at happ
          simp only [apply, Option.map_eq_some_iff] at happ
          obtain ⟨m', e1, e2⟩ := happ
          have e2' : m' = (σ (l + 1)).heap := (Prod.mk.inj e2).1
          have := (free_eq e1).1
          intro ha
          apply ha
          rw [← e2', this]
          simp [supd, Elem.node]

/-- In step `l` thread `t` passes an element with a key equivalent to `k` to the callback of its pass. -/
def PassesKey (eq : K → K → Bool) (σ : Nat → St K V) (ls : Nat → Lab K V) (t : Nat) (k : K) (l : Nat) : Prop :=
  ls l = .tab t ∧ ∃ y, Passes (σ l).tab t y ∧ eq k y.1 = true

/-- A pass that is not stopped by its callback passes every key that is present from its call to its return to the callback
exactly once. -/
theorem C70_present_visited_once {cfg : Foa.Cfg} {pocma : Bool} {f : Fns K} (hf : f.Lawful) {al cap : Nat} {σ : Nat → St K V}
    {ls : Nat → Lab K V} {n : Nat} (h0 : Reach cfg pocma f al cap (σ 0)) (hr : Run cfg pocma al σ ls n) {t : Nat} {m : Mode}
    {act : K × V → Verdict V} {a b r : Nat} (he : Runs σ ls t (.sweep m act) a b r) (hb : b ≤ n)
    (hns : ∀ l, a < l → l < b → ls l = .tab t → ∀ k i v w d, Passes (σ l).tab t (k, (i, v)) → act (k, v) ≠ .stop w d) {k : K}
    (hp : ∀ i, a < i → i ≤ b → Present f.eq (Elems (σ i)) k) :
    ∃ l, a < l ∧ l < b ∧ PassesKey f.eq σ ls t k l ∧ ∀ l', a < l' → l' < b → PassesKey f.eq σ ls t k l' → l' = l := by
  have hle := he.lt
  have hi0 := h0.inv hf
  obtain ⟨τ, who, mm, pos, k1, k2, k3, k4, k5, k6⟩ := C70_table_runs hf h0 hr
  have hstep : ∀ i < n, pos (i + 1) = pos i + 1 ∨ pos (i + 1) = pos i := fun i hi => (k6 i hi).imp And.left And.left
  have hmono := pos_mono hstep
  have honto := pos_onto k3 hstep
  have hpa : pos (a + 1) = pos a + 1 := by
    rcases k6 a (by omega) with h | h
    · exact h.1
    · rw [he.called] at h; cases h.2
  have hback : ∀ j, pos (a + 1) ≤ j → j < pos b → ∃ i, a < i ∧ i < b ∧ pos i = j ∧ pos (i + 1) = j + 1 := by
    intro j h1 h2
    obtain ⟨i, x1, x2, x3⟩ := honto b hb j h2
    refine ⟨i, ?_, x1, x2, x3⟩
    by_contra hia
    have := hmono a (by omega) i (by omega)
    omega
  have hE : ∀ i ≤ n, Props.ConcTable.Elems (τ (pos i)) = Elems (σ i) := by
    intro i hi
    rw [← k5 i hi]; rfl
  have hex : Props.ConcTable.Executes τ t (.sweep m (onValueA act)) (pos (a + 1)) (pos b) r := by
    refine ⟨hmono b hb _ (by omega), ?_, ?_, fun j h1 h2 q hq => ?_⟩
    · have hs := hr.step a (by omega)
      rw [he.called] at hs
      have hx := k5 (a + 1) (by omega)
      generalize σ (a + 1) = s' at hs hx
      cases hs with
      | call _ _ o' _ _ ho' =>
        cases ho'
        rw [Props.ConcTable.Called, ← hx]
        simp [Conc.Tab.State.set]
    · rw [Props.ConcTable.Returned, ← k5 b hb]; exact he.over
    · obtain ⟨i, x1, x2, x3, _⟩ := hback j h1 h2
      subst x3
      rw [Props.ConcTable.Returned, ← k5 i (by omega)] at hq
      exact he.running i x1 x2 q hq
  -- a step of the table by `t` during the call is a step of the call
  have hlab : ∀ i, a < i → i < b → inCall (ls i) = some t → ls i = .tab t := by
    intro i h1 h2 h3
    obtain ⟨_, _, g3⟩ := task_none_sweep hr hi0 he hb i h1 (by omega)
    cases hl : ls i with
    | call u c' => rw [hl] at h3; cases h3; exact absurd hl (g3 h2 c')
    | tab u => rw [hl] at h3; cases h3; rfl
    | _ => rw [hl] at h3; cases h3
  have hwho : ∀ i, a < i → i < b → pos (i + 1) = pos i + 1 → (who (pos i) = t ↔ ls i = .tab t) := by
    intro i h1 h2 h3
    rcases k6 i (by omega) with h | h
    · constructor
      · intro hw; exact hlab i h1 h2 (by rw [h.2, hw])
      · intro hw; rw [hw] at h; exact (Option.some.inj h.2).symm
    · omega
  have hpk : ∀ i, a < i → i < b → pos (i + 1) = pos i + 1 →
      (Props.ConcTable.PassesKey f.eq τ who t k (pos i) ↔ PassesKey f.eq σ ls t k i) := by
    intro i h1 h2 h3
    rw [Props.ConcTable.PassesKey, PassesKey, hwho i h1 h2 h3, k5 i (by omega)]
  obtain ⟨l, h1, h2, h3, h4⟩ := Props.ConcTable.C44_present_visited_once hf k1 k2 hex
    (by rw [← k4]; exact hmono n le_rfl b hb)
    (fun j h1 h2 hw y v d hy hstop => by
      obtain ⟨i, x1, x2, x3, x4⟩ := hback j h1 h2
      subst x3
      obtain ⟨k', i', v'⟩ := y
      rw [← k5 i (by omega)] at hy
      have hst : (match act (k', v') with
        | .go w d => Verdict.go (i', w) d | .stop w d => .stop (i', w) d | .erase => .erase) = .stop v d := hstop
      cases ha : act (k', v') with
      | stop w d' => exact hns i x1 x2 ((hwho i x1 x2 x4).1 hw) k' i' v' w d' hy ha
      | go w d' => rw [ha] at hst; cases hst
      | erase => rw [ha] at hst; cases hst)
    (k := k)
    (fun j h1 h2 => by
      rcases Nat.lt_or_ge j (pos b) with h | h
      · obtain ⟨i, x1, x2, x3, _⟩ := hback j h1 h
        subst x3
        rw [hE i (by omega)]
        exact hp i x1 (by omega)
      · have : j = pos b := by omega
        subst this
        rw [hE b hb]
        exact hp b hle le_rfl)
  obtain ⟨i, x1, x2, x3, x4⟩ := hback l h1 h2
  subst x3
  refine ⟨i, x1, x2, (hpk i x1 x2 x4).1 h3, fun i' y1 y2 y3 => ?_⟩
  have y4 : pos (i' + 1) = pos i' + 1 := by
    rcases k6 i' (by omega) with h | h
    · exact h.1
    · rw [y3.1] at h; cases h.2
  have := h4 (pos i') (hmono i' (by omega) _ (by omega)) (by
    have := hmono b hb (i' + 1) (by omega)
    omega) ((hpk i' y1 y2 y4).2 y3)
  rcases Nat.lt_trichotomy i' i with h | h | h
  · have := hmono i (by omega) (i' + 1) (by omega); omega
  · exact h
  · have := hmono i' (by omega) (i + 1) (by omega); omega

/-- After the callback has said stop, the pass passes it no other element. -/
theorem C70_pass_stops {cfg : Foa.Cfg} {pocma : Bool} {f : Fns K} (hf : f.Lawful) {al cap : Nat} {σ : Nat → St K V}
    {ls : Nat → Lab K V} {n : Nat} (h0 : Reach cfg pocma f al cap (σ 0)) (hr : Run cfg pocma al σ ls n) {t : Nat} {m : Mode}
    {act : K × V → Verdict V} {a b r : Nat} (he : Runs σ ls t (.sweep m act) a b r) (hb : b ≤ n) {l : Nat} (hl : a < l)
    (hlb : l < b) (hlab : ls l = .tab t) {k : K} {i : Nat} {v w : V} {d : Nat} (hy : Passes (σ l).tab t (k, (i, v)))
    (ha : act (k, v) = .stop w d) : ∀ l', l < l' → l' ≤ b → ∀ z, ¬ Passes (σ l').tab t z := by
  have hi0 := h0.inv hf
  obtain ⟨_, hs, _⟩ := task_none_sweep hr hi0 he hb l hl (by omega)
  obtain ⟨m', act', g, j, js, q, hp, hsl⟩ := hy
  rw [hp] at hs
  obtain ⟨rfl, rfl⟩ := hs
  have hoa : onValueA act (k, (i, v)) = .stop (i, w) d := by
    show (match act (k, v) with | .go w d => Verdict.go (i, w) d | .stop w d => .stop (i, w) d | .erase => .erase) = _
    rw [ha]
  have key : ∀ l', l < l' → l' ≤ b → ((σ l').tab.pc t).leaving := by
    intro l'
    induction l' with
    | zero => intro h; exact absurd h (Nat.not_lt_zero _)
    | succ c ih =>
      intro h1 h2
      have hic := hr.inv hi0 c (by omega)
      have hw := hr.nowrap c (by omega)
      have hst := hr.step c (by omega)
      by_cases hcl : c = l
      · subst hcl
        rw [hlab] at hst
        exact (tab_self hic hw hst).2.1.stops_pass hp hsl hoa
      · have h3 := ih (by omega) (by omega)
        rcases hst.table hic hw with ⟨u, _, hsb⟩ | ⟨_, h⟩
        · by_cases hut : t = u
          · subst hut; exact hsb.leaving (he.running c (by omega) (by omega)) h3
          · rw [hsb.other hut]; exact h3
        · rw [h]; exact h3
  exact fun l' h1 h2 => Conc.Tab.not_passes_leaving (key l' h1 h2)

/-! ### an example -/

/-- What `erase_if` does with the elements: those with value 10 are erased. -/
def wAct (y : Nat × Nat) : Verdict Nat := if y.2 = 10 then .erase else .go y.2 0

/-- One thread emplaces 1 and 5 and erases the elements with value 10. -/
def wLabs : List (Lab Nat Nat) :=
  [.call 0 (.emplace .shared (1, 10) (·.2) (·.2))] ++ exGo 0 26 ++ [.ret 0 1, .call 0 (.emplace .shared (5, 50) (·.2) (·.2))] ++
  exGo 0 26 ++ [.ret 0 1, .call 0 (.sweep .excl wAct)] ++ exGo 0 10

def wRun (i : Nat) : St Nat Nat := ex0.trace {} true 0 wLabs i
def wLs (i : Nat) : Lab Nat Nat := wLabs.getD i (.drop 0)

theorem w0_reach : Reach {} true Props.ConcTable.exF 0 20 (wRun 0) := by
  rw [show wRun 0 = ex0.state from rfl, ex0, NSys.init_state]
  exact .init


set_option maxRecDepth 100000 in
theorem w_run : Run {} true 0 wRun wLs 67 := by
  have h : (ex0.run {} true 0 wLabs).isSome = true := by decide +kernel
  obtain ⟨S', hS⟩ := Option.isSome_iff_exists.1 h
  exact (NSys.trace_run wLabs hS).1

set_option maxRecDepth 100000 in
theorem w_pass : Runs wRun wLs 0 (.sweep .excl wAct) 56 67 1 := by
  refine ⟨by decide, rfl, Conc.Tab.Pc.answer_eq (by decide +kernel), fun i hi hb q hq => ?_⟩
  have : ∀ i, i < 67 → 56 < i → ((wRun i).tab.pc 0).answer = none := by decide +kernel
  have := this i hb hi
  rw [hq] at this
  cases this

set_option maxRecDepth 100000 in
/-- The pass erases 1; 5 is present all the time and never stops the pass. -/
example : Props.ConcTable.exF.Lawful ∧ Reach {} true Props.ConcTable.exF 0 20 (wRun 0) ∧ Run {} true 0 wRun wLs 67 ∧
    Runs wRun wLs 0 (.sweep .excl wAct) 56 67 1 ∧ wLs 59 = .tab 0 ∧ Elems (wRun 59) (1, (0, 10)) ∧
    ((wRun 60).heap.cell 0).isNone = true ∧ (∀ k v w d, wAct (k, v) ≠ .stop w d) ∧
    ∀ i, 56 < i → i ≤ 67 → Present Props.ConcTable.exF.eq (Elems (wRun i)) 5 := by
  refine ⟨Props.ConcTable.exF_lawful, w0_reach, w_run, w_pass, rfl, ⟨0, 0, by decide +kernel⟩, by decide +kernel, ?_, ?_⟩
  · intro k v w d h
    unfold wAct at h
    split at h <;> cases h
  · have h : ∀ i, i < 68 → 56 < i → (wRun i).tab.mem.slot 0 1 = some (5, (1, 50)) := by decide +kernel
    intro i h1 h2
    exact ⟨(5, (1, 50)), ⟨0, 1, h i (by omega) h1⟩, rfl⟩

/-- `visit_while` that stops at once. -/
def vLabs : List (Lab Nat Nat) :=
  [.call 0 (.emplace .shared (1, 10) (·.2) (·.2))] ++ exGo 0 26 ++
  [.ret 0 1, .call 0 (.sweep .shared fun y => .stop y.2 1)] ++ exGo 0 5
def vRun (i : Nat) : St Nat Nat := ex0.trace {} true 0 vLabs i
def vLs (i : Nat) : Lab Nat Nat := vLabs.getD i (.drop 0)

set_option maxRecDepth 100000 in
theorem v_run : Run {} true 0 vRun vLs 34 := by
  have h : (ex0.run {} true 0 vLabs).isSome = true := by decide +kernel
  obtain ⟨S', hS⟩ := Option.isSome_iff_exists.1 h
  exact (NSys.trace_run vLabs hS).1

set_option maxRecDepth 100000 in
theorem v_pass : Runs vRun vLs 0 (.sweep .shared fun y => .stop y.2 1) 28 34 1 := by
  refine ⟨by decide, rfl, Conc.Tab.Pc.answer_eq (by decide +kernel), fun i hi hb q hq => ?_⟩
  have : ∀ i, i < 34 → 28 < i → ((vRun i).tab.pc 0).answer = none := by decide +kernel
  have := this i hb hi
  rw [hq] at this
  cases this

set_option maxRecDepth 100000 in
example : Props.ConcTable.exF.Lawful ∧ Reach {} true Props.ConcTable.exF 0 20 (vRun 0) ∧ Run {} true 0 vRun vLs 34 ∧
    Runs vRun vLs 0 (.sweep .shared fun y => .stop y.2 1) 28 34 1 ∧ (28 < 31 ∧ vLs 31 = .tab 0) ∧
    ∃ y, Passes (vRun 31).tab 0 y := by
  refine ⟨Props.ConcTable.exF_lawful, ?_, v_run, v_pass, ⟨by decide, rfl⟩, Props.ConcTable.passes_of (by decide +kernel)⟩
  rw [show vRun 0 = ex0.state from rfl, ex0, NSys.init_state]
  exact .init

end Props.ConcNodes

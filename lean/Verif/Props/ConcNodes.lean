/-
Node handles of concurrent node containers (C70). `Reach cfg pocma f al n s` ranges over every state any number of threads can
reach, in any interleaving of their accesses to shared memory, from a new container with allocator `al` and hash function and
equality `f`; `Run cfg pocma al σ ls n` over every continuation `σ 0, ..., σ n` with steps labelled `ls 0, ..., ls (n-1)`.
The vocabulary of changes of the contents is that of `Verif.SpecT`.
-/
import Verif.Conc.NodesPoint
import Verif.Props.ConcTable

namespace Props.ConcNodes
open Conc.Nodes Foa Node
open SpecT (Con Same Replaced Removed Added Present)
open Conc.Locking (Mode)

variable {K V : Type}

/-! ### vocabulary -/

/-- The elements of the container: (key, (address of the node, mapped value)). -/
def Elems (s : St K V) : Con K (Nat × V) := fun x => ∃ g j, s.tab.mem.slot g j = some x

/-- Places where a node can be: a slot of the container, or a handle variable. -/
inductive Place where
  | slot (g j : Nat)
  | handle (h : Nat)

/-- The node `i` is there. -/
def At (s : St K V) (i : Nat) : Place → Prop
  | .slot g j => ∃ k v, s.tab.mem.slot g j = some (k, (i, v))
  | .handle h => (s.hnd h).p = some i

/-- The node has been allocated and not been freed. -/
def Alive (s : St K V) (i : Nat) : Prop := s.heap.cell i ≠ none

/-- The handle in variable `h` has node `i`, with key and mapped value `x`; it is empty. -/
def Has (al : Nat) (s : St K V) (h i : Nat) (x : K × V) : Prop :=
  s.hnd h = ⟨some i, some al⟩ ∧ s.heap.cell i = some (x, al)
def Empty (s : St K V) (h : Nat) : Prop := s.hnd h = ⟨none, none⟩

/-- Thread `t` calls `c` (step `a`) and returns from it with the answer `r` (step `b`). -/
structure Executes (ls : Nat → Lab K V) (t : Nat) (c : Call K V) (a b r : Nat) : Prop where
  lt : a < b
  called : ls a = .call t c
  returned : ls b = .ret t r
  running : ∀ i, a < i → i < b → ∀ q, ls i ≠ .ret t q

/-! ### an example: a run -/

def exGo (t n : Nat) : List (Lab Nat Nat) := List.replicate n (.tab t)

/-- Thread 0 emplaces 1, thread 1 emplaces 5; both extract 1, into the handles 1 and 0; the one who has got the node changes its
key to 5 and inserts it, in vain; changes its key to 6 and inserts it. -/
def exLabs : List (Lab Nat Nat) :=
  [.call 0 (.emplace .shared (1, 10) (·.2) (·.2))] ++ exGo 0 26 ++ [.ret 0 1, .call 1 (.emplace .shared (5, 50) (·.2) (·.2))] ++
  exGo 1 26 ++ [.ret 1 1, .call 1 (.extract 0 1 fun _ => none), .call 0 (.extract 1 1 fun _ => none)] ++ exGo 0 14 ++ exGo 1 24 ++
  [.ret 1 1, .write 0 fun x => (5, x.2)] ++ exGo 0 8 ++
  [.ret 0 0, .call 1 (.insertNode .excl 0 (fun y => y.2 + 1) (·.2))] ++ exGo 1 23 ++ [.ret 1 0, .write 0 fun x => (6, x.2),
    .call 1 (.insertNode .excl 0 (fun y => y.2 + 1) fun y => y.2 + 2)] ++ exGo 1 26 ++ [.ret 1 1]

def ex0 : NSys Nat Nat := NSys.init {} Props.ConcTable.exF 0 20 2
def exRun (i : Nat) : St Nat Nat := ex0.trace {} true 0 exLabs i
def exLs (i : Nat) : Lab Nat Nat := exLabs.getD i (.drop 0)

theorem ex0_reach : Reach {} true Props.ConcTable.exF 0 20 (exRun 0) := by
  rw [show exRun 0 = ex0.state from rfl, ex0, NSys.init_state]
  exact .init

set_option maxRecDepth 100000 in
theorem ex_run : Run {} true 0 exRun exLs 161 := by
  have h : (ex0.run {} true 0 exLabs).isSome = true := by decide +kernel
  obtain ⟨S', hS⟩ := Option.isSome_iff_exists.1 h
  exact (NSys.trace_run exLabs hS).1

theorem ex_reach (i : Nat) (hi : i ≤ 161) : Reach {} true Props.ConcTable.exF 0 20 (exRun i) := ex_run.reach ex0_reach i hi

/-- The answer, if the label is a return of thread `t`. -/
def retOf (t : Nat) : Lab K V → Option Nat
  | .ret u r => if u = t then some r else none
  | _ => none

theorem executes {t : Nat} {c : Call Nat Nat} {a b r : Nat} (h1 : a < b) (h2 : exLs a = .call t c) (h3 : exLs b = .ret t r)
    (h4 : ∀ i, i < b → a < i → retOf t (exLs i) = none) : Executes exLs t c a b r := by
  refine ⟨h1, h2, h3, fun i hi hb q e => ?_⟩
  have := h4 i hb hi
  rw [e] at this
  simp [retOf] at this

set_option maxRecDepth 100000 in
theorem ex_extract1 : Executes exLs 1 (.extract 0 1 fun _ => none) 56 96 1 := executes (by decide) rfl rfl (by decide +kernel)
set_option maxRecDepth 100000 in
theorem ex_extract0 : Executes exLs 0 (.extract 1 1 fun _ => none) 57 106 0 := executes (by decide) rfl rfl (by decide +kernel)
set_option maxRecDepth 100000 in
theorem ex_refused : Executes exLs 1 (.insertNode .excl 0 (fun y => y.2 + 1) (·.2)) 107 131 0 :=
  executes (by decide) rfl rfl (by decide +kernel)
set_option maxRecDepth 100000 in
theorem ex_inserted : Executes exLs 1 (.insertNode .excl 0 (fun y => y.2 + 1) fun y => y.2 + 2) 133 160 1 :=
  executes (by decide) rfl rfl (by decide +kernel)

/-! ### C70 -/

/-- No thread ever frees a node twice, accesses a freed one, frees with another allocator, constructs over or destroys what it
must not, or violates an assertion. -/
theorem C70_no_undefined_behaviour {cfg : Foa.Cfg} {pocma : Bool} {f : Fns K} (hf : f.Lawful) {al n : Nat} {s : St K V}
    (h : Reach cfg pocma f al n s) :
    s.bad = false ∧ (∀ t, s.tab.pc t ≠ .bad) ∧ s.heap.freed.Nodup ∧ ∀ i ∈ s.heap.freed, ¬ Alive s i := by
  have hi := h.inv hf
  refine ⟨hi.good, fun t e => ?_, hi.own.once, fun i hi' ha => ha (hi.own.gone i hi')⟩
  have := hi.fine t
  rw [e] at this
  exact Conc.Tab.pcOk_not_bad (hi.tab.pcs t) e

/-- A node is alive as long as it is in the container or in a handle, and it is never in two places: of all threads that extract
an element exactly one gets the node, and no node is lost. -/
theorem C70_one_owner {cfg : Foa.Cfg} {pocma : Bool} {f : Fns K} (hf : f.Lawful) {al n : Nat} {s : St K V}
    (h : Reach cfg pocma f al n s) :
    (∀ i, Alive s i ↔ ∃ p, At s i p) ∧ ∀ i p q, At s i p → At s i q → p = q := by
  have hi := h.inv hf
  have hO := hi.own
  refine ⟨fun i => ⟨fun ha => ?_, ?_⟩, fun i p q hp hq => ?_⟩
  · rcases hO.owned i ha with ⟨⟨k, i', v⟩, ⟨g, j, hx⟩, rfl⟩ | ⟨l, hl⟩
    · exact ⟨.slot g j, k, v, hx⟩
    · exact ⟨.handle l, hl⟩
  · rintro ⟨p, hp⟩ hn
    cases p with
    | slot g j =>
      obtain ⟨k, v, hp⟩ := hp
      obtain ⟨w, hw⟩ := hO.live _ ⟨g, j, hp⟩
      rw [show s.heap.cell i = _ from hw] at hn; cases hn
    | handle l =>
      obtain ⟨w, hw⟩ := hO.liveH l i hp
      rw [hw] at hn; cases hn
  · cases p with
    | slot g j =>
      obtain ⟨k, v, hp⟩ := hp
      cases q with
      | slot g' j' =>
        obtain ⟨k', v', hq⟩ := hq
        have e := hO.uniq _ _ ⟨g, j, hp⟩ ⟨g', j', hq⟩ rfl
        rw [← e] at hq
        obtain ⟨rfl, rfl⟩ := Conc.Tab.loc_uniq hi.tab.shape hi.tab.law hp hq
        rfl
      | handle l => exact absurd hq (hO.apart _ l ⟨g, j, hp⟩)
    | handle l =>
      cases q with
      | slot g' j' =>
        obtain ⟨k', v', hq⟩ := hq
        exact absurd hp (hO.apart _ l ⟨g', j', hq⟩)
      | handle l' => rw [hO.uniqH l l' i hp hq]

/-- A handle that no call is using is empty, without an allocator, or has a live node and the allocator of the container. -/
theorem C70_handles {cfg : Foa.Cfg} {pocma : Bool} {f : Fns K} (hf : f.Lawful) {al n : Nat} {s : St K V}
    (h : Reach cfg pocma f al n s) {g : Nat} (hu : ∀ t, s.task t ≠ .insert g ∧ s.task t ≠ .extract g) :
    Empty s g ∨ ∃ i x, Has al s g i x := by
  have hi := h.inv hf
  have hu' : ∀ u, (s.task u).uses ≠ some g := by
    intro u e
    cases hk : s.task u <;> rw [hk] at e <;> cases e
    · exact (hu u).1 hk
    · exact (hu u).2 hk
  cases hp : (s.hnd g).p with
  | none => exact .inl (hi.dflt hu' hp)
  | some i =>
    obtain ⟨x, hx⟩ := hi.own.liveH g i hp
    exact .inr ⟨i, x, hi.full hp, hx⟩

/-- Two threads have extracted the same key: one has node 0, the other nothing; node 1 is in the container. -/
def exOwners (s : St Nat Nat) : Prop := At s 0 (.handle 0) ∧ (s.hnd 1).p = none ∧ Alive s 1 ∧ ∀ h < 5, (s.hnd h).p ≠ some 1

set_option maxRecDepth 100000 in
example : Props.ConcTable.exF.Lawful ∧ Reach {} true Props.ConcTable.exF 0 20 (exRun 107) ∧ exOwners (exRun 107) := by
  refine ⟨Props.ConcTable.exF_lawful, ex_reach 107 (by decide), ?_, ?_, ?_, ?_⟩
  · show ((exRun 107).hnd 0).p = some 0
    decide +kernel
  · decide +kernel
  · show (exRun 107).heap.cell 1 ≠ none
    decide +kernel
  · decide +kernel

theorem fns_at {cfg : Foa.Cfg} {pocma : Bool} {f : Fns K} (hf : f.Lawful) {al c n : Nat} {σ : Nat → St K V} {ls : Nat → Lab K V}
    (h0 : Reach cfg pocma f al c (σ 0)) (hr : Run cfg pocma al σ ls n) {i : Nat} (hi : i ≤ n) : (σ i).tab.mem.tab.fns = f :=
  (hr.fns (h0.inv hf) i hi).trans (h0.tab.fns hf)

theorem returns {cfg : Foa.Cfg} {pocma : Bool} {al : Nat} {s s' : St K V} {t r : Nat} (hi : Inv al s)
    (h : Step cfg pocma al s (.ret t r) s') :
    s.tab.pc t = .done r ∧ s'.heap = s.heap ∧ (∀ g, s.task t = .insert g → r = 1 → s'.hnd g = .dflt) ∧
      ∀ g, ¬ (s.task t = .insert g ∧ r = 1) → s'.hnd g = s.hnd g := by
  cases h with
  | ret _ _ hnd hp hn he =>
    obtain ⟨hnd', e, _, h3, h4⟩ := hi.ret_step hp
    rw [he] at e; cases e
    exact ⟨hp, rfl, h3, h4⟩
  | retBad _ _ hp hn he =>
    obtain ⟨hnd', e, h, _⟩ := hi.ret_step hp
    rw [he] at e; cases e

/-- `insert(node_type&&)` and its variants take effect at one of their own steps. Answer true: no equivalent element was there,
the very node in the handle (same address, with the value it had when the call was made) has become the element, passed to `f1`;
the handle is empty. Answer false: an equivalent element was there and has been passed to `f2`; the handle has the node as
before. -/
theorem C70_insert_node {cfg : Foa.Cfg} {pocma : Bool} {f : Fns K} (hf : f.Lawful) {al cap : Nat} {σ : Nat → St K V}
    {ls : Nat → Lab K V} {n : Nat} (h0 : Reach cfg pocma f al cap (σ 0)) (hr : Run cfg pocma al σ ls n) {t h : Nat} {m : Mode}
    {f2 f1 : K × V → V} {a b r : Nat} (he : Executes ls t (.insertNode m h f2 f1) a b r) (hb : b < n) :
    ∃ i k v, Has al (σ a) h i (k, v) ∧ ∃ l, a < l ∧ l < b ∧ ls l = .tab t ∧
      ((r = 1 ∧ ¬ Present f.eq (Elems (σ l)) k ∧ Added (Elems (σ l)) (Elems (σ (l + 1))) (k, (i, f1 (k, v))) ∧
          Empty (σ (b + 1)) h) ∨
       (r = 0 ∧ (∃ k' i' v', Elems (σ l) (k', (i', v')) ∧ f.eq k k' = true ∧
          Replaced (Elems (σ l)) (Elems (σ (l + 1))) (k', (i', v')) (k', (i', if m = .excl then f2 (k', v') else v'))) ∧
          Has al (σ (b + 1)) h i (k, v))) ∧
      ∀ l', a < l' → l' < b → ls l' = .tab t → l' ≠ l → Same (Elems (σ l')) (Elems (σ (l' + 1))) := by
  have hle := he.lt
  have hi0 := h0.inv hf
  have hia := hr.inv hi0 a (by omega)
  have hib := hr.inv hi0 b (by omega)
  have hca := hr.step a (by omega)
  have hcb := hr.step b (by omega)
  have hfa := fns_at hf h0 hr (i := a) (by omega)
  rw [he.called] at hca
  rw [he.returned] at hcb
  obtain ⟨hdone, hheap, hrh1, hrh2⟩ := returns hib hcb
  generalize hs' : σ (a + 1) = s' at hca
  cases hca with
  | call _ _ o' hfree hpre ho =>
    have ho' := ho
    simp only [Call.op] at ho'
    split at ho'
    · cases ho'
    rename_i i hp
    split at ho'
    · cases ho'
    rename_i x al' hcell
    cases ho'
    obtain ⟨k, v⟩ := x
    obtain ⟨w, hw⟩ := hia.own.liveH h i hp
    rw [hcell] at hw
    cases hw
    refine ⟨i, k, v, ⟨hia.full hp, hcell⟩, ?_⟩
    obtain ⟨q1, q2⟩ := points hr hi0 he.called ho rfl rfl hb he.running b hle (le_refl b)
    rw [hdone] at q2
    rcases q2 with ⟨q2, _⟩ | ⟨r', q2, q3⟩
    · cases q2
    cases q2
    rcases q3 with ⟨l, x1, x2, x3, x4, x5, x6, x7, x8, x9⟩ | ⟨x1, _⟩
    · rw [hfa] at x4
      refine ⟨l, x1, x2, x3, ?_, x9⟩
      rcases x4 with ⟨⟨k', i', v'⟩, y1, y2, y3, rfl⟩ | ⟨y1, y2, rfl⟩
      · right
        rcases x6 with ⟨e, _⟩ | ⟨_, e⟩
        · cases e
        rw [e] at x7
        have hk := (x5.trans (kept_keep (g := h) x7)).trans x8
        have hh : (σ (b + 1)).hnd h = (σ a).hnd h := (hrh2 h (by rintro ⟨_, e⟩; cases e)).trans hk.1
        refine ⟨rfl, ⟨k', i', v', y1, y2, ?_⟩, by rw [hh]; exact hia.full hp, ?_⟩
        · cases m
          · exact y3
          · exact y3
        · rw [hheap, hk.2 i hp]; exact hcell
      · left
        exact ⟨rfl, y1, y2, hrh1 h q1 rfl⟩
    · cases x1

example : Props.ConcTable.exF.Lawful ∧ Reach {} true Props.ConcTable.exF 0 20 (exRun 0) ∧ Run {} true 0 exRun exLs 161 ∧
    Executes exLs 1 (.insertNode .excl 0 (fun y => y.2 + 1) (·.2)) 107 131 0 ∧
    Executes exLs 1 (.insertNode .excl 0 (fun y => y.2 + 1) fun y => y.2 + 2) 133 160 1 :=
  ⟨Props.ConcTable.exF_lawful, ex0_reach, ex_run, ex_refused, ex_inserted⟩

/-- `extract(k)` and `extract_if(k,p)`. A node has been extracted: at one step of the call its element was in the container,
equivalent to `k` and accepted by the predicate, and has been removed; on return the handle has that very node with the value the
element had then. The handle is empty: at one step an equivalent element was rejected by the predicate (and has the value the
predicate left), or at some instant no equivalent element was there. -/
theorem C70_extract {cfg : Foa.Cfg} {pocma : Bool} {f : Fns K} (hf : f.Lawful) {al cap : Nat} {σ : Nat → St K V}
    {ls : Nat → Lab K V} {n : Nat} (h0 : Reach cfg pocma f al cap (σ 0)) (hr : Run cfg pocma al σ ls n) {t h : Nat} {k : K}
    {p : K × V → Option V} {a b r : Nat} (he : Executes ls t (.extract h k p) a b r) (hb : b < n) :
    (∃ l k' i v, a < l ∧ l < b ∧ ls l = .tab t ∧ r = 1 ∧ Elems (σ l) (k', (i, v)) ∧ f.eq k k' = true ∧ p (k', v) = none ∧
      Removed (Elems (σ l)) (Elems (σ (l + 1))) (k', (i, v)) ∧ Has al (σ (b + 1)) h i (k', v) ∧
      ∀ l', a < l' → l' < b → ls l' = .tab t → l' ≠ l → Same (Elems (σ l')) (Elems (σ (l' + 1)))) ∨
    (∃ l k' i v v', a < l ∧ l < b ∧ ls l = .tab t ∧ r = 0 ∧ Elems (σ l) (k', (i, v)) ∧ f.eq k k' = true ∧ p (k', v) = some v' ∧
      Replaced (Elems (σ l)) (Elems (σ (l + 1))) (k', (i, v)) (k', (i, v')) ∧ Empty (σ (b + 1)) h ∧
      ∀ l', a < l' → l' < b → ls l' = .tab t → l' ≠ l → Same (Elems (σ l')) (Elems (σ (l' + 1)))) ∨
    (r = 0 ∧ (∃ l, a < l ∧ l ≤ b ∧ ¬ Present f.eq (Elems (σ l)) k) ∧ Empty (σ (b + 1)) h ∧
      ∀ l', a < l' → l' < b → ls l' = .tab t → Same (Elems (σ l')) (Elems (σ (l' + 1)))) := by
  have hle := he.lt
  have hi0 := h0.inv hf
  have hia := hr.inv hi0 a (by omega)
  have hib := hr.inv hi0 b (by omega)
  have hca := hr.step a (by omega)
  have hcb := hr.step b (by omega)
  have hfa := fns_at hf h0 hr (i := a) (by omega)
  rw [he.called] at hca
  rw [he.returned] at hcb
  obtain ⟨hdone, hheap, hrh1, hrh2⟩ := returns hib hcb
  generalize hs' : σ (a + 1) = s' at hca
  cases hca with
  | call _ _ o' hfree hpre ho =>
    have hdf : (σ a).hnd h = .dflt := hia.dflt hpre.1 hpre.2
    have ho' := ho
    simp only [Call.op] at ho'
    cases ho'
    obtain ⟨q1, q2⟩ := points hr hi0 he.called ho rfl rfl hb he.running b hle (le_refl b)
    rw [hdone] at q2
    have hrh : (σ (b + 1)).hnd h = (σ b).hnd h := by
      refine hrh2 h ?_
      rw [q1]
      rintro ⟨e, _⟩; cases e
    rcases q2 with ⟨q2, _⟩ | ⟨r', q2, q3⟩
    · cases q2
    cases q2
    rcases q3 with ⟨l, x1, x2, x3, x4, x5, x6, x7, x8, x9⟩ | ⟨x1, rfl, x3, ⟨l, x4, x5, x6⟩, x7⟩
    · rw [hfa] at x4
      have hil := hr.inv hi0 l (by omega)
      have hsl := hr.step l (by omega)
      rw [x3] at hsl
      rcases x6 with ⟨rfl, y, e⟩ | ⟨rfl, e⟩
      · left
        rw [e] at x7
        rcases x4 with ⟨⟨k', i, v⟩, y1, y2, ⟨y3, y4, _⟩ | ⟨_, _, _, e⟩⟩ | ⟨_, _, e⟩
        · have hm : SpecT.Removed (Elems (σ l)) (Elems (σ (l + 1))) y := by
            obtain ⟨_, hs, hd, _⟩ := tab_self hil (hr.nowrap l (by omega)) hsl
            have h0' : (σ l).tab.pc t ≠ .idle := by
              intro e'
              rw [e'] at e
              cases e
            have := (step_moved hil.tab (hr.nowrap l (by omega)) hs h0' hd (hil.fine t)).1
            rw [e] at this
            cases this with
            | take _ _ hrm => exact hrm
          have hy : y = (k', i, v) := by
            by_contra hne
            exact ((y4 (k', i, v)).1 ((hm _).2 ⟨y1, fun e => hne e.symm⟩)).2 rfl
          subst hy
          refine ⟨l, k', i, v, x1, x2, x3, rfl, y1, y2, ?_, y4, ?_, x9⟩
          · have : (p (k', v)).map (fun w => (i, w)) = none := y3
            simpa using this
          · simp only [Call.task, apply, x5.1, hdf, Open.emplace, Hnd.dflt, Option.isSome_none, Bool.false_eq_true, or_self,
              if_false, Option.map_some, Option.some.injEq, Prod.mk.injEq] at x7
            obtain ⟨z1, z2⟩ := x7
            have z3 : (σ (l + 1)).hnd h = ⟨some i, some al⟩ := by rw [← z2]; simp [supd, Elem.node]
            refine ⟨by rw [hrh, x8.1, z3], ?_⟩
            rw [hheap, x8.2 i (by rw [z3]), ← z1]
            simp [store, supd, Elem.node, Elem.val]
        · cases e
        · cases e
      · right
        rw [e] at x7
        have hk := (x5.trans (kept_keep (g := h) x7)).trans x8
        have hemp : Empty (σ (b + 1)) h := by rw [Empty, hrh, hk.1, hdf]; rfl
        rcases x4 with ⟨⟨k', i, v⟩, y1, y2, ⟨_, _, e⟩ | ⟨w, y3, y4, _⟩⟩ | ⟨y1, y2, _⟩
        · cases e
        · left
          have y3' : (p (k', v)).map (fun w => (i, w)) = some w := y3
          rw [Option.map_eq_some_iff] at y3'
          obtain ⟨v', z1, z2⟩ := y3'
          subst z2
          exact ⟨l, k', i, v, v', x1, x2, x3, rfl, y1, y2, z1, y4, hemp, x9⟩
        · right
          refine ⟨rfl, ⟨l, x1, by omega, y1⟩, hemp, fun l' z1 z2 z3 => ?_⟩
          by_cases hll : l' = l
          · subst hll; exact y2
          · exact x9 l' z1 z2 z3 hll
    · right; right
      have := Conc.Tab.noKey_iff.1 x6
      rw [fns_at hf h0 hr (i := l) (by omega)] at this
      exact ⟨rfl, ⟨l, x4, x5, this⟩, by rw [Empty, hrh, x3.1, hdf]; rfl, x7⟩

example : Props.ConcTable.exF.Lawful ∧ Reach {} true Props.ConcTable.exF 0 20 (exRun 0) ∧ Run {} true 0 exRun exLs 161 ∧
    Executes exLs 1 (.extract 0 1 fun _ => none) 56 96 1 ∧ Executes exLs 0 (.extract 1 1 fun _ => none) 57 106 0 :=
  ⟨Props.ConcTable.exF_lawful, ex0_reach, ex_run, ex_extract1, ex_extract0⟩

/-- The thread whose call executes this step; `none` for a return and what is done to handles outside of calls. -/
def inCall : Lab K V → Option Nat
  | .call t _ | .tab t => some t
  | _ => none

/-- What happens to the table in a run is a run of the concurrent table (`Verif.Conc.Table`): step `i` is its step `pos i`, made by
the same thread, or leaves it alone. So whatever holds for all runs of the concurrent table (linearizability, C42, and the
properties C29-C32, C43, C44) holds while node handles are used. -/
theorem C70_table_runs {cfg : Foa.Cfg} {pocma : Bool} {f : Fns K} (hf : f.Lawful) {al cap : Nat} {σ : Nat → St K V}
    {ls : Nat → Lab K V} : ∀ {n : Nat}, Reach cfg pocma f al cap (σ 0) → Run cfg pocma al σ ls n →
    ∃ (τ : Nat → Conc.Tab.State K (Nat × V)) (who : Nat → Nat) (m : Nat) (pos : Nat → Nat),
      Conc.Tab.Reach cfg f al cap (τ 0) ∧ Conc.Tab.Run cfg τ who m ∧ pos 0 = 0 ∧ pos n = m ∧
      (∀ i ≤ n, (σ i).tab = τ (pos i)) ∧
      ∀ i < n, (pos (i + 1) = pos i + 1 ∧ inCall (ls i) = some (who (pos i))) ∨ (pos (i + 1) = pos i ∧ inCall (ls i) = none) := by
  intro n
  induction n with
  | zero =>
    intro h0 hr
    exact ⟨fun _ => (σ 0).tab, fun _ => 0, 0, fun _ => 0, h0.tab,
      ⟨fun i hi => absurd hi (Nat.not_lt_zero _), fun i hi => absurd hi (Nat.not_lt_zero _)⟩, rfl, rfl,
      fun i hi => by rw [Nat.le_zero.1 hi], fun i hi => absurd hi (Nat.not_lt_zero _)⟩
  | succ n ih =>
    intro h0 hr
    have hr' : Run cfg pocma al σ ls n := ⟨fun i hi => hr.step i (by omega), fun i hi => hr.nowrap i (by omega)⟩
    obtain ⟨τ, who, m, pos, k1, k2, k3, k4, k5, k6⟩ := ih h0 hr'
    have hi := hr'.inv (h0.inv hf) n le_rfl
    have hw := hr.nowrap n (by omega)
    have hlab : ∀ l : Lab K V, l.thread = inCall l := by intro l; cases l <;> rfl
    have keep : ∀ (g : Nat → Nat), (∀ i ≤ n, g i = pos i) → g (n + 1) = m → inCall (ls n) = none →
        ∀ i < n + 1, (g (i + 1) = g i + 1 ∧ inCall (ls i) = some (who (g i))) ∨ (g (i + 1) = g i ∧ inCall (ls i) = none) := by
      intro g g1 g2 g3 i hi'
      by_cases hin : i = n
      · subst hin; right; exact ⟨by rw [g2, g1 i le_rfl, k4], g3⟩
      · rw [g1 i (by omega), g1 (i + 1) (by omega)]; exact k6 i (by omega)
    rcases (hr.step n (by omega)).table hi hw with ⟨t, ht, hs⟩ | ⟨ht, e⟩
    · rw [hlab] at ht
      refine ⟨fun i => if i = m + 1 then (σ (n + 1)).tab else τ i, fun i => if i = m then t else who i, m + 1,
        fun i => if i = n + 1 then m + 1 else pos i, by simpa using k1, ⟨fun i hi' => ?_, fun i hi' => ?_⟩, by simpa using k3,
        by simp, fun i hi' => ?_, fun i hi' => ?_⟩
      · by_cases him : i = m
        · subst him
          have := k5 n le_rfl
          rw [k4] at this
          simp only [Nat.left_eq_add, one_ne_zero, if_false, if_true, ← this]
          exact hs
        · have h1 : ¬ i = m + 1 := by omega
          have h2 : ¬ i + 1 = m + 1 := by omega
          simp only [him, h1, h2, if_false]
          exact k2.step i (by omega)
      · by_cases him : i = m
        · subst him
          have := k5 n le_rfl
          rw [k4] at this
          simp only [Nat.left_eq_add, one_ne_zero, if_false, ← this]
          exact hw
        · have h1 : ¬ i = m + 1 := by omega
          simp only [h1, if_false]
          exact k2.nowrap i (by omega)
      · by_cases hin : i = n + 1
        · subst hin; simp
        · have hp : pos i ≤ m := by
            have mono : ∀ d, i + d ≤ n → pos i ≤ pos (i + d) := by
              intro d
              induction d with
              | zero => intro _; exact le_rfl
              | succ d ihd =>
                intro hd
                have := ihd (by omega)
                have h' : pos (i + d + 1) = pos (i + d) + 1 ∨ pos (i + d + 1) = pos (i + d) :=
                  (k6 (i + d) (by omega)).imp And.left And.left
                rw [← Nat.add_assoc]
                omega
            have := mono (n - i) (by omega)
            rw [show i + (n - i) = n by omega, k4] at this
            exact this
          have h1 : ¬ pos i = m + 1 := by omega
          simp only [hin, h1, if_false]
          exact k5 i (by omega)
      · by_cases hin : i = n
        · subst hin
          left
          have h1 : ¬ i = i + 1 := by omega
          simp only [h1, if_false, if_true, k4, ht, and_self]
        · have h1 : ¬ i = n + 1 := by omega
          have h2 : ¬ i + 1 = n + 1 := by omega
          simp only [h1, h2, if_false]
          rcases k6 i (by omega) with ⟨x, y⟩ | h'
          · left
            refine ⟨x, ?_⟩
            have : ¬ pos i = m := by
              intro e
              have mono : ∀ d, i + 1 + d ≤ n → pos (i + 1) ≤ pos (i + 1 + d) := by
                intro d
                induction d with
                | zero => intro _; exact le_rfl
                | succ d ihd =>
                  intro hd
                  have := ihd (by omega)
                  have h' : pos (i + 1 + d + 1) = pos (i + 1 + d) + 1 ∨ pos (i + 1 + d + 1) = pos (i + 1 + d) :=
                    (k6 (i + 1 + d) (by omega)).imp And.left And.left
                  rw [← Nat.add_assoc]
                  omega
              have := mono (n - (i + 1)) (by omega)
              rw [show i + 1 + (n - (i + 1)) = n by omega, k4] at this
              omega
            simp only [this, if_false]
            exact y
          · exact .inr h'
    · rw [hlab] at ht
      refine ⟨τ, who, m, fun i => if i = n + 1 then m else pos i, k1, k2, by simpa using k3, by simp, fun i hi' => ?_,
        keep (fun i => if i = n + 1 then m else pos i) (fun i hi' => if_neg (by omega)) (if_pos rfl) ht⟩
      by_cases hin : i = n + 1
      · subst hin
        simp only [if_true]
        rw [e, k5 n le_rfl, k4]
      · simp only [hin, if_false]
        exact k5 i (by omega)

example : Props.ConcTable.exF.Lawful ∧ Reach {} true Props.ConcTable.exF 0 20 (exRun 0) ∧ Run {} true 0 exRun exLs 161 :=
  ⟨Props.ConcTable.exF_lawful, ex0_reach, ex_run⟩

theorem pos_mono {pos : Nat → Nat} {n : Nat} (h : ∀ i < n, pos (i + 1) = pos i + 1 ∨ pos (i + 1) = pos i) :
    ∀ j ≤ n, ∀ i ≤ j, pos i ≤ pos j := by
  intro j
  induction j with
  | zero => intro _ i hi; rw [Nat.le_zero.1 hi]
  | succ j ih =>
    intro hj i hi
    rcases Nat.le_succ_iff.1 hi with hi | rfl
    · have := ih (by omega) i hi
      have := h j (by omega)
      omega
    · exact le_rfl

theorem pos_onto {pos : Nat → Nat} {n : Nat} (h0 : pos 0 = 0) (h : ∀ i < n, pos (i + 1) = pos i + 1 ∨ pos (i + 1) = pos i) :
    ∀ k ≤ n, ∀ j < pos k, ∃ i < k, pos i = j ∧ pos (i + 1) = j + 1 := by
  intro k
  induction k with
  | zero => intro _ j hj; rw [h0] at hj; cases hj
  | succ k ih =>
    intro hk j hj
    rcases h k (by omega) with e | e
    · by_cases hjk : j = pos k
      · exact ⟨k, by omega, hjk.symm, by rw [e, hjk]⟩
      · obtain ⟨i, h1, h2⟩ := ih (by omega) j (by omega)
        exact ⟨i, by omega, h2⟩
    · obtain ⟨i, h1, h2⟩ := ih (by omega) j (by omega)
      exact ⟨i, by omega, h2⟩

/-- Thread `t` calls `c` (step `a`), its call is over in state `b` with the answer `r`, and not before. -/
structure Runs (σ : Nat → St K V) (ls : Nat → Lab K V) (t : Nat) (c : Call K V) (a b r : Nat) : Prop where
  lt : a < b
  called : ls a = .call t c
  over : (σ b).tab.pc t = .done r
  running : ∀ i, a < i → i < b → ∀ q, (σ i).tab.pc t ≠ .done q

theorem keyed {cfg : Foa.Cfg} {pocma : Bool} {f : Fns K} (hf : f.Lawful) {al cap : Nat} {σ : Nat → St K V} {ls : Nat → Lab K V}
    {n : Nat} (h0 : Reach cfg pocma f al cap (σ 0)) (hr : Run cfg pocma al σ ls n) {t : Nat} {c : Call K V}
    {o : Conc.Tab.KOp K (Nat × V)} {a b r : Nat} (he : Runs σ ls t c a b r) (ho : c.op (σ a) = some (.key o)) (hb : b ≤ n) :
    (∃ l, a < l ∧ l < b ∧ inCall (ls l) = some t ∧ Props.ConcTable.Does f.eq o (Elems (σ l)) (Elems (σ (l + 1))) r) ∨
    ((∀ m x f2 f1, o ≠ .insert m x f2 f1) ∧ ∃ l, a < l ∧ l ≤ b ∧ r = 0 ∧ ¬ Present f.eq (Elems (σ l)) o.key) := by
  have hle := he.lt
  obtain ⟨τ, who, m, pos, k1, k2, k3, k4, k5, k6⟩ := C70_table_runs hf h0 hr
  have hstep : ∀ i < n, pos (i + 1) = pos i + 1 ∨ pos (i + 1) = pos i := fun i hi => (k6 i hi).imp And.left And.left
  have hmono := pos_mono hstep
  have honto := pos_onto k3 hstep
  have hpa : pos (a + 1) = pos a + 1 := by
    rcases k6 a (by omega) with h | h
    · exact h.1
    · rw [he.called] at h; cases h.2
  -- places in the run of the table between the call and its end
  have hback : ∀ j, pos (a + 1) ≤ j → j < pos b → ∃ i, a < i ∧ i < b ∧ pos i = j ∧ pos (i + 1) = j + 1 := by
    intro j h1 h2
    obtain ⟨i, x1, x2, x3⟩ := honto b hb j h2
    refine ⟨i, ?_, x1, x2, x3⟩
    by_contra hia
    have := hmono a (by omega) i (by omega)
    omega
  have hE : ∀ i ≤ n, Props.ConcTable.Elems (τ (pos i)) = Elems (σ i) := by
    intro i hi
    rw [← k5 i hi]; rfl
  have hex : Props.ConcTable.Executes τ t (.key o) (pos (a + 1)) (pos b) r := by
    refine ⟨hmono b hb _ (by omega), ?_, ?_, fun j h1 h2 q hq => ?_⟩
    · have hs := hr.step a (by omega)
      rw [he.called] at hs
      have hx := k5 (a + 1) (by omega)
      generalize σ (a + 1) = s' at hs hx
      cases hs with
      | call _ _ o' _ _ ho' =>
        rw [ho] at ho'
        cases ho'
        rw [Props.ConcTable.Called, ← hx]
        simp [Conc.Tab.State.set]
    · rw [Props.ConcTable.Returned, ← k5 b hb]; exact he.over
    · obtain ⟨i, x1, x2, x3, _⟩ := hback j h1 h2
      subst x3
      rw [Props.ConcTable.Returned, ← k5 i (by omega)] at hq
      exact he.running i x1 x2 q hq
  rcases Props.ConcTable.linearizable_absent (k1.inv hf) (k1.fns hf) k2 hex (by rw [← k4]; exact hmono n le_rfl b hb) with
    ⟨l, h1, h2, h3, h4, _⟩ | ⟨h1, l, h2, h3, h4, _⟩
  · obtain ⟨i, x1, x2, x3, x4⟩ := hback l h1 h2
    subst x3
    rw [← x4, hE i (by omega), hE (i + 1) (by omega)] at h4
    refine .inl ⟨i, x1, x2, ?_, h4⟩
    rcases k6 i (by omega) with h | h
    · rw [h.2, h3]
    · omega
  · refine .inr ⟨h1, ?_⟩
    rcases Nat.lt_or_ge l (pos b) with h | h
    · obtain ⟨i, x1, x2, x3, x4⟩ := hback l h2 h
      subst x3
      rw [hE i (by omega)] at h4
      exact ⟨i, x1, by omega, h4⟩
    · have : l = pos b := by omega
      subst this
      rw [hE b hb] at h4
      exact ⟨b, hle, le_rfl, h4⟩

/-- `emplace`, `insert(x)`, `try_emplace` and their `_or_visit` and `_and_visit` forms: an element with a new node, never used
before, is added and passed to `f1`, or an equivalent element is passed to `f2`. -/
theorem C70_emplace {cfg : Foa.Cfg} {pocma : Bool} {f : Fns K} (hf : f.Lawful) {al cap : Nat} {σ : Nat → St K V} {ls : Nat → Lab K V}
    {n : Nat} (h0 : Reach cfg pocma f al cap (σ 0)) (hr : Run cfg pocma al σ ls n) {t : Nat} {m : Mode} {x : K × V}
    {f2 f1 : K × V → V} {a b r : Nat} (he : Runs σ ls t (.emplace m x f2 f1) a b r) (hb : b ≤ n) :
    ∃ i, ¬ Alive (σ a) i ∧ i ∉ (σ a).heap.freed ∧ ∃ l, a < l ∧ l < b ∧ inCall (ls l) = some t ∧
      ((r = 1 ∧ ¬ Present f.eq (Elems (σ l)) x.1 ∧ Added (Elems (σ l)) (Elems (σ (l + 1))) (x.1, (i, f1 x))) ∨
       (r = 0 ∧ ∃ k' i' v', Elems (σ l) (k', (i', v')) ∧ f.eq x.1 k' = true ∧
          Replaced (Elems (σ l)) (Elems (σ (l + 1))) (k', (i', v')) (k', (i', if m = .excl then f2 (k', v') else v')))) := by
  have hle := he.lt
  have hi := hr.inv (h0.inv hf) a (by omega)
  have hfr := hi.own.fresh _ (le_refl (σ a).heap.next)
  refine ⟨(σ a).heap.next, fun h => h hfr.1, hfr.2, ?_⟩
  rcases keyed hf h0 hr he rfl hb with ⟨l, h1, h2, h3, h4⟩ | ⟨h1, _⟩
  · refine ⟨l, h1, h2, h3, ?_⟩
    cases m
    · rcases h4 with ⟨⟨k', i', v'⟩, y1, y2, y3, rfl⟩ | ⟨y1, y2, rfl⟩
      · exact .inr ⟨rfl, k', i', v', y1, y2, y3⟩
      · exact .inl ⟨rfl, y1, y2⟩
    · rcases h4 with ⟨⟨k', i', v'⟩, y1, y2, y3, rfl⟩ | ⟨y1, y2, rfl⟩
      · exact .inr ⟨rfl, k', i', v', y1, y2, y3⟩
      · exact .inl ⟨rfl, y1, y2⟩
  · exact absurd rfl (h1 _ _ _ _)

/-- Thread 0 emplaces 1 in the example. -/
theorem ex_emplace : Runs exRun exLs 0 (.emplace .shared (1, 10) (·.2) (·.2)) 0 27 1 := by
  refine ⟨by decide, rfl, Conc.Tab.Pc.answer_eq (by decide +kernel), fun i h1 h2 q hq => ?_⟩
  have : ∀ i < 27, ((exRun i).tab.pc 0).answer = none := by decide +kernel
  have := this i h2
  rw [hq] at this
  cases this

example : Props.ConcTable.exF.Lawful ∧ Reach {} true Props.ConcTable.exF 0 20 (exRun 0) ∧ Run {} true 0 exRun exLs 161 ∧
    Runs exRun exLs 0 (.emplace .shared (1, 10) (·.2) (·.2)) 0 27 1 := ⟨Props.ConcTable.exF_lawful, ex0_reach, ex_run, ex_emplace⟩

end Props.ConcNodes

/-
Concurrent node containers (C70): when nodes are allocated, freed and written, step by step.
-/
import Verif.Props.ConcNodesKey

namespace Props.ConcNodes
open Conc.Nodes Foa Node
open SpecT (Con Same Replaced Removed Added Present)
open Conc.Locking (Mode)

variable {K V : Type}

theorem drop_cells {cfg : Foa.Cfg} {pocma : Bool} {al : Nat} {s s' : St K V} (hi : Inv al s) {h : Nat}
    (hs : Step cfg pocma al s (.drop h) s') :
    s'.tab = s.tab ∧ s'.hnd = Spec.upd s.hnd h .dflt ∧
      ∀ i, s'.heap.cell i = if (s.hnd h).p = some i then none else s.heap.cell i := by
  cases hs with
  | drop _ m hu he =>
    refine ⟨rfl, rfl, fun i => ?_⟩
    show m.cell i = _
    cases hp : (s.hnd h).p with
    | none =>
      rw [hi.dflt hu hp] at he
      simp only [Open.destroy, Hnd.dflt, Option.isNone_none, if_true] at he
      cases he; simp
    | some j =>
      obtain ⟨m', e, _⟩ := hi.freeH hu hp
      rw [hi.full hp] at he
      simp [Open.destroy, Open.destroyNode, Open.alOf, Open.reset, e] at he
      subst he
      rw [(free_eq e).1]; simp [supd, eq_comm]
  | dropBad _ hu he =>
    obtain ⟨m', e, h⟩ := hi.drop_step hu
    rw [he] at e; cases e

theorem move_cells {cfg : Foa.Cfg} {pocma : Bool} {al : Nat} {s s' : St K V} (hi : Inv al s) {g h : Nat}
    (hs : Step cfg pocma al s (.move g h) s') :
    s'.tab = s.tab ∧ g ≠ h ∧ s'.hnd = Spec.upd (Spec.upd s.hnd g (s.hnd h)) h .dflt ∧
      ∀ i, s'.heap.cell i = if (s.hnd g).p = some i then none else s.heap.cell i := by
  cases hs with
  | move _ _ r hab hl he =>
    obtain ⟨r', e, _, e1, e2⟩ := hi.move_step pocma hab (fun u => (hl u).1) (fun u => (hl u).2)
    rw [he] at e; cases e
    refine ⟨rfl, hab, by show Spec.upd (Spec.upd s.hnd g r.2.1) h r.2.2 = _; rw [e1, e2], fun i => ?_⟩
    show r.1.cell i = _
    have hub : ∀ u, (s.task u).uses ≠ some h := fun u => (hl u).1
    have hua : ∀ u, (s.task u).uses ≠ some g := fun u => (hl u).2
    cases hp : (s.hnd g).p with
    | none =>
      have hra : r.1 = s.heap := by
        rw [hi.dflt hua hp] at he
        cases hq : (s.hnd h).p with
        | none => rw [hi.dflt hub hq] at he; simp [Open.assign, Hnd.dflt] at he; rw [← he]
        | some k =>
          rw [hi.full hq] at he
          simp [Open.assign, Open.take, Open.alOf, Open.emplace, Open.reset, Hnd.dflt] at he
          rw [← he]
      rw [hra]; simp
    | some j =>
      obtain ⟨m', e, _⟩ := hi.freeH hua hp
      have hrm : r.1 = m' := by
        rw [hi.full hp] at he
        cases hq : (s.hnd h).p with
        | none =>
          rw [hi.dflt hub hq] at he
          simp [Open.assign, Open.destroyNode, Open.alOf, Open.reset, Hnd.dflt, e] at he
          rw [← he]
        | some k =>
          rw [hi.full hq] at he
          simp [Open.assign, Open.destroyNode, Open.alOf, Open.reset, Hnd.dflt, e] at he
          rw [← he]
      rw [hrm, (free_eq e).1]; simp [supd, eq_comm]
  | moveBad _ _ hab hl he =>
    obtain ⟨r', e, h, _⟩ := hi.move_step pocma hab (fun u => (hl u).1) (fun u => (hl u).2)
    rw [he] at e; cases e

theorem write_cells {cfg : Foa.Cfg} {pocma : Bool} {al : Nat} {s s' : St K V} (hi : Inv al s) {h : Nat} {f : K × V → K × V}
    (hs : Step cfg pocma al s (.write h f) s') :
    s'.tab = s.tab ∧ s'.hnd = s.hnd ∧ ∃ i x, Has al s h i x ∧ Has al s' h i (f x) ∧
      ∀ j, j ≠ i → s'.heap.cell j = s.heap.cell j := by
  cases hs with
  | write _ i m _ hu hp he =>
    obtain ⟨x, m', hx, e, e', _⟩ := hi.write_step f hu hp
    rw [he] at e; cases e
    refine ⟨rfl, rfl, i, x, ⟨hi.full hp, hx⟩, ⟨hi.full hp, ?_⟩, fun j hj => ?_⟩
    · show m.cell i = _
      rw [e']; simp [supd]
    · show m.cell j = _
      rw [e']; simp [supd, hj]
  | writeBad _ i _ hu hp he =>
    obtain ⟨x, m', _, e, _, h⟩ := hi.write_step f hu hp
    rw [he] at e; cases e

/-- The destruction of a handle, an assignment `g=std::move(h)` and a change of the value in a handle, at any moment while other
threads use the container. The node of a handle destroyed or assigned to is freed, no other; the node moved, with its value, is
in the target and the source is empty; a changed value stays in its node. The container and the other handles are untouched. -/
theorem C70_handle_operations {cfg : Foa.Cfg} {pocma : Bool} {f : Fns K} (hf : f.Lawful) {al n : Nat} {s s' : St K V}
    (h0 : Reach cfg pocma f al n s) :
    (∀ h, Step cfg pocma al s (.drop h) s' → Same (Elems s) (Elems s') ∧ Empty s' h ∧ (∀ g, g ≠ h → s'.hnd g = s.hnd g) ∧
      ∀ i, s'.heap.cell i = if (s.hnd h).p = some i then none else s.heap.cell i) ∧
    (∀ g h, Step cfg pocma al s (.move g h) s' → Same (Elems s) (Elems s') ∧ s'.hnd g = s.hnd h ∧ Empty s' h ∧
      (∀ l, l ≠ g → l ≠ h → s'.hnd l = s.hnd l) ∧
      ∀ i, s'.heap.cell i = if (s.hnd g).p = some i then none else s.heap.cell i) ∧
    (∀ h w, Step cfg pocma al s (.write h w) s' → Same (Elems s) (Elems s') ∧ (∀ g, s'.hnd g = s.hnd g) ∧
      ∃ i x, Has al s h i x ∧ Has al s' h i (w x) ∧ ∀ j, j ≠ i → s'.heap.cell j = s.heap.cell j) := by
  have hi := h0.inv hf
  refine ⟨fun h hs => ?_, fun g h hs => ?_, fun h w hs => ?_⟩
  · obtain ⟨h1, h2, h3⟩ := drop_cells hi hs
    refine ⟨fun x => by rw [Elems, Elems, h1], by rw [Empty, h2]; simp [supd, Hnd.dflt], fun g hg => by rw [h2]; simp [supd, hg], h3⟩
  · obtain ⟨h1, h2, h3, h4⟩ := move_cells hi hs
    refine ⟨fun x => by rw [Elems, Elems, h1], by rw [h3]; simp [supd, h2], by rw [Empty, h3]; simp [supd, Hnd.dflt],
      fun l hg hh => by rw [h3]; simp [supd, hg, hh], h4⟩
  · obtain ⟨h1, h2, h3⟩ := write_cells hi hs
    exact ⟨fun x => by rw [Elems, Elems, h1], fun g => by rw [h2], h3⟩

set_option maxRecDepth 100000 in
example : Props.ConcTable.exF.Lawful ∧ Reach {} true Props.ConcTable.exF 0 20 (exRun 97) ∧
    ∃ w, Step {} true 0 (exRun 97) (.write 0 w) (exRun 98) :=
  ⟨Props.ConcTable.exF_lawful, ex_reach 97 (by decide), _, ex_run.step 97 (by decide)⟩

/-- A node is freed only in a step that removes its element from the container and does not extract it, or in the destruction of
the handle it is in or an assignment to that handle. A node comes to life only in a step that adds its element to the
container. -/
theorem C70_lifetime {cfg : Foa.Cfg} {pocma : Bool} {f : Fns K} (hf : f.Lawful) {al n : Nat} {s s' : St K V} {lab : Lab K V}
    (h0 : Reach cfg pocma f al n s) (hw : Conc.Tab.NoWrap s.tab) (hs : Step cfg pocma al s lab s') {i : Nat} :
    (Alive s i → ¬ Alive s' i →
      (∃ t, lab = .tab t ∧ (∀ h, s.task t ≠ .extract h) ∧ (∃ k v, Elems s (k, (i, v))) ∧ ¬ ∃ k v, Elems s' (k, (i, v))) ∨
      (∃ h, lab = .drop h ∧ At s i (.handle h)) ∨ ∃ g h, lab = .move g h ∧ At s i (.handle g)) ∧
    (¬ Alive s i → Alive s' i →
      ∃ t, lab = .tab t ∧ s.task t = .emplace i ∧ (¬ ∃ k v, Elems s (k, (i, v))) ∧ ∃ k v, Elems s' (k, (i, v))) := by
  have hi := h0.inv hf
  have h0' := h0.step hw hs
  have own := (C70_one_owner hf h0).1 i
  have own' := (C70_one_owner hf h0').1 i
  have gone : ¬ Alive s' i → ¬ ∃ k v, Elems s' (k, (i, v)) := by
    rintro ha ⟨k, v, g, j, hx⟩
    exact ha (own'.2 ⟨.slot g j, k, v, hx⟩)
  have gone0 : ¬ Alive s i → ¬ ∃ k v, Elems s (k, (i, v)) := by
    rintro ha ⟨k, v, g, j, hx⟩
    exact ha (own.2 ⟨.slot g j, k, v, hx⟩)
  have hcell : s'.heap.cell i = s.heap.cell i → (Alive s i ↔ Alive s' i) := by
    intro e; rw [Alive, Alive, e]
  have same : s'.heap.cell i = s.heap.cell i → ∀ {P Q : Prop}, (Alive s i → ¬ Alive s' i → P) ∧ (¬ Alive s i → Alive s' i → Q) := by
    intro e P Q
    exact ⟨fun a b => absurd ((hcell e).1 a) b, fun a b => absurd ((hcell e).2 b) a⟩
  cases lab with
  | call t c => cases hs; exact same rfl
  | ret t r =>
    cases hs with
    | ret => exact same rfl
    | retBad => exact same rfl
  | drop h =>
    have e := (drop_cells hi hs).2.2 i
    by_cases hp : (s.hnd h).p = some i
    · refine ⟨fun _ _ => .inr (.inl ⟨h, rfl, hp⟩), fun _ b => ?_⟩
      rw [if_pos hp] at e; exact absurd e b
    · rw [if_neg hp] at e; exact same e
  | move g h =>
    have e := (move_cells hi hs).2.2.2 i
    by_cases hp : (s.hnd g).p = some i
    · refine ⟨fun _ _ => .inr (.inr ⟨g, h, rfl, hp⟩), fun _ b => ?_⟩
      rw [if_pos hp] at e; exact absurd e b
    · rw [if_neg hp] at e; exact same e
  | write h w =>
    obtain ⟨_, _, j, x, a1, a2, a3⟩ := write_cells hi hs
    by_cases hij : i = j
    · subst hij
      refine ⟨fun _ b => ?_, fun a _ => ?_⟩
      · exact absurd (by rw [Alive, a2.2]; intro e; cases e) b
      · exact absurd (by rw [Alive, a1.2]; intro e; cases e) a
    · exact same (a3 i hij)
  | tab t =>
    obtain ⟨htask, hsb, hd, happ⟩ := tab_self hi hw hs
    have hidle : s.tab.pc t ≠ .idle := by
      cases hs with
      | tab _ _ _ _ h0 _ _ _ => exact h0
      | tabBad _ _ h0 _ _ _ => exact h0
    obtain ⟨hm, _, hlist⟩ := step_moved hi.tab hw hsb hidle hd (hi.fine t)
    have hT := hi.thr t
    cases hc : change s.tab.mem (s.tab.pc t) with
    | keep =>
      rw [hc] at happ
      simp only [apply, Option.some.injEq, Prod.mk.injEq] at happ
      exact same (by rw [happ.1])
    | put x =>
      rw [hc] at happ hm
      obtain ⟨md, f2, f1, hp⟩ := change_put hc
      cases hk : s.task t with
      | none => rw [hk] at hT; have := hT _ hp; cases this
      | insert l =>
        rw [hk] at happ
        simp only [apply, Option.some.injEq, Prod.mk.injEq] at happ
        exact same (by rw [happ.1])
      | extract l =>
        rw [hk] at hT
        rcases hT with ⟨_, _, a1, _⟩ | ⟨a1, _⟩ | ⟨a1, _⟩
        · rw [hp] at a1; cases a1
        · rw [result_pending a1] at hp; cases hp
        · rw [result_pending a1] at hp; cases hp
      | emplace j =>
        rw [hk] at happ hT
        simp only [apply, Option.some.injEq, Prod.mk.injEq] at happ
        rcases hT with ⟨_, x', _, _, a1, a2, _⟩ | ⟨r, a1⟩
        · rw [hp] at a1; cases a1
          have e : s'.heap.cell i = if i = j then some (x.val, al) else s.heap.cell i := by
            rw [← happ.1]; simp only [construct, supd, Elem.node, a2]
          by_cases hij : i = j
          · subst hij
            rw [if_pos rfl] at e
            refine ⟨fun _ b => absurd (by rw [Alive, e]; intro h; cases h) b, fun a b => ⟨t, rfl, hk, gone0 a, ?_⟩⟩
            cases hm with
            | put _ z hz hadd =>
              obtain ⟨k, i', v⟩ := z
              have : i' = i := hz.trans a2
              subst this
              exact ⟨k, v, (hadd _).2 (.inr rfl)⟩
          · rw [if_neg hij] at e; exact same e
        · rw [result_pending a1] at hp; cases hp
    | take y =>
      rw [hc] at happ hm
      have hy : Elems s y := by cases hm with | take _ hy _ => exact hy
      cases hk : s.task t with
      | extract l =>
        rw [hk] at happ
        simp only [apply, Option.map_eq_some_iff] at happ
        obtain ⟨x, _, e⟩ := happ
        have e1 := (Prod.mk.inj e).1
        have e2 : s'.heap.cell i = if i = y.2.1 then some (y.val, al) else s.heap.cell i := by
          rw [← e1]; simp only [store, supd, Elem.node]
        by_cases hij : i = y.2.1
        · rw [if_pos hij] at e2
          refine ⟨fun _ b => absurd (by rw [Alive, e2]; intro h; cases h) b, fun a _ => ?_⟩
          obtain ⟨v, hv⟩ := hi.own.live y hy
          exact absurd (by rw [Alive, hij, show s.heap.cell y.2.1 = _ from hv]; intro h; cases h) a
        · rw [if_neg hij] at e2; exact same e2
      | _ =>
        rw [hk] at happ
        simp only [apply, Option.map_eq_some_iff] at happ
        obtain ⟨m', e1, e2⟩ := happ
        have e2 := (Prod.mk.inj e2).1
        have e3 : s'.heap.cell i = if i = y.2.1 then none else s.heap.cell i := by
          rw [← e2, (free_eq e1).1]; simp only [supd, Elem.node]
        by_cases hij : i = y.2.1
        · rw [if_pos hij] at e3
          refine ⟨fun _ b => .inl ⟨t, rfl, fun h e => ?_, ⟨y.1, y.2.2, ?_⟩, gone b⟩, fun _ b => absurd e3 b⟩
          · rw [hk] at e; cases e
          · rw [hij]; exact hy
        · rw [if_neg hij] at e3; exact same e3
    | all =>
      obtain ⟨l1, l2⟩ := hlist hc
      rw [hc] at happ
      simp only [apply, Option.map_eq_some_iff] at happ
      obtain ⟨m', e1, e2⟩ := happ
      have e2 := (Prod.mk.inj e2).1
      obtain ⟨m2, e3, _, hcell', _⟩ := Own.freeAll s.tab.mem.tab.contents hi.own l1 (fun x hx => (l2 x).2 hx)
      rw [e1] at e3; cases e3
      have e4 := hcell' i
      rw [e2] at e4
      by_cases hmem : i ∈ s.tab.mem.tab.contents.map Elem.node
      · rw [if_pos hmem] at e4
        obtain ⟨⟨k, i', v⟩, hx, rfl⟩ := List.mem_map.1 hmem
        refine ⟨fun _ b => .inl ⟨t, rfl, fun h e => ?_, ⟨k, v, (l2 _).2 hx⟩, gone b⟩, fun _ b => absurd e4 b⟩
        rw [e] at hT
        rw [change_all hc] at hT
        rcases hT with ⟨_, _, a1, _⟩ | ⟨a1, _⟩ | ⟨a1, _⟩ <;> cases a1
      · rw [if_neg hmem] at e4; exact same e4

/-- The node of the element emplaced first comes to life in step 24 and is freed in step 94, by `erase_if`. -/
def KLife (i : Nat) (s s' : St Nat Nat) : Prop := ¬ Alive s i ∧ Alive s' i

set_option maxRecDepth 100000 in
example : Props.ConcTable.exF.Lawful ∧ Reach {} true Props.ConcTable.exF 0 20 (kRun 24) ∧ Conc.Tab.NoWrap (kRun 24).tab ∧
    Step {} true 0 (kRun 24) (.tab 0) (kRun 25) ∧ KLife 0 (kRun 24) (kRun 25) ∧
    Reach {} true Props.ConcTable.exF 0 20 (kRun 94) ∧ Conc.Tab.NoWrap (kRun 94).tab ∧
    Step {} true 0 (kRun 94) (.tab 0) (kRun 95) ∧ KLife 0 (kRun 95) (kRun 94) := by
  have h1 : ((kRun 24).heap.cell 0).isSome = false := by decide +kernel
  have h2 : ((kRun 25).heap.cell 0).isSome = true := by decide +kernel
  have h3 : ((kRun 94).heap.cell 0).isSome = true := by decide +kernel
  have h4 : ((kRun 95).heap.cell 0).isSome = false := by decide +kernel
  refine ⟨Props.ConcTable.exF_lawful, k_run.reach k0_reach 24 (by decide), k_run.nowrap 24 (by decide), k_run.step 24 (by decide),
    ⟨fun h => ?_, fun h => ?_⟩, k_run.reach k0_reach 94 (by decide), k_run.nowrap 94 (by decide), k_run.step 94 (by decide),
    ⟨fun h => ?_, fun h => ?_⟩⟩
  · exact h (by simpa using h1)
  · rw [h] at h2; cases h2
  · exact h (by simpa using h4)
  · rw [h] at h3; cases h3

end Props.ConcNodes

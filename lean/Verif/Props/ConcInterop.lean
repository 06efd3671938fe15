/-
Property C68: moving between concurrent and non-concurrent containers. `WReach c veq f w` ranges over every world (variables
with non-concurrent containers, concurrent containers with any number of threads working on each of them) that calls respecting
the documented preconditions, thread steps in any interleaving and conversions both ways can produce, in any order.
-/
import Verif.Conc.Interop
import Verif.Props.ConcTable

namespace Props.ConcInterop
open Conc.Tab Conc.Interop Foa SpecT
open Props.ConcTable (Elems Called Returned Busy Executes sizeAnswer Does)
open Spec (Res)
variable {K V : Type}

/-- What `for(it=begin();it!=end();++it)` sees in a non-concurrent container. -/
def Iterates (c : MCfg) (t : Table K V) (l : List (K × V)) : Prop := t.opIterate c.regular = some (.list l)

/-- A non-concurrent container is empty and owns nothing but what a default-constructed one does. -/
structure IsEmptied (c : MCfg) (t : Table K V) : Prop where
  iterates : Iterates c t []
  size : t.size = 0
  lookup : ∀ k, t.lookup k = some none

/-- Objects whose arrays have been taken are empty. -/
theorem emptied_ok {c : MCfg} {x : Table K V} (hx : x.Inv) : IsEmptied c (emptied c.toCfg x) := by
  have hi := emptied_inv c.toCfg hx
  have hr : R (emptied c.toCfg x) ⟨x.fns.eq, x.al, []⟩ :=
    ⟨hi, rfl, rfl, by rw [emptied_contents]⟩
  refine ⟨?_, rfl, fun k => hr.lookup k⟩
  show (emptied c.toCfg x).opIterate c.regular = _
  rw [opIterate_eq hi, emptied_contents]

section
variable {c : MCfg} {veq : K × V → K × V → Bool} {f : Fns K} (hf : f.Lawful) {w : World K V} (h : WReach c veq f w)
include hf h

/-- A concurrent container made from a non-concurrent one has its functions, its allocator, its bucket count and maximum load,
every element in the slot where it was (so its address has not changed), and is therefore made of exactly the elements
iteration showed; `size()` is right; the source is empty. -/
theorem C68_to_concurrent (r : Nat) :
    ∃ l, Iterates c (w.tab r) l ∧
      (let m := (toConc c.toCfg (w.tab r)).1
       (∀ x, Elems (⟨m, fun _ => .idle⟩ : State K V) x ↔ x ∈ l) ∧
       (∀ g j, m.slot g j = (w.tab r).arr.slot g j) ∧
       sizeAnswer (⟨m, fun _ => .idle⟩ : State K V) = l.length ∧
       m.tab.fns = (w.tab r).fns ∧ m.tab.al = (w.tab r).al ∧ m.tab.capacity = (w.tab r).capacity ∧ m.tab.ml = (w.tab r).ml) ∧
      IsEmptied c (toConc c.toCfg (w.tab r)).2 := by
  have hi := (h.inv hf).1 r
  refine ⟨_, opIterate_eq hi c.regular, ⟨fun x => hi.mem.symm, fun _ _ => rfl, ?_, rfl, rfl, rfl, rfl⟩, emptied_ok hi⟩
  show min (w.tab r).size (w.tab r).ml = _
  rw [Nat.min_eq_left hi.size_le]
  exact hi.size

/-- A non-concurrent container made from a concurrent one, at an instant when nobody is inside (the conversion holds the
exclusive lock), has its functions, its allocator, its bucket count, every element in the slot where it was, and iterating it
shows exactly the elements, each once; the source is empty. -/
theorem C68_to_sequential (i : Nat) (hq : ∀ t, ¬ Busy (w.conc i) t) :
    let t := (toSeq c.toCfg (w.conc i).mem).1
    (∃ l, Iterates c t l ∧ (∀ x, x ∈ l ↔ Elems (w.conc i) x) ∧ l.Pairwise (fun a b => t.fns.eq a.1 b.1 = false) ∧
      t.size = l.length) ∧
    (∀ g j, t.arr.slot g j = (w.conc i).mem.slot g j) ∧
    t.fns = (w.conc i).mem.tab.fns ∧ t.al = (w.conc i).mem.tab.al ∧ t.capacity = (w.conc i).mem.tab.capacity ∧
    IsEmptied c (toSeq c.toCfg (w.conc i).mem).2.tab ∧
    ∀ x, ¬ Elems (⟨(toSeq c.toCfg (w.conc i).mem).2, (w.conc i).pc⟩ : State K V) x := by
  have hi : (w.conc i).mem.tab.Inv := ((h.inv hf).2 i).quiescent (fun u => by simpa [Busy] using hq u)
  refine ⟨⟨_, opIterate_eq hi c.regular, fun x => hi.mem, contents_pairwise hi, hi.size⟩, fun _ _ => rfl, rfl, rfl, rfl,
    emptied_ok hi, ?_⟩
  rintro x ⟨g, j, hx⟩
  have := (emptied_inv c.toCfg hi).mem.2 ⟨g, j, hx⟩
  rw [emptied_contents] at this
  cases this

/-- Whatever has happened before, every program of calls on the non-concurrent containers that respects the documented
preconditions runs without undefined behaviour and gives the answers of the abstract maps with the elements iteration shows. -/
theorem C68_programs (ops : List (Spec.Op K V)) (a : Nat → Spec.Obj K V)
    (ha : ∀ r, (a r).eq = (w.tab r).fns.eq ∧ (a r).al = (w.tab r).al ∧ Iterates c (w.tab r) (a r).elems)
    (hp : Spec.PreAll c.traits veq ops a) :
    ∃ s outs, Foa.run c veq ops w.tab = some (s, outs) ∧ List.Forall₂ Res.Agrees outs (Spec.run c.traits veq ops a).2 ∧
      ∀ r, ∃ l, Iterates c (s r) l ∧ l.Perm ((Spec.run c.traits veq ops a).1 r).elems := by
  have hrs : RS w.tab a := fun r => ⟨(h.inv hf).1 r, (ha r).1.symm, (ha r).2.1.symm, by
    have h1 := (ha r).2.2
    unfold Iterates at h1
    rw [opIterate_eq ((h.inv hf).1 r)] at h1
    rw [Res.list.inj (Option.some.inj h1)]⟩
  obtain ⟨s, outs, h1, h2, h3⟩ := run_refines c veq ops _ _ hrs hp
  exact ⟨s, outs, h1, h2, fun r => ⟨_, opIterate_eq (h3 r).inv c.regular, (h3 r).elems⟩⟩

/-- Whatever has happened before, no thread on a concurrent container comes to undefined behaviour, equivalent elements of one
concurrent container are one element in one slot, when nobody is inside `size()` is the number of elements, and every container
can be destroyed (a concurrent one when nobody is inside). -/
theorem C68_concurrent_sound (i : Nat) :
    (∀ t, (w.conc i).pc t ≠ .bad) ∧
    (∀ {g j g' j' x y}, (w.conc i).mem.slot g j = some x → (w.conc i).mem.slot g' j' = some y →
      (w.conc i).mem.tab.fns.eq x.1 y.1 = true → g = g' ∧ j = j') ∧
    ((∀ t, ¬ Busy (w.conc i) t) →
      (∃ L : List (K × V), L.Nodup ∧ (∀ x, x ∈ L ↔ Elems (w.conc i) x) ∧ sizeAnswer (w.conc i) = L.length) ∧
      (w.conc i).mem.tab.destroy = some ()) ∧
    ∀ r, (w.tab r).destroy = some () := by
  have hi := (h.inv hf).2 i
  refine ⟨fun t => pcOk_not_bad (hi.pcs t), fun hx hy he => (hi.shape.live hx).2.uniq _ _ _ _ _ _ hx hy he, fun hq => ⟨?_, ?_⟩,
    fun r => ((h.inv hf).1 r).delete_⟩
  · obtain ⟨L, h1, h2, h3, _⟩ := Props.ConcTable.size_quiet hi hq
    exact ⟨L, h1, h2, h3⟩
  · exact (hi.quiescent (fun u => by simpa [Busy] using hq u)).delete_

/-- Whatever has happened before, operations with a key on a concurrent container are linearizable: in every run of threads from
here each takes effect at one instant between call and return, as specified for single operations. -/
theorem C68_linearizable {i : Nat} {σ : Nat → State K V} {who : Nat → Nat} {n : Nat} (h0 : σ 0 = w.conc i)
    (hr : Run c.toCfg σ who n) {t : Nat} {o : KOp K V} {a b r : Nat} (he : Executes σ t (.key o) a b r) (hb : b ≤ n) :
    (∃ l, a ≤ l ∧ l < b ∧ who l = t ∧ Does (w.conc i).mem.tab.fns.eq o (Elems (σ l)) (Elems (σ (l + 1))) r ∧
      ∀ l', a ≤ l' → l' < b → who l' = t → l' ≠ l → Same (Elems (σ l')) (Elems (σ (l' + 1)))) ∨
    (∃ l, a ≤ l ∧ l ≤ b ∧ Does (w.conc i).mem.tab.fns.eq o (Elems (σ l)) (Elems (σ l)) r ∧
      ∀ l', a ≤ l' → l' < b → who l' = t → Same (Elems (σ l')) (Elems (σ (l' + 1)))) :=
  (Props.ConcTable.linearizable_of_inv (by rw [h0]; exact (h.inv hf).2 i) (by rw [h0]) hr he hb).imp_right And.right

end

/-! ### example: elements inserted sequentially, then concurrently, then seen by iteration -/

open Props.ConcTable (exF exF_lawful exInsert go)

def pairEq (a b : Nat × Nat) : Bool := a == b
def ops1 : List (Spec.Op Nat Nat) := [.insert 0 (1, 10), .insert 0 (2, 20)]
def start0 : Nat → Table Nat Nat := fun _ => Table.mk_ {} exF 0 0
/-- after two insertions -/
def tab1 : Nat → Table Nat Nat := ((Foa.run {} pairEq ops1 start0).map (·.1)).getD start0

theorem reach_run {c : MCfg} {veq : K × V → K × V → Bool} {f : Fns K} : ∀ (ops : List (Spec.Op K V)) {w : World K V},
    WReach c veq f w → (∀ op ∈ ops, ∀ a : Nat → Spec.Obj K V, Spec.Pre c.traits op a) →
    ∀ {s outs}, Foa.run c veq ops w.tab = some (s, outs) → WReach c veq f ⟨s, w.conc⟩ := by
  intro ops
  induction ops with
  | nil => intro w h _ s outs hr; cases hr; exact h
  | cons op ops ih =>
    intro w h hp s outs hr
    simp only [Foa.run] at hr
    cases hs : Foa.step c veq w.tab op with
    | none => rw [hs] at hr; cases hr
    | some q =>
      rw [hs] at hr
      have h1 := WReach.call op h (hp op (List.mem_cons_self ..) _) (s' := q.1) (o := q.2) hs
      simp only at hr
      cases hr2 : Foa.run c veq ops q.1 with
      | none => rw [hr2] at hr; cases hr
      | some q2 =>
        rw [hr2] at hr
        have h2 := ih h1 (fun o ho a => hp o (List.mem_cons_of_mem _ ho) a) (s := q2.1) (outs := q2.2) hr2
        cases hr
        exact h2

theorem reach_threads {c : MCfg} {veq : K × V → K × V → Bool} {f : Fns K} {i : Nat} {w : World K V} (h : WReach c veq f w) :
    ∀ (es : List (Ev K V)) {S S' : Sys K V}, w.conc i = S.state → S.run c.toCfg es = some S' →
    WReach c veq f ⟨w.tab, fun j => if j = i then S'.state else w.conc j⟩ := by
  intro es
  induction es generalizing w with
  | nil =>
    intro S S' h1 h2
    cases h2
    have : (fun j => if j = i then S.state else w.conc j) = w.conc := by
      funext j; by_cases hj : j = i
      · subst hj; simp only [if_true]; exact h1.symm
      · simp only [if_neg hj]
    rw [this]; exact h
  | cons e es ih =>
    intro S S' h1 h2
    simp only [Sys.run, List.foldlM_cons] at h2
    cases hs : S.step c.toCfg e with
    | none => rw [hs] at h2; cases h2
    | some S1 =>
      rw [hs] at h2
      replace h2 : S1.run c.toCfg es = some S' := h2
      have h3 := Sys.step_sound hs
      have h4 := WReach.thread (i := i) h (by rw [h1]; exact h3.1) (s' := S1.state) (by rw [h1]; exact ⟨_, h3.2⟩)
      have h5 := ih (w := ⟨w.tab, fun j => if j = i then S1.state else w.conc j⟩) h4 (S := S1) (S' := S') (by simp) h2
      have e : (fun j => if j = i then S'.state else (if j = i then S1.state else w.conc j)) =
          fun j => if j = i then S'.state else w.conc j := by
        funext j; by_cases hj : j = i <;> simp [hj]
      simp only [e] at h5
      exact h5

def conc0 : Nat → State Nat Nat := fun _ => init {} exF 0 0
/-- the concurrent container made from variable 0 -/
def sys2 : Sys Nat Nat := ⟨(toConc {} (tab1 0)).1, List.replicate 2 .idle⟩
/-- two threads: one inserts key 3, the other fails to insert key 2 -/
def evs : List (Ev Nat Nat) := .op 0 (.key (exInsert 3 30)) :: .op 1 (.key (exInsert 2 99)) :: (go 0 10 ++ go 1 23 ++ go 0 16)
def sys3 : Sys Nat Nat := (sys2.run {} evs).getD sys2

def w2 : World Nat Nat := ⟨Spec.upd tab1 0 (toConc {} (tab1 0)).2, fun j => if j = 0 then sys2.state else conc0 j⟩
def w3 : World Nat Nat := ⟨w2.tab, fun j => if j = 0 then sys3.state else w2.conc j⟩
def w4 : World Nat Nat := ⟨Spec.upd w3.tab 1 (toSeq {} (w3.conc 0).mem).1,
  fun j => if j = 0 then ⟨(toSeq {} (w3.conc 0).mem).2, (w3.conc 0).pc⟩ else w3.conc j⟩

theorem idle_replicate (m : Mem Nat Nat) (n : Nat) : (⟨m, List.replicate n .idle⟩ : Sys Nat Nat).state = ⟨m, fun _ => .idle⟩ := by
  simp only [Sys.state, State.mk.injEq, true_and]
  funext u
  simp only [Sys.pc, List.getD_eq_getElem?_getD, List.getElem?_replicate]
  split <;> rfl

set_option maxRecDepth 100000 in
theorem w2_reach : WReach {} pairEq exF w2 := by
  have h1 : (Foa.run {} pairEq ops1 start0).isSome = true := by decide +kernel
  obtain ⟨q, hq⟩ := Option.isSome_iff_exists.1 h1
  have ht : tab1 = q.1 := by rw [tab1, hq]; rfl
  have h0 : WReach {} pairEq exF ⟨start0, conc0⟩ := .start (c := {}) (fun _ => 0) (fun _ => 0)
  have h2 : WReach {} pairEq exF ⟨tab1, conc0⟩ := by
    rw [ht]
    refine reach_run ops1 h0 ?_ (outs := q.2) hq
    intro op hop a
    simp only [ops1, List.mem_cons, List.not_mem_nil, or_false] at hop
    rcases hop with rfl | rfl <;> trivial
  have h3 := WReach.toConc 0 0 h2 (fun t => .inl rfl)
  rw [w2, sys2, idle_replicate]
  exact h3

set_option maxRecDepth 100000 in
theorem w3_reach : WReach {} pairEq exF w3 := by
  have h1 : (sys2.run {} evs).isSome = true := by decide +kernel
  obtain ⟨S, hS⟩ := Option.isSome_iff_exists.1 h1
  have h := reach_threads (i := 0) w2_reach evs (S := sys2) (S' := S) rfl hS
  rw [w3, sys3, hS]
  exact h

/-- Everybody has returned. -/
def allDone (S : Sys Nat Nat) : Bool := S.pcs.all fun p => !p.inside

theorem allDone_quiet {S : Sys Nat Nat} (h : allDone S = true) : ∀ t, (S.state.pc t).inside = false := by
  intro t
  show ((S.pcs.getD t .idle)).inside = false
  rw [List.getD_eq_getElem?_getD]
  cases e : S.pcs[t]? with
  | none => rfl
  | some p =>
    have := (List.all_eq_true.1 h) p (List.mem_of_getElem? e)
    simpa using this

set_option maxRecDepth 100000 in
theorem w3_quiet : ∀ t, ((w3.conc 0).pc t).inside = false := allDone_quiet (by decide +kernel)

theorem w4_reach : WReach {} pairEq exF w4 := by
  refine WReach.toSeq 1 0 w3_reach w3_quiet ?_
  exact ((w3_reach.inv exF_lawful).1 1).delete_

/-- what iteration of variable `r` shows -/
def shown (w : World Nat Nat) (r : Nat) : Option (List Nat) :=
  match (w.tab r).opIterate true with
  | some (.list l) => some (l.map fun x => 100 * x.1 + x.2)
  | _ => none
def answersOf (S : Sys Nat Nat) : List (Option Nat) := S.pcs.map Pc.answer

set_option maxRecDepth 100000 in
/-- The world of the example is reachable; the conversion happened when nobody was inside; the two threads answered "inserted"
and "not inserted"; variable 1 now shows the three elements. -/
example : WReach {} pairEq exF w2 ∧ WReach {} pairEq exF w3 ∧ WReach {} pairEq exF w4 ∧ (∀ t, ¬ Busy (w3.conc 0) t) ∧
    answersOf sys3 = [some 1, some 0] ∧ shown w3 0 = some [] ∧ shown w4 1 = some [110, 220, 330] :=
  ⟨w2_reach, w3_reach, w4_reach, (fun t h => by rw [Busy, w3_quiet t] at h; cases h), by decide +kernel, by decide +kernel,
    by decide +kernel⟩

set_option maxRecDepth 100000 in
/-- A run from the concurrent container in which an insertion is executed. -/
example : ∃ who : Nat → Nat, Run {} (sys2.trace {} evs) who evs.length ∧ sys2.trace {} evs 0 = w2.conc 0 ∧
    Executes (sys2.trace {} evs) 1 (.key (exInsert 2 99)) 2 35 0 := by
  refine ⟨_, Props.ConcTable.ran (by decide +kernel), rfl, ⟨by decide, ?_, ?_, ?_⟩⟩
  · rfl
  · exact (Props.ConcTable.answers (r := some 0) (by decide +kernel)).1 0 rfl
  · intro i h1 h2
    have h : ∀ i < 35, 2 ≤ i → ((sys2.trace {} evs i).pc 1).answer = none := by decide +kernel
    exact (Props.ConcTable.answers (h i h2 h1)).2 rfl

end Props.ConcInterop

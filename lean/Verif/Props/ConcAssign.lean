/-
Assignment of an initializer list to a concurrent container (part of C42).
-/
import Verif.Conc.AssignList
import Verif.Props.ConcTable

namespace Props.ConcAssign
open Conc.Tab Conc.AssignList Foa SpecT
open Props.ConcTable (Elems Busy Returned exF exF_lawful exEnd exEnd_reach)

variable {K V : Type}

/-- What `c=il` has to leave: of every class of equivalent elements of the list the first one, nothing else. -/
def Firsts (eq : K → K → Bool) (l : List (K × V)) : Con K V :=
  fun x => ∃ l1 l2, l = l1 ++ x :: l2 ∧ ∀ y ∈ l1, eq x.1 y.1 = false

/-- Whenever no thread is inside (the exclusive lock is held), whatever happened before, `c=il` completes without undefined
behaviour, the contents are then the first elements of the list with each key, and the other threads find a container in
a state they could have found without the assignment: all that is proved of reachable states goes on to hold. The insertion
counters are kept or new. -/
theorem C42_assign_list {cfg : Cfg} {f : Fns K} (hf : f.Lawful) {al c : Nat} {s : State K V} (h : Reach cfg f al c s) {t : Nat}
    (hn : ∀ u, ¬ Busy s u) (ht : s.pc t = .idle ∨ ∃ r, Returned s t r) (l : List (K × V)) :
    ∃ t', assignList cfg s.mem.tab l = some t' ∧
      ∀ cnt, (cnt = s.mem.cnt ∨ cnt = fun _ => 0) → ∃ r,
        Reach cfg f al c (s.set t ⟨t', cnt⟩ (.done r)) ∧
          ∀ x, Elems (s.set t ⟨t', cnt⟩ (.done r)) x ↔ Firsts f.eq l x := by
  have hr : Rest s t := ⟨fun u => by have := hn u; rw [Busy] at this; simpa using this, ht⟩
  have hinv : s.mem.tab.Inv := (h.inv hf).quiescent hr.out
  obtain ⟨t', h1, h2, h3, h4, h5⟩ := assignList_spec cfg hinv l
  obtain ⟨es, he⟩ := assignList_runs cfg hinv l
  refine ⟨t', h1, fun cnt hc => ?_⟩
  rw [h1] at he
  obtain ⟨g1, g2⟩ := reach_one h hr (e := .clear) (t' := s.mem.tab.clear) (r := 0) rfl hc
  obtain ⟨r, g3⟩ := reach_runs es g1 g2 (t' := t') (r0 := 0) (by simp [State.set]) he.symm
  rw [set_set] at g3
  refine ⟨r, g3, fun x => ?_⟩
  have := h5 x
  rw [h.fns hf] at this
  exact Iff.trans (mem_elems (m := ⟨t', cnt⟩) h2) this

/-- Afterwards the size is at most the length of the list and within the maximum load. -/
theorem C42_assign_list_size {cfg : Cfg} {f : Fns K} (hf : f.Lawful) {al c : Nat} {s : State K V} (h : Reach cfg f al c s)
    (hn : ∀ u, ¬ Busy s u) (l : List (K × V)) {t' : Table K V} (ha : assignList cfg s.mem.tab l = some t') :
    t'.size ≤ l.length ∧ t'.size ≤ t'.ml := by
  have hinv : s.mem.tab.Inv := (h.inv hf).quiescent fun u => by have := hn u; rw [Busy] at this; simpa using this
  obtain ⟨t1, h1, h2, h3, h4, h5⟩ := assignList_spec cfg hinv l
  rw [ha] at h1
  cases h1
  refine ⟨?_, h2.size_le⟩
  rw [h2.size]
  have hnd : t'.contents.Nodup := (contents_pairwise h2).imp fun {a b} hab he => by
    subst he
    have := h2.law.refl a.1
    rw [hab] at this; cases this
  have hsub : t'.contents ⊆ l := fun x hx => by
    obtain ⟨l1, l2, rfl, _⟩ := (h5 x).1 hx
    simp
  exact (List.Nodup.subperm hnd hsub).length_le

theorem rest_of_all {S : Sys K V} (h : (S.pcs.all fun p => !p.inside) = true) (u : Nat) : ¬ Busy S.state u := by
  intro hu
  change (S.pcs.getD u .idle).inside = true at hu
  rw [List.getD_eq_getElem?_getD] at hu
  cases e : S.pcs[u]? with
  | none => rw [e] at hu; cases hu
  | some p =>
    rw [e] at hu
    have := List.all_eq_true.1 h p (List.mem_of_getElem? e)
    simp only [Option.getD_some] at hu
    rw [hu] at this; cases this

set_option maxRecDepth 100000 in
/-- After the race of `C42_linearizable` (one element inserted) no thread is inside and the first has returned. -/
example : Reach {} exF 0 20 exEnd.state ∧ (∀ u, ¬ Busy exEnd.state u) ∧ (∃ r, Returned exEnd.state 0 r) ∧
    exEnd.state.mem.tab.contents = [(1, 20)] ∧
    (assignList {} exEnd.state.mem.tab [(2, 5), (1, 7), (2, 6)]).map (fun t => (t.contents.length, t.size)) = some (2, 2) ∧
    Firsts exF.eq [(2, 5), (1, 7), (2, 6)] (1, 7) := by
  refine ⟨exEnd_reach, rest_of_all (by decide +kernel), ?_, by decide +kernel, by decide +kernel, [(2, 5)], [(2, 6)], rfl, ?_⟩
  · have h : ((exEnd.state.pc 0).answer).isSome = true := by decide +kernel
    obtain ⟨r, hr⟩ := Option.isSome_iff_exists.1 h
    refine ⟨r, ?_⟩
    show exEnd.state.pc 0 = .done r
    cases hp : exEnd.state.pc 0 with
    | done q => rw [hp] at hr; exact congrArg _ (Option.some.inj hr)
    | _ => rw [hp] at hr; cases hr
  · simp [exF]

end Props.ConcAssign

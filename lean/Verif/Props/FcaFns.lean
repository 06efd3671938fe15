/-
Property theorems C35: the hash/equality pair of a closed-addressing container is replaced atomically.
-/
import Verif.Fca.FunctionsInv

namespace Props.Fns
open Fca.Fun
open SpecFn (Op)
variable {F : Type}

/-- no objects yet -/
def noVars : Vars F := fun _ => none

theorem start_rs : RS (noVars : Vars F) (fun _ => none) := fun _ => rfl

theorem start_count (N : Nat) : (({ left := 0 } : Env F)).live = count (noVars : Vars F) N := by
  unfold count noVars
  induction N with
  | zero => rfl
  | succ N ih => rw [List.range_succ]; simpa using ih

/-- C35. Every program that constructs, copies, moves, assigns, swaps, uses and destroys closed-addressing containers, with any
of its throw points (copying function objects, or anything the containers do with elements and memory) striking, runs without
undefined behaviour and without failing an assertion. Each call behaves like the specification `SpecFn`, in which a container has
one pair of functions: the call replaces it as a whole or (if it throws) not at all, and it never uses the old pair after the new
one. Afterwards each container's `hash_function()`/`key_eq()` give the abstract pair, exactly one of its two buffers holds a
constructed pair, and the number of constructed pairs is the number of containers. -/
theorem C35_functions_replaced_atomically (c : Cfg F) (ops : List (Op F × Nat))
    (N : Nat) (hN : ∀ op ∈ ops, ∀ i ∈ op.1.vars, i < N) :
    ∃ s e out a, run c ops noVars { left := 0 } = some (s, e, out) ∧ out.map Prod.fst = ops.map Prod.fst ∧
      SpecFn.Run c.mv (fun _ => none) out a ∧
      (∀ r, a r = none → s r = none) ∧
      (∀ r f, a r = some f → ∃ x, s r = some x ∧ x.current = some f ∧
        ∃ i j, i < 2 ∧ j < 2 ∧ x.slot i = some f ∧ x.slot j = none) ∧
      e.live = ((List.range N).filter (fun i => (a i).isSome)).length := by
  obtain ⟨s, e, out, a, h1, h2, h3, h4, h5⟩ := run_refines c N ops noVars _ { left := 0 } start_rs hN (start_count N)
  refine ⟨s, e, out, a, h1, h2, h3, fun r hr => ?_, fun r f hr => ?_, ?_⟩
  · have := h4 r; rw [hr] at this; exact this
  · have := h4 r; rw [hr] at this
    obtain ⟨x, k1, k2⟩ := this
    refine ⟨x, k1, k2.current, x.cur, 1 - x.cur, ?_, by omega, k2.here, k2.there⟩
    rcases k2.cur with hc | hc <;> omega
  · rw [h5]
    have hs : ∀ i, (s i).isSome = (a i).isSome := by
      intro i
      have := h4 i
      cases ha : a i with
      | none => rw [ha] at this; rw [show s i = none from this]; rfl
      | some f => rw [ha] at this; obtain ⟨x, k1, _⟩ := this; rw [k1]; rfl
    unfold count
    clear h1 h2 h3 h5
    have : ∀ l : List Nat, (l.map (fun i => if (s i).isSome then (1 : Int) else 0)).sum =
        ((l.filter (fun i => (a i).isSome)).length : Int) := by
      intro l
      induction l with
      | nil => rfl
      | cons i l ih =>
        simp only [List.map_cons, List.sum_cons, List.filter_cons, ih, hs i]
        cases (a i).isSome
        · simp
        · simp; omega
    exact this _

/-! #### The hypotheses are met -/

/-- two containers with pairs 7 and 8; a copy assignment that throws while making room, one that throws while copying, one
that succeeds; a swap whose second copy throws, one that succeeds; move operations; destruction -/
def sample : List (Op Nat × Nat) :=
  [(.construct 0 7 2, 9), (.construct 1 8 3, 9), (.copyAssign 0 1 false 5 4, 3), (.copyAssign 0 1 false 5 4, 8),
   (.construct 2 9 0, 9), (.swap 0 2, 1), (.swap 0 2, 2), (.moveAssign 1 0 false 0 0, 9), (.moveAssign 1 2 true 1 1, 9),
   (.copyConstruct 3 0 2, 1), (.copyConstruct 3 0 2, 9), (.use 3 2, 1), (.destroy 3, 0), (.destroy 2, 0), (.destroy 1, 0)]

set_option maxRecDepth 100000 in
/-- what becomes of the calls: which return, which throw (`none`: not made), how many uses they make of which pairs; and the
number of constructed pairs at the end, one container being left -/
example : (run ⟨false, true, false, fun _ => 0⟩ sample noVars { left := 0 }).map (fun r =>
    (r.2.2.map (fun x => match x.2 with | .returned tr => some (true, tr) | .threw tr => some (false, tr) | .skipped => none),
      r.2.1.live, (r.1 0).bind Fns2.current)) =
    some ([some (true, [7, 7]), some (true, [8, 8, 8]), some (false, [7, 7, 7]), some (false, [7, 7, 7, 7, 7, 8, 8, 8]),
      some (true, []), some (false, []), some (true, []), some (true, []), some (true, [9, 8]), some (false, [9]),
      some (true, [9, 9]), some (false, [9, 9]), some (true, []), some (true, []), some (true, [])], 1, some 9) := by
  decide +kernel

/-- C35, spelled out for one copy assignment that throws: the functions of `r` are those it had or those of `q`, whole. -/
theorem C35_copy_assign_throws {s x : Fns2 F} {g f : F} (h : Holds s g) (hx : Holds x f) (m n : Nat) (e e' : Env F)
    (s' : Fns2 F) (ht : assignSame s x m n e = .threw e' s') : (Holds s' g ∨ Holds s' f) ∧ e'.live = e.live := by
  have := assignSame_sat h hx m n e
  rw [ht] at this
  obtain ⟨h1, h2⟩ := this
  refine ⟨?_, h1⟩
  rcases h2 with h2 | h2
  · exact Or.inl h2.1
  · exact Or.inr h2.1

end Props.Fns

/-
Property theorems C25: exceptions in the open-addressing containers.
-/
import Verif.Props.FoaMap
import Verif.Foa.ExcRefine

namespace Props.Exc
open Foa
open Spec (Op Res Outcome)
variable {K V : Type}

/-- A container that some program whose calls may be left by exceptions can produce. `may` says what can throw, `mv` whether
growing moves elements (instead of copying them); each call comes with the number of may-throw calls that succeed in it. -/
def XReachable (may : Call → Bool) (mv : Bool) (c : MCfg) (t : Table K V) : Prop :=
  ∃ (veq : K × V → K × V → Bool) (h : K → Nat) (eq : K → K → Bool) (ops : List (Op K V × Nat)) (N : Nat)
    (s : Nat → Table K V) (e : Env) (out : List (Op K V × Outcome K V)) (r : Nat),
    Spec.Lawful h eq ∧ Spec.XPreAll c.traits veq (strong may mv) (may .alloc) (ops.map Prod.fst) (Spec.start eq) ∧
    (∀ op ∈ ops, ∀ i ∈ op.1.vars, i < N) ∧
    xrun may mv c veq ops (Foa.start c h eq) (startEnv c N) = some (s, e, out) ∧ t = s r

theorem XReachable.inv {may : Call → Bool} {mv : Bool} {c : MCfg} {t : Table K V} (h : XReachable may mv c t) : t.Inv := by
  obtain ⟨veq, hs, eq, ops, N, s, e, out, r, h1, h2, h3, h4, rfl⟩ := h
  obtain ⟨s', e', out', a, k1, _, _, k4, _⟩ := xrun_refines may mv c veq N ops _ _ (startEnv c N) (start_related c h1) h2 h3
    (start_ledger c hs eq N)
  rw [h4] at k1; cases k1
  exact (k4 r).inv

/-! ### C25 -/

/-- C25 (programs). Every program whose calls may be left by exceptions thrown by hashing, comparing, allocating,
constructing, moving/copying elements, user predicates or copying of function objects, at any throw point, runs without
undefined behaviour. Every call either answers like the abstract map, or throws and leaves what `Spec.Thrown` allows; in the
end every variable iterates over the elements of its abstract counterpart and reports their number. -/
theorem C25_programs_with_exceptions_partial (may : Call → Bool) (mv : Bool) (c : MCfg) (veq : K × V → K × V → Bool) (h : K → Nat)
    (eq : K → K → Bool) (hl : Spec.Lawful h eq) (ops : List (Op K V × Nat))
    (hp : Spec.XPreAll c.traits veq (strong may mv) (may .alloc) (ops.map Prod.fst) (Spec.start eq)) (N : Nat)
    (hN : ∀ op ∈ ops, ∀ i ∈ op.1.vars, i < N) :
    ∃ s e out a, xrun may mv c veq ops (Foa.start c h eq) (startEnv c N) = some (s, e, out) ∧
      out.map Prod.fst = ops.map Prod.fst ∧
      Spec.XRun c.traits veq (strong may mv) (Spec.start eq) out a ∧
      ∀ r, (s r).size = (a r).elems.length ∧ ∃ l, Iterates c (s r) l ∧ l.Perm (a r).elems := by
  obtain ⟨s, e, out, a, h1, h2, h3, h4, _⟩ := xrun_refines may mv c veq N ops _ _ (startEnv c N) (start_related c hl) hp hN
    (start_ledger c h eq N)
  refine ⟨s, e, out, a, h1, h2, h3, fun r => ⟨?_, _, opIterate_eq (h4 r).inv c.regular, (h4 r).elems⟩⟩
  rw [(h4 r).inv.size]; exact (h4 r).elems.length_eq

/-- C25 (no leak, no double free). After any such program, destroying the containers succeeds, all array blocks have been
freed and all element objects have been destroyed, exactly once. -/
theorem C25_no_leak_partial (may : Call → Bool) (mv : Bool) (c : MCfg) (veq : K × V → K × V → Bool) (h : K → Nat)
    (eq : K → K → Bool) (hl : Spec.Lawful h eq) (ops : List (Op K V × Nat))
    (hp : Spec.XPreAll c.traits veq (strong may mv) (may .alloc) (ops.map Prod.fst) (Spec.start eq)) (N : Nat)
    (hN : ∀ op ∈ ops, ∀ i ∈ op.1.vars, i < N) :
    ∃ s e out e', xrun may mv c veq ops (Foa.start c h eq) (startEnv c N) = some (s, e, out) ∧
      destroyAll s N e = some e' ∧ e'.blocks = 0 ∧ e'.elems = 0 := by
  obtain ⟨s, e, out, a, h1, h2, h3, h4, h5⟩ := xrun_refines may mv c veq N ops _ _ (startEnv c N) (start_related c hl) hp hN
    (start_ledger c h eq N)
  obtain ⟨e', k1, k2, k3⟩ := destroyAll_eq (fun i => (h4 i).inv) N e h5
  exact ⟨s, e, out, e', h1, k1, k2, k3⟩

/-- C25 (single insertion). In every container reachable with exceptions: if inserting one element throws, then iteration
shows a part of the previous elements, `size()` is their number, every element shown is found, and the ledgers of blocks and
element objects have moved exactly as the container's holdings. If the container was not full, or growing copies elements, or
hashing and moving do not throw, iteration shows exactly the same sequence as before (strong guarantee). -/
theorem C25_insert_throws (may : Call → Bool) (mv : Bool) (c : MCfg) {t : Table K V} (hr : XReachable may mv c t)
    (x : K × V) (e e' : Env) (t' : Table K V) (hx : t.emplaceImplX may mv c.toCfg x e = .threw e' t') {l : List (K × V)}
    (hl : Iterates c t l) :
    ∃ l' lost, Iterates c t' l' ∧ l.Perm (lost ++ l') ∧ t'.size = l'.length ∧
      (∀ y ∈ l', t'.lookup y.1 = some (some y)) ∧
      e'.elems - e.elems = (l'.length : Int) - l.length ∧ e'.blocks = e.blocks ∧
      ((t.size < t.ml ∨ mv = false ∨ may .hash = false ∧ may .transfer = false) → l' = l) := by
  have hs := emplaceImplX_sat may mv c.toCfg hr.inv x e
  rw [hx] at hs
  obtain ⟨h1, h2, h3⟩ := hs
  have hl' : l = t.contents := by
    unfold Iterates at hl; rw [opIterate_eq hr.inv] at hl; cases hl; rfl
  subst hl'
  obtain ⟨lost, h4⟩ := h1.sub
  refine ⟨t'.contents, lost, opIterate_eq h1.inv c.regular, h4, h1.inv.size, ?_, ?_, ?_, h3⟩
  · intro y hy
    have hR : R t' ⟨t'.fns.eq, t'.al, t'.contents⟩ := ⟨h1.inv, rfl, rfl, List.Perm.refl _⟩
    rw [hR.lookup, hR.lookup_some hy (h1.inv.law.refl _)]
  · have := h2.elems
    rw [hr.inv.size, h1.inv.size] at this
    omega
  · have := h2.blocks
    unfold owned at this
    rw [h1.has] at this
    omega

/-! #### The hypotheses are met: a program in which exceptions strike -/

/-- everything can throw except that copying function objects does not -/
def all (k : Call) : Bool := !(k == .fnCopy)

/-- 29 insertions (the container is then full); insertions that throw while hashing, comparing, allocating; a growing insertion
in which the transfer throws half-way and loses elements; a successful one; a copy assignment that throws, one that succeeds;
an `erase_if` whose predicate throws; a clean-up. -/
def xsample : List (Op Nat Nat × Nat) :=
  [(.insertRange 0 ((List.range 29).map (fun i => (i, 10 * i))), 1000), (.insert 0 (50, 1), 0), (.insert 0 (50, 1), 9),
   (.insert 0 (50, 1), 12), (.insert 0 (51, 1), 40), (.insert 0 (52, 1), 1000), (.copyAssign 1 0, 5), (.copyAssign 1 0, 1000),
   (.insert 1 (60, 7), 100), (.eraseIf 1 (fun x => x.1 % 2 == 0), 5), (.clear 0, 0)]

theorem xpre_trivial {tr : Spec.Traits} {veq : Nat × Nat → Nat × Nat → Bool} {st al : Bool} : ∀ (ops : List (Op Nat Nat)),
    (∀ op ∈ ops, ∀ a, Spec.XPre tr al op a) → ∀ a, Spec.XPreAll tr veq st al ops a := by
  intro ops
  induction ops with
  | nil => intro _ a; trivial
  | cons o os ih =>
    intro h a
    exact ⟨h o (by simp) a, ih (fun p hp => h p (by simp [hp])) _, fun b _ => ih (fun p hp => h p (by simp [hp])) b⟩

theorem xsample_pre (st al : Bool) : Spec.XPreAll (MCfg.traits {}) pairEq st al (xsample.map Prod.fst) (Spec.start natEq) := by
  apply xpre_trivial
  intro op hop a
  simp only [xsample, List.map_cons, List.map_nil, List.mem_cons, List.not_mem_nil, or_false] at hop
  refine ⟨?_, ?_⟩
  · rcases hop with rfl | rfl | rfl | rfl | rfl | rfl | rfl | rfl | rfl | rfl | rfl <;> trivial
  · rintro r q rfl
    simp at hop

example : Spec.Lawful sampleHash natEq ∧ (∀ op ∈ xsample, ∀ i ∈ op.1.vars, i < 2) ∧
    Spec.XPreAll (MCfg.traits {}) pairEq (strong all true) (all .alloc) (xsample.map Prod.fst) (Spec.start natEq) :=
  ⟨sample_lawful, by decide, xsample_pre _ _⟩

/-- did the call return? -/
def returned : Outcome Nat Nat → Bool
  | .ok _ => true
  | .exc => false

set_option maxRecDepth 100000 in
/-- its outcomes, and the ledgers before and after destruction -/
example : (xrun all true {} pairEq xsample (Foa.start {} sampleHash natEq) (startEnv {} 2)).map (fun r =>
    (r.2.2.map (fun x => returned x.2), (r.1 0).size, (r.1 1).size, r.2.1, (destroyAll r.1 2 r.2.1).map Env.elems)) =
    some ([true, false, false, false, false, true, false, true, true, false, true], 0, 14,
      { left := 0, blocks := 2, elems := 14 }, some 0) := by
  decide +kernel

set_option maxRecDepth 100000 in
/-- an insertion into a reachable full container that throws after losing 14 of 29 elements -/
example : ∃ t t' e e', XReachable all true {} t ∧ t.emplaceImplX all true ({} : MCfg).toCfg (51, 1) e = .threw e' t' ∧
    t.size = 29 ∧ t'.size = 15 := by
  have h : ((xrun all true {} pairEq (xsample.take 4) (Foa.start {} sampleHash natEq) (startEnv {} 2)).map (fun r =>
      match (r.1 0).emplaceImplX all true ({} : MCfg).toCfg (51, 1) { left := 40 } with
      | .threw _ t' => ((r.1 0).size, t'.size)
      | _ => (0, 0))) = some (29, 15) := by decide +kernel
  cases hr : xrun all true {} pairEq (xsample.take 4) (Foa.start {} sampleHash natEq) (startEnv {} 2) with
  | none => rw [hr] at h; cases h
  | some y =>
    rw [hr] at h
    simp only [Option.map_some, Option.some.injEq] at h
    split at h
    · rename_i e' t' hx
      obtain ⟨h1, h2⟩ := Prod.mk.inj h
      refine ⟨y.1 0, t', { left := 40 }, e', ?_, hx, h1, h2⟩
      refine ⟨pairEq, sampleHash, natEq, xsample.take 4, 2, y.1, y.2.1, y.2.2, 0, sample_lawful, ?_, by decide, hr, rfl⟩
      apply xpre_trivial
      intro op hop a
      simp only [xsample, List.take, List.map_cons, List.map_nil, List.mem_cons, List.not_mem_nil, or_false] at hop
      refine ⟨?_, ?_⟩
      · rcases hop with rfl | rfl | rfl | rfl <;> trivial
      · rintro r q rfl
        simp at hop
    · cases h

/-! #### Where the library does not keep the guarantee -/

/-- only allocation throws -/
def allocOnly (k : Call) : Bool := k == .alloc

def otherHash (k : Nat) : Nat := k % 2 * 2 ^ 62

/-- two containers with different hash functions and different allocators; move assignment with the first allocation
failing; lookups in the source -/
def moveBug : List (Op Nat Nat × Nat) :=
  [(.construct 0 otherHash natEq 0 0, 100), (.construct 1 sampleHash natEq 1 0, 100),
   (.insertRange 1 ((List.range 60).map (fun i => (i, 10 * i))), 100), (.moveAssign 0 1, 0)]

set_option maxRecDepth 100000 in
/-- The exclusion in `Spec.XPre` is necessary: if the allocation inside a move assignment between containers with different
non-propagating allocators throws, the source keeps its elements but not its hash function (core.hpp:1647-1676 swaps the
function objects first and starts clearing the source only afterwards): iteration shows an element that `find` does not
find. -/
theorem C25_move_assign_corrupts_source :
    (∀ op ∈ moveBug.map Prod.fst, ∀ a, Spec.Pre (MCfg.traits {}) op a) ∧
    ∃ s e out x l, xrun allocOnly true {} pairEq moveBug (Foa.start {} sampleHash natEq) (startEnv {} 2) = some (s, e, out) ∧
      Iterates {} (s 1) l ∧ x ∈ l ∧ (s 1).lookup x.1 = some none := by
  refine ⟨?_, ?_⟩
  · intro op hop a
    simp only [moveBug, List.map_cons, List.map_nil, List.mem_cons, List.not_mem_nil, or_false] at hop
    rcases hop with rfl | rfl | rfl | rfl
    · refine ⟨?_, ?_, ?_, ?_, ?_⟩
      · intro k; unfold otherHash; omega
      · intro k; simp [natEq]
      · intro a b; simp [natEq]; intro h; exact h.symm
      · intro a b c; simp [natEq]; intro h1 h2; exact h1.trans h2
      · intro a b; simp [natEq]; rintro rfl; rfl
    · exact sample_lawful
    · trivial
    · trivial
  · have h : ((xrun allocOnly true {} pairEq moveBug (Foa.start {} sampleHash natEq) (startEnv {} 2)).map (fun r =>
      match (r.1 1).opIterate ({} : MCfg).regular with
      | some (.list l) => decide ((5, 50) ∈ l) && decide ((r.1 1).lookup 5 = some none)
      | _ => false)) = some true := by decide +kernel
    cases hr : xrun allocOnly true {} pairEq moveBug (Foa.start {} sampleHash natEq) (startEnv {} 2) with
    | none => rw [hr] at h; cases h
    | some y =>
      rw [hr] at h
      simp only [Option.map_some, Option.some.injEq] at h
      split at h
      · rename_i l hl
        simp only [Bool.and_eq_true, decide_eq_true_eq] at h
        exact ⟨y.1, y.2.1, y.2.2, (5, 50), l, rfl, hl, h.1, h.2⟩
      · cases h

/-- merging a container into a full one when allocation fails -/
def mergeBug : List (Op Nat Nat × Nat) :=
  [(.insertRange 0 ((List.range 29).map (fun i => (i, 10 * i))), 100), (.insert 1 (77, 7), 100), (.merge 0 1, 0)]

set_option maxRecDepth 100000 in
set_option synthInstance.maxSize 100000 in
/-- `merge` is not strong even when nothing but allocation throws: the element being merged is destroyed, and is then in
neither container (table.hpp:523-531: the guard erases it from the source also when the insertion throws). -/
theorem C25_merge_loses_element :
    (xrun allocOnly true {} pairEq mergeBug (Foa.start {} sampleHash natEq) (startEnv {} 2)).map (fun r =>
      (r.2.2.map (fun x => returned x.2), (r.1 0).size, (r.1 1).size, (r.1 0).lookup 77, (r.1 1).lookup 77)) =
    some ([true, true, false], 29, 0, some none, some none) := by
  decide +kernel

end Props.Exc

/-
Property theorems C26: exceptions in the closed-addressing containers.
-/
import Verif.Props.FcaMap
import Verif.Fca.ExcRefine

namespace Props.ClosedExc
open Fca
open Spec (Res Traits)
open SpecC (Op LOp)
open Props (sampleHash natEq pairEq sample_lawful)
open Props.Closed (Easy EasyL Plain multi uniq start_plain easy_safe step_plain lstep_plain insertsAll_plain Good)
variable {K V : Type}

/-- A container that some program whose calls may be left by exceptions can produce. `may` says what can throw; each call comes
with the number of may-throw calls that succeed in it, and with a flag whether its insertion makes the node first. -/
def XReachable (may : Call → Bool) (c : MCfg K V) (t : Table K V) : Prop :=
  ∃ (h : K → Nat) (eq : K → K → Bool) (ops : List (Op K V × Nat × Bool)) (N : Nat) (s : Nat → Table K V) (e : Env)
    (out : List (Op K V × Option (Res K V))) (r : Nat),
    Spec.Lawful h eq ∧ SpecC.XSafe c.u c.tr c.veq (safe may) (ops.map Prod.fst) (SpecC.start eq) ∧
    (∀ op ∈ ops, ∀ i ∈ op.1.vars, i < N) ∧ xrun may c ops (Fca.start h eq) { left := 0 } = some (s, e, out) ∧ t = s r ∧
    ∀ a, SpecC.XRun c.u c.tr c.veq (safe may) (SpecC.start eq) out a → (a r).defined = true

theorem XReachable.good {may : Call → Bool} {c : MCfg K V} {t : Table K V} (h : XReachable may c t) : Good c.u t := by
  obtain ⟨hf, eq, ops, N, s, e, out, r, h1, h2, h3, h4, rfl, h6⟩ := h
  obtain ⟨s', e', out', a, k1, _, k3, k4, _⟩ := xrun_refines may c N ops _ _ { left := 0 } (start_rs c.u h1) h2 h3
    (start_ledger hf eq N)
  rw [h4] at k1; cases k1
  exact ⟨(k4 r).inv, (k4 r).law, (k4 r).shape (h6 _ k3)⟩

/-! ### C26 -/

/-- C26 (programs). Every program over closed-addressing containers whose calls may be left by exceptions thrown by hashing,
comparing, allocating, constructing elements, user predicates or the copying of function objects, at any throw point, runs
without undefined behaviour. Every call either answers like the abstract container or throws and leaves what
`SpecC.Thrown` allows; in the end every variable (not moved from one by one) iterates over the elements of its abstract
counterpart and reports their number. -/
theorem C26_programs_with_exceptions (may : Call → Bool) (c : MCfg K V) (h : K → Nat) (eq : K → K → Bool)
    (hl : Spec.Lawful h eq) (ops : List (Op K V × Nat × Bool))
    (hp : SpecC.XSafe c.u c.tr c.veq (safe may) (ops.map Prod.fst) (SpecC.start eq)) (N : Nat)
    (hN : ∀ op ∈ ops, ∀ i ∈ op.1.vars, i < N) :
    ∃ s e out a, xrun may c ops (Fca.start h eq) { left := 0 } = some (s, e, out) ∧
      out.map Prod.fst = ops.map Prod.fst ∧ SpecC.XRun c.u c.tr c.veq (safe may) (SpecC.start eq) out a ∧
      ∀ r, (a r).defined = true → ∃ l, (s r).iterate = some l ∧ l.Perm (a r).elems ∧ (s r).size = (a r).elems.length := by
  obtain ⟨s, e, out, a, h1, h2, h3, h4, _⟩ := xrun_refines may c N ops _ _ { left := 0 } (start_rs c.u hl) hp hN
    (start_ledger h eq N)
  refine ⟨s, e, out, a, h1, h2, h3, fun r hd => ?_⟩
  obtain ⟨l, e1, e2, _, _⟩ := iterate_spec (h4 r).inv
  exact ⟨l, e1, e2.trans ((h4 r).elems hd), (h4 r).size hd⟩

/-- C26 (no leak, no double free). After any such program, destroying the containers succeeds, and then all bucket and group
arrays have been freed and all nodes destroyed: none is leaked and none is freed twice. -/
theorem C26_no_leak (may : Call → Bool) (c : MCfg K V) (h : K → Nat) (eq : K → K → Bool)
    (hl : Spec.Lawful h eq) (ops : List (Op K V × Nat × Bool))
    (hp : SpecC.XSafe c.u c.tr c.veq (safe may) (ops.map Prod.fst) (SpecC.start eq)) (N : Nat)
    (hN : ∀ op ∈ ops, ∀ i ∈ op.1.vars, i < N) :
    ∃ s e out e', xrun may c ops (Fca.start h eq) { left := 0 } = some (s, e, out) ∧
      destroyAll s N e = some e' ∧ e'.blocks = 0 ∧ e'.nodes = 0 := by
  obtain ⟨s, e, out, a, h1, h2, h3, h4, h5⟩ := xrun_refines may c N ops _ _ { left := 0 } (start_rs c.u hl) hp hN
    (start_ledger h eq N)
  obtain ⟨e', k1, k2, k3⟩ := destroyAll_eq (fun i => (h4 i).inv) N e h5
  exact ⟨s, e, out, e', h1, k1, k2, k3⟩

/-- the container is usable: iteration shows `l`, `size()` is its length, and `find` and `equal_range` find every element
of it -/
structure Usable (u : Bool) (t : Table K V) (l : List (K × V)) : Prop where
  iterates : t.iterate = some l
  size : t.size = l.length
  found : ∀ y ∈ l, ∃ z, t.lstep u (.find y.1) = some (t, .elem (some z)) ∧ t.fns.eq y.1 z.1 = true ∧ z ∈ l
  range : ∀ y ∈ l, ∃ g, t.lstep u (.equalRange y.1) = some (t, .list g) ∧ y ∈ g ∧ ∀ z ∈ g, z ∈ l

theorem usable {u : Bool} {t : Table K V} (h : Good u t) : ∃ l, Usable u t l ∧ l.Perm t.contents := by
  obtain ⟨l, e1, e2, e3, _⟩ := iterate_spec h.inv
  refine ⟨l, ⟨e1, e3.symm, ?_, ?_⟩, e2⟩
  · intro y hy
    obtain ⟨t', res, o', h1, h2, _⟩ := lstep_refines h.r (.find y.1) rfl
    have ht : t' = t := by
      simp only [Table.lstep, Table.opFind] at h1
      exact map_fst h1
    subst ht
    obtain ⟨_, h2⟩ := h2
    rcases h2 with ⟨z, ⟨h3, h4⟩, rfl⟩ | ⟨h3, rfl⟩
    · exact ⟨z, h1, h4, e2.symm.subset h3⟩
    · have := h3 y (e2.subset hy)
      dsimp only at this
      rw [h.law.refl] at this; cases this
  · intro y hy
    obtain ⟨t', res, o', h1, h2, _⟩ := lstep_refines h.r (.equalRange y.1) rfl
    have ht : t' = t := by
      simp only [Table.lstep] at h1
      exact map_fst h1
    subst ht
    obtain ⟨_, g, rfl, h3⟩ := h2
    refine ⟨g, h1, h3.symm.subset (List.mem_filter.mpr ⟨e2.subset hy, h.law.refl _⟩), fun z hz => ?_⟩
    exact e2.symm.subset (List.mem_filter.mp (h3.subset hz)).1

theorem thrown_defined {u sf : Bool} {o o' : SpecC.Obj K V} {op : LOp K V} (h : SpecC.LThrown u sf o op o') :
    o'.defined = o.defined ∧ o'.al = o.al := by
  cases op <;> simp only [SpecC.LThrown] at h
  case insertRange =>
    obtain ⟨_, _, _, _, _, _, h1, _, rfl⟩ := h
    obtain ⟨x, y⟩ := insertsAll_plain h1
    exact ⟨x, y⟩
  case erase =>
    split at h
    · subst h; exact ⟨rfl, rfl⟩
    · obtain ⟨_, _, _, _, rfl⟩ := h; exact ⟨rfl, rfl⟩
  case eraseIf => obtain ⟨_, _, _, _, rfl⟩ := h; exact ⟨rfl, rfl⟩
  all_goals (try (subst h; exact ⟨rfl, rfl⟩))
  all_goals (obtain ⟨_, _, rfl⟩ := h; exact ⟨rfl, rfl⟩)

/-- C26 (any call on one container). In every container reachable with exceptions: if a call is left by an exception, the
container is still usable (iteration, `size()`, `find`, `equal_range` agree), and the ledgers of nodes and array blocks have
moved exactly as the container's holdings. -/
theorem C26_call_throws (may : Call → Bool) (c : MCfg K V) (nf : Bool) {t : Table K V} (hr : XReachable may c t) (op : LOp K V)
    (hp : SpecC.LPre c.u ⟨t.fns.eq, t.al, t.contents, true⟩ op) (e e' : Env) (t' : Table K V)
    (hx : t.lstepX may c.u nf op e = .threw e' t') :
    ∃ l', Usable c.u t' l' ∧ e'.nodes - e.nodes = (t'.size : Int) - t.size ∧ e'.blocks - e.blocks = t'.blocks - t.blocks := by
  have hg := lstepX_good may nf hr.good.r op hp e
  rw [hx] at hg
  obtain ⟨⟨o', h1, h2⟩, h3⟩ := hg
  have hd : o'.defined = true := (thrown_defined h1).1
  obtain ⟨l, k1, _⟩ := usable (u := c.u) (t := t') ⟨h2.inv, h2.law, h2.shape hd⟩
  refine ⟨l, k1, ?_, ?_⟩
  · have := h3.nodes; omega
  · have := h3.blocks; omega

theorem lost_usable {may : Call → Bool} {u : Bool} {t t' : Table K V} (hg : Good u t) {e e' : Env} (hl : Lost may e t e' t')
    {l : List (K × V)} (hi : t.iterate = some l) :
    ∃ l' lost, Usable u t' l' ∧ l.Perm (lost ++ l') ∧ e'.nodes = e.nodes - lost.length ∧ e'.blocks = e.blocks ∧
      (may .hash = false → t' = t) := by
  obtain ⟨lost, h1, h2, h3⟩ := hl
  have hf := h1.fns
  obtain ⟨l', k1, k2⟩ := usable (u := u) (t := t') ⟨h1.inv, hf ▸ hg.law, hf ▸ h1.shape u _ hg.law hg.shape⟩
  obtain ⟨l0, e1, e2, _, _⟩ := iterate_spec hg.inv
  rw [hi] at e1; cases e1
  refine ⟨l', lost, k1, (e2.trans h1.perm).trans (k2.symm.append_left lost), ?_, ?_, h3⟩
  · have := h2.nodes; omega
  · have := h2.blocks; omega

/-- C26. In every container reachable with exceptions: if `rehash(n)` is left by an exception, at whatever point, the remaining
elements are a part of the previous ones, iteration shows them, `size()` is their number, all are found, and the lost ones have
been destroyed exactly once each; the array blocks are as before. If hashing does not throw, nothing has changed at all. -/
theorem C26_rehash_throws (may : Call → Bool) (c : MCfg K V) {t : Table K V} (hr : XReachable may c t) (n : Nat) (e e' : Env)
    (t' : Table K V) (hx : t.rehashX may n e = .threw e' t') {l : List (K × V)} (hi : t.iterate = some l) :
    ∃ l' lost, Usable c.u t' l' ∧ l.Perm (lost ++ l') ∧ e'.nodes = e.nodes - lost.length ∧ e'.blocks = e.blocks ∧
      (may .hash = false → t' = t) := by
  have hs := rehashX_sat may hr.good.inv n e
  unfold RSat at hs
  rw [hx] at hs
  exact lost_usable hr.good hs hi

/-- C26 (single insertion, unique keys). The same for an insertion that is left by an exception: the new element is not in;
elements can only have been lost in a rehash by a throwing hash function; otherwise nothing has changed at all (strong
guarantee). -/
theorem C26_insert_unique_throws (may : Call → Bool) (c : MCfg K V) (hu : c.u = true) (nf : Bool) {t : Table K V}
    (hr : XReachable may c t) (x : K × V) (e e' : Env) (t' : Table K V) (hx : t.emplaceUniqueX may nf x e = .threw e' t')
    {l : List (K × V)} (hi : t.iterate = some l) :
    ∃ l' lost, Usable true t' l' ∧ l.Perm (lost ++ l') ∧ e'.nodes = e.nodes - lost.length ∧ e'.blocks = e.blocks ∧
      (may .hash = false → t' = t) := by
  have hg := hr.good
  rw [hu] at hg
  have hs := emplaceUniqueX_sat may nf hg.inv hg.law hg.shape x e
  rw [hx] at hs
  exact lost_usable hg hs hi

/-- C26 (single insertion, equivalent keys). -/
theorem C26_insert_multi_throws (may : Call → Bool) (c : MCfg K V) (hu : c.u = false) {t : Table K V}
    (hr : XReachable may c t) (x : K × V) (e e' : Env) (t' : Table K V) (hx : t.emplaceEquivX may x e = .threw e' t')
    {l : List (K × V)} (hi : t.iterate = some l) :
    ∃ l' lost, Usable false t' l' ∧ l.Perm (lost ++ l') ∧ e'.nodes = e.nodes - lost.length ∧ e'.blocks = e.blocks ∧
      (may .hash = false → t' = t) := by
  have hg := hr.good
  rw [hu] at hg
  have hs := emplaceEquivX_sat may hg.inv hg.law hg.shape x e
  rw [hx] at hs
  exact lost_usable hg hs hi

/-! #### The hypotheses are met: programs in which exceptions strike -/

theorem xstep_plain {u sf : Bool} {tr : Traits} {a a' : Nat → SpecC.Obj K V} {op : Op K V}
    (he : Easy u op) (h : SpecC.Thrown u tr sf a op a') (hp : Plain a) : Plain a' := by
  cases op <;> simp only [SpecC.Thrown] at h
  case on r o =>
    obtain ⟨o', h1, rfl⟩ := h
    obtain ⟨x, y⟩ := thrown_defined h1
    exact hp.upd r ⟨x.trans (hp r).1, y.trans (hp r).2⟩
  case construct => subst h; exact hp
  case copyConstruct => subst h; exact hp
  case moveConstruct => subst h; exact hp
  case moveConstructAlloc r q al =>
    rcases h with rfl | ⟨h, _⟩
    · exact hp
    · exact absurd (he.2.trans (hp q).2.symm) h
  case copyAssign r q =>
    rcases h with ⟨l, _, rfl⟩ | ⟨l, rest, _, rfl⟩
    · exact hp.upd r (hp r)
    · exact hp.upd r ⟨rfl, by dsimp only; split <;> [exact (hp q).2; exact (hp r).2]⟩
  case moveAssign r q =>
    rcases h with ⟨l, _, rfl⟩ | ⟨_, h, _⟩
    · exact hp.upd r (hp r)
    · exact absurd ((hp r).2.trans (hp q).2.symm) h
  case swap => subst h; exact hp
  case equal => subst h; exact hp
  case merge r q =>
    split at h
    · obtain ⟨l, _, rfl⟩ := h; exact hp.upd r (hp r)
    · split at h
      · rcases h with ⟨l, _, rfl⟩ | ⟨_, _, _, _, _, rfl⟩
        · exact hp.upd r (hp r)
        · refine Plain.upd (Plain.upd hp r ?_) q ?_ <;> [exact hp r; exact hp q]
      · obtain ⟨_, _, _, _, _, _, rfl⟩ := h
        refine Plain.upd (Plain.upd hp r ?_) q ?_ <;> [exact hp r; exact hp q]
  case transfer r q k =>
    rcases h with rfl | ⟨_, _, _, _, _, _, rfl⟩
    · exact hp
    · refine Plain.upd (Plain.upd hp r ?_) q ?_ <;> [exact hp r; exact hp q]

theorem easy_xsafe {u sf : Bool} {tr : Traits} {veq : K × V → K × V → Bool} : ∀ (ops : List (Op K V))
    (a : Nat → SpecC.Obj K V), (∀ op ∈ ops, Easy u op) → Plain a → SpecC.XSafe u tr veq sf ops a
  | [], _, _, _ => trivial
  | op :: ops, a, he, hp =>
    have h1 := he op (List.mem_cons_self ..)
    have hs : ∀ o ∈ ops, Easy u o := fun o ho => he o (List.mem_cons_of_mem _ ho)
    ⟨(easy_safe [op] a (fun o ho => by rw [List.mem_singleton] at ho; exact ho ▸ h1) hp).1,
      fun _ a' h => easy_xsafe ops a' hs (step_plain h1 h hp),
      fun a' h => easy_xsafe ops a' hs (xstep_plain h1 h hp)⟩

theorem easy_xplain {u sf : Bool} {tr : Traits} {veq : K × V → K × V → Bool} {out : List (Op K V × Option (Res K V))}
    {a a' : Nat → SpecC.Obj K V} (h : SpecC.XRun u tr veq sf a out a') (he : ∀ op ∈ out.map Prod.fst, Easy u op)
    (hp : Plain a) : Plain a' := by
  induction h with
  | nil => exact hp
  | ok h1 _ ih => exact ih (fun o ho => he o (List.mem_cons_of_mem _ ho)) (step_plain (he _ (List.mem_cons_self ..)) h1 hp)
  | exc h1 _ ih => exact ih (fun o ho => he o (List.mem_cons_of_mem _ ho)) (xstep_plain (he _ (List.mem_cons_self ..)) h1 hp)

/-- a program of easy calls that runs makes its variables reachable -/
theorem xreach_easy (may : Call → Bool) (c : MCfg Nat Nat) (ops : List (Op Nat Nat × Nat × Bool)) (N : Nat)
    (hN : ∀ op ∈ ops, ∀ i ∈ op.1.vars, i < N) (he : ∀ op ∈ ops.map Prod.fst, Easy c.u op) (r : Nat) {β : Type}
    {f : Table Nat Nat → β} {y : β}
    (h : ((xrun may c ops (Fca.start sampleHash natEq) { left := 0 }).map (fun p => f (p.1 r))) = some y) :
    ∃ t : Table Nat Nat, XReachable may c t ∧ f t = y := by
  have hsafe : SpecC.XSafe c.u c.tr c.veq (safe may) (ops.map Prod.fst) (SpecC.start natEq) :=
    easy_xsafe _ _ he (start_plain _)
  obtain ⟨s, e, out, a, h1, h2, h3, h4, h5⟩ := xrun_refines may c N ops _ _ { left := 0 } (start_rs c.u sample_lawful) hsafe hN
    (start_ledger sampleHash natEq N)
  rw [h1] at h
  simp only [Option.map_some, Option.some.injEq] at h
  exact ⟨s r, ⟨sampleHash, natEq, ops, N, s, e, out, r, sample_lawful, hsafe, hN, h1, rfl,
    fun a ha => (easy_xplain ha (h2 ▸ he) (start_plain _) r).1⟩, h⟩

/-- everything can throw -/
def all (_ : Call) : Bool := true

/-- 13 insertions fill the 13 buckets; an insertion whose node cannot be made, one whose rehash is left by the hash function
half-way; a rehash that throws, one that works; a copy assignment that throws and one that works; an `erase_if` whose predicate
throws; an `erase` whose key equality throws; a merge that throws. -/
def xsample : List (Op Nat Nat × Nat × Bool) :=
  [(.on 0 (.insertRange false ((List.range 13).map (fun i => (i, 10 * i)))), 1000, true), (.on 0 (.insert (50, 1)), 0, true),
   (.on 0 (.insert (51, 1)), 25, true), (.on 0 (.rehash 100), 5, true), (.on 0 (.rehash 100), 100, true),
   (.copyAssign 1 0, 8, true), (.copyAssign 1 0, 1000, true), (.on 1 (.insert (60, 7)), 100, false),
   (.on 1 (.eraseIf (fun x => x.1 % 2 == 0)), 1, true), (.on 1 (.erase 1), 1, true), (.on 0 (.insert (70, 7)), 100, false),
   (.merge 1 0, 6, true), (.on 0 .clear, 0, true)]

theorem xsample_easy (u : Bool) : ∀ op ∈ xsample.map Prod.fst, Easy u op := by
  intro op h
  simp only [xsample, List.map_cons, List.map_nil, List.mem_cons, List.not_mem_nil, or_false] at h
  rcases h with h | h | h | h | h | h | h | h | h | h | h | h | h <;> subst h <;> simp [Easy, EasyL]

example (u : Bool) (tr : Traits) (sf : Bool) : Spec.Lawful sampleHash natEq ∧ (∀ op ∈ xsample, ∀ i ∈ op.1.vars, i < 2) ∧
    SpecC.XSafe u tr pairEq sf (xsample.map Prod.fst) (SpecC.start natEq) :=
  ⟨sample_lawful, by decide, easy_xsafe _ _ (xsample_easy u) (start_plain _)⟩

set_option maxRecDepth 100000 in
/-- its outcomes for unordered_map, and the ledgers before and after destruction -/
example : (xrun all uniq xsample (Fca.start sampleHash natEq) { left := 0 }).map (fun r =>
    (r.2.2.map (fun x => x.2.isSome), (r.1 0).size, (r.1 1).size, r.2.1, destroyAll r.1 2 r.2.1)) =
    some ([true, false, false, false, true, false, true, true, false, false, true, false, true], 0, 3,
      { left := 0, blocks := 4, nodes := 3 }, some { left := 0, blocks := 0, nodes := 0 }) := by
  decide +kernel

set_option maxRecDepth 100000 in
/-- and for unordered_multimap -/
example : (xrun all multi xsample (Fca.start sampleHash natEq) { left := 0 }).map (fun r =>
    (r.2.2.map (fun x => x.2.isSome), (r.1 0).size, (r.1 1).size, r.2.1, destroyAll r.1 2 r.2.1)) =
    some ([true, false, false, false, true, false, true, true, false, false, true, false, true], 0, 4,
      { left := 0, blocks := 4, nodes := 4 }, some { left := 0, blocks := 0, nodes := 0 }) := by
  decide +kernel

/-- sizes before and after, if the call throws -/
def sizesIfThrown (t : Table Nat Nat) {α : Type} (o : Out α (Table Nat Nat)) : Option (Nat × Nat) :=
  match o with
  | .threw _ t' => some (t.size, t'.size)
  | _ => none

theorem sizesIfThrown_some {t : Table Nat Nat} {α : Type} {o : Out α (Table Nat Nat)} {m n : Nat}
    (h : sizesIfThrown t o = some (m, n)) : ∃ e' t', o = .threw e' t' ∧ t.size = m ∧ t'.size = n := by
  unfold sizesIfThrown at h
  split at h
  · rename_i e' t'
    simp only [Option.some.injEq, Prod.mk.injEq] at h
    exact ⟨e', t', rfl, h.1, h.2⟩
  · cases h

set_option maxRecDepth 100000 in
/-- a rehash of a reachable container (unordered_map and unordered_multimap) that throws after losing elements -/
example (c : MCfg Nat Nat) (hc : c = uniq ∨ c = multi) : ∃ t t' e e', XReachable all c t ∧
    t.rehashX all 100 e = .threw e' t' ∧ t.size = 13 ∧ t'.size = 9 := by
  have : ∃ t : Table Nat Nat, XReachable all c t ∧ sizesIfThrown t (t.rehashX all 100 { left := 6 }) = some (13, 9) := by
    refine xreach_easy all c (xsample.take 1) 2 (by decide) ?_ 0
      (f := fun t => sizesIfThrown t (t.rehashX all 100 { left := 6 })) ?_
    · intro op hop
      exact xsample_easy c.u op (List.mem_of_mem_take (by simpa [List.map_take] using hop))
    · rcases hc with rfl | rfl <;> decide +kernel
  obtain ⟨t, h1, h2⟩ := this
  obtain ⟨e', t', h3, h4, h5⟩ := sizesIfThrown_some h2
  exact ⟨t, t', _, e', h1, h3, h4, h5⟩

set_option maxRecDepth 100000 in
/-- an insertion into a reachable full unordered_map that throws after losing elements -/
example : ∃ t t' e e', XReachable all uniq t ∧ t.emplaceUniqueX all true (51, 1) e = .threw e' t' ∧ t.size = 13 ∧
    t'.size = 6 := by
  have : ∃ t : Table Nat Nat, XReachable all uniq t ∧
      sizesIfThrown t (t.emplaceUniqueX all true (51, 1) { left := 25 }) = some (13, 6) := by
    refine xreach_easy all uniq (xsample.take 1) 2 (by decide) ?_ 0
      (f := fun t => sizesIfThrown t (t.emplaceUniqueX all true (51, 1) { left := 25 })) ?_
    · intro op hop
      exact xsample_easy uniq.u op (List.mem_of_mem_take (by simpa [List.map_take] using hop))
    · decide +kernel
  obtain ⟨t, h1, h2⟩ := this
  obtain ⟨e', t', h3, h4, h5⟩ := sizesIfThrown_some h2
  exact ⟨t, t', _, e', h1, h3, h4, h5⟩

set_option maxRecDepth 100000 in
/-- an insertion into a reachable full unordered_multimap that throws after losing elements -/
example : ∃ t t' e e', XReachable all multi t ∧ t.emplaceEquivX all (51, 1) e = .threw e' t' ∧ t.size = 13 ∧
    t'.size = 6 := by
  have : ∃ t : Table Nat Nat, XReachable all multi t ∧
      sizesIfThrown t (t.emplaceEquivX all (51, 1) { left := 25 }) = some (13, 6) := by
    refine xreach_easy all multi (xsample.take 1) 2 (by decide) ?_ 0
      (f := fun t => sizesIfThrown t (t.emplaceEquivX all (51, 1) { left := 25 })) ?_
    · intro op hop
      exact xsample_easy multi.u op (List.mem_of_mem_take (by simpa [List.map_take] using hop))
    · decide +kernel
  obtain ⟨t, h1, h2⟩ := this
  obtain ⟨e', t', h3, h4, h5⟩ := sizesIfThrown_some h2
  exact ⟨t, t', _, e', h1, h3, h4, h5⟩

/-! #### Limits of the guarantee -/

/-- only allocation of arrays throws -/
def allocOnly (k : Call) : Bool := k == .alloc

/-- merging a multimap into a full one when the allocation for growing fails -/
def mergeBug : List (Op Nat Nat × Nat × Bool) :=
  [(.on 0 (.insertRange false ((List.range 13).map (fun i => (i, 10 * i)))), 1000, true), (.on 1 (.insert (77, 7)), 100, true),
   (.merge 0 1, 0, true)]

set_option maxRecDepth 100000 in
set_option synthInstance.maxSize 100000 in
/-- `merge` of the multi containers is not strong even when only allocation throws: the element being merged is then in neither
container (unordered_map.hpp:2326-2363: `insert(source.extract(source.begin()))`, and the node handle is destroyed). -/
theorem C26_multi_merge_loses_element :
    (xrun allocOnly multi mergeBug (Fca.start sampleHash natEq) { left := 0 }).map (fun r =>
      (r.2.2.map (fun x => x.2.isSome), (r.1 0).size, (r.1 1).size, (r.1 0).groupCount 77, (r.1 1).groupCount 77)) =
    some ([true, true, false], 13, 0, some 0, some 0) := by
  decide +kernel

/-- copy assignment from a container with another max_load_factor, whose first allocation fails -/
def assignMlf : List (Op Nat Nat × Nat × Bool) :=
  [(.on 0 (.insert (1, 1)), 100, true), (.on 1 (.maxLoadFactor (some (F32.SC / 4))), 0, true),
   (.on 1 (.insertRange true ((List.range 50).map (fun i => (i, 10 * i)))), 1000, true), (.copyAssign 0 1, 0, true)]

set_option maxRecDepth 100000 in
set_option synthInstance.maxSize 100000 in
/-- Copy assignment announces strong exception safety (implementation.hpp:1583) but a failing allocation leaves the target with
the source's `max_load_factor()`; its elements and functions are as before. -/
theorem C26_copy_assign_changes_max_load_factor :
    (xrun allocOnly uniq assignMlf (Fca.start sampleHash natEq) { left := 0 }).map (fun r =>
      (r.2.2.map (fun x => x.2.isSome), (r.1 0).size, (r.1 0).iterate, (r.1 0).mlf)) =
    some ([true, true, true, false], 1, some [(1, 1)], some (F32.SC / 4)) ∧
    (xrun allocOnly uniq (assignMlf.take 3) (Fca.start sampleHash natEq) { left := 0 }).map (fun r =>
      ((r.1 0).iterate, (r.1 0).mlf)) = some (some [(1, 1)], some F32.SC) := by
  decide +kernel

end Props.ClosedExc

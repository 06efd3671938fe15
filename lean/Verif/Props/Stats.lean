/-
Property C53: the statistics of the open-addressing containers (BOOST_UNORDERED_ENABLE_STATS).
Specification: `Verif/SpecStats.lean`.
-/
import Verif.Foa.StatsRefine
import Verif.Props.FoaMap

namespace Props
open Foa
open Spec (Op Res)
open SpecStats
variable {K V : Type}

/-- **C53** For every program (any number of containers, any calls that respect their preconditions, `get_stats` and
`reset_stats` anywhere), the program runs, every call answers what the containers' specification says, and every `get_stats`
answers with the count, the mean and the biased variance of exactly the data recorded since the last reset, where every call
records what `SpecStats.Recs` says. -/
theorem C53_statistics (c : MCfg) (veq : K × V → K × V → Bool) (h : K → Nat) (e : K → K → Bool) (hl : Spec.Lawful h e)
    (ops : List (SOp K V)) (hp : SPre c.traits veq ops (Spec.start e)) :
    ∃ s outs, runStats c veq ops (startStats c h e) = some (s, outs) ∧
      Allowed c.traits veq ops (Spec.start e) (fun _ => []) outs :=
  runStats_allowed c veq ops _ _ _ (start_related c hl) (fun _ => CStats.ok_nil) hp

/-- a program that reads its statistics twice -/
def statProg : List (SOp Nat Nat) :=
  [.op (.insertRange 0 ((List.range 17).map (fun i => (i, i)))), .op (.find 0 2), .op (.contains 0 70), .getStats 0,
   .resetStats 0, .op (.find 0 1), .op (.find 0 16), .getStats 0]

theorem statProg_pre : SPre ⟨false, false, false⟩ pairEq statProg (Spec.start natEq) :=
  ⟨trivial, trivial, trivial, trivial, trivial, trivial⟩

set_option maxRecDepth 100000 in
set_option synthInstance.maxSize 100000 in
set_option synthInstance.maxHeartbeats 200000 in
/-- its two answers: 17 insertions, 18 lookups without success (17 by the insertions) and one with; then two lookups, which take 1
and 6 comparisons -/
example : ((runStats {} pairEq statProg (startStats {} sampleHash natEq)).map
    (fun r => r.2.filterMap (fun | .stats s => some s | _ => none))) =
    some [⟨⟨17, [⟨1, 0⟩]⟩, ⟨1, [⟨1, 0⟩, ⟨1, 0⟩]⟩, ⟨18, [⟨1, 0⟩, ⟨23 / 9, 263 / 81⟩]⟩⟩,
      ⟨⟨0, [⟨0, 0⟩]⟩, ⟨2, [⟨1, 0⟩, ⟨7 / 2, 25 / 4⟩]⟩, ⟨0, [⟨0, 0⟩, ⟨0, 0⟩]⟩⟩] := by
  decide +kernel

/-- the hypotheses of `C53_statistics` are met by this program -/
example : ∃ s outs, runStats {} pairEq statProg (startStats {} sampleHash natEq) = some (s, outs) ∧
    Allowed ⟨false, false, false⟩ pairEq statProg (Spec.start natEq) (fun _ => []) outs :=
  C53_statistics {} pairEq sampleHash natEq sample_lawful statProg statProg_pre

/-- the calls of a program other than `get_stats` and `reset_stats` -/
def plainOps (ops : List (SOp K V)) : List (Op K V) := ops.filterMap (fun | .op o => some o | _ => none)
/-- the answers to the calls other than `get_stats` and `reset_stats` -/
def plainRes (outs : List (SRes K V)) : List (Res K V) := outs.filterMap (fun | .res o => some o | _ => none)

/-- **C53** Collecting, reading and resetting statistics changes nothing else: the containers and the answers of a program are
those of the library without statistics. -/
theorem C53_statistics_invisible (c : MCfg) (veq : K × V → K × V → Bool) : ∀ (ops : List (SOp K V)) (s s' : SState K V)
    (outs : List (SRes K V)), runStats c veq ops s = some (s', outs) →
    Foa.run c veq (plainOps ops) s.tab = some (s'.tab, plainRes outs)
  | [], s, s', outs, h => by cases h; rfl
  | .getStats r :: ops, s, s', outs, h => by
    simp only [runStats, stepStats, Option.map_eq_some_iff, Prod.mk.injEq] at h
    obtain ⟨⟨s1, o1⟩, h1, h2, h3⟩ := h
    subst h2 h3
    exact C53_statistics_invisible c veq ops s s1 o1 h1
  | .resetStats r :: ops, s, s', outs, h => by
    simp only [runStats, stepStats, Option.map_eq_some_iff, Prod.mk.injEq] at h
    obtain ⟨⟨s1, o1⟩, h1, h2, h3⟩ := h
    subst h2 h3
    exact C53_statistics_invisible c veq ops ⟨s.tab, Spec.upd s.stats r (s.stats r).reset⟩ s1 o1 h1
  | .op o :: ops, s, s', outs, h => by
    have hst : ∀ {s1 x}, stepS c veq s o = some (s1, x) → step c veq s.tab o = some (s1.tab, x) := by
      intro s1 x he
      unfold stepS at he
      split at he
      · rename_i h1 _; cases he; exact h1
      · cases he
    simp only [runStats, stepStats] at h
    generalize stepS c veq s o = w at h hst
    cases w with
    | none => cases h
    | some w =>
      obtain ⟨s1, x⟩ := w
      simp only [Option.map_some, Option.map_eq_some_iff, Prod.mk.injEq] at h
      obtain ⟨⟨s2, o2⟩, h1, h2, h3⟩ := h
      subst h2 h3
      have ih := C53_statistics_invisible c veq ops _ s2 o2 h1
      have hrun : ∀ os, Foa.run c veq (o :: os) s.tab =
          match step c veq s.tab o with
          | none => none
          | some (s', o) => (Foa.run c veq os s').map (fun r => (r.1, o :: r.2)) := fun _ => rfl
      have hpl : plainOps (.op o :: ops) = o :: plainOps ops := rfl
      rw [hpl, hrun, hst rfl]
      simp only [ih]
      rfl

/-- The data of a lookup. The number of comparisons recorded is the number of calls of the user's equality function; the
probe length recorded is the number of groups examined.

Full statement: the second part without the exception. It is false, see `C53_probe_length_wrong`: a lookup that examines
every group and finds the last one overflowed as well records one group too many. -/
theorem C53_lookup_data_partial {c : MCfg} {t : Table K V} (ht : Reachable c t) (k : K) :
    ∃ lk, t.findW k = some lk ∧ t.find k = some lk.res ∧
      lk.cmps = lk.trace.countP (fun e => !e.isGroup) ∧
      (lk.res.isSome = true → lk.len = lk.trace.countP Ev.isGroup) ∧
      (lk.len ≠ lk.trace.countP Ev.isGroup →
        lk.len = lk.trace.countP Ev.isGroup + 1 ∧
        lk.trace.countP Ev.isGroup = t.arr.mask + 1) := by
  obtain ⟨r, hr⟩ : ∃ r, t.find k = some r := by
    rcases ht.inv.find_spec k with ⟨g, j, y, h1, -⟩ | ⟨h1, -⟩
    · exact ⟨_, h1⟩
    · exact ⟨_, h1⟩
  obtain ⟨lk, e1, e2, -⟩ := Table.findW_some hr
  obtain ⟨h1, h2, h3, h4⟩ := Arrays.findLoopW_trace t.arr (t.fns.eq k) (t.fns.hash k) _ _ 0 0 lk (Nat.zero_le _) e1
  simp only [cmpsOf, groupsOf] at h1 h2 h3 h4
  refine ⟨lk, e1, by rw [hr, e2], by omega, fun hs => ?_, fun hs => ?_⟩
  · rcases h4 with h4 | h4
    · omega
    · rw [h4.1] at hs; cases hs
  · rcases h4 with h4 | h4
    · omega
    · omega

/-- six calls that fill a container of two groups and mark both as overflowed for the same residue -/
def fullProg : List (Op Nat Nat) :=
  [.reserve 0 25, .insertRange 0 ((List.range 14).map (fun i => (16 * i + 1, i))), .insert 0 (3, 0),
   .insertRange 0 ((List.range 14).map (fun i => (16 * i, i))), .erase 0 1, .insert 0 (2, 0)]
def fullHash (k : Nat) : Nat := (k % 2) * 2 ^ 63 + k / 2 % 8

theorem fullHash_lawful : Spec.Lawful fullHash natEq := by
  refine ⟨?_, ?_, ?_, ?_, ?_⟩
  · intro k; unfold fullHash; omega
  · intro k; simp [natEq]
  · intro a b; simp [natEq]; intro h; exact h.symm
  · intro a b c; simp [natEq]; intro h1 h2; exact h1.trans h2
  · intro a b; simp [natEq]; rintro rfl; rfl

set_option maxRecDepth 100000 in
set_option synthInstance.maxSize 100000 in
set_option synthInstance.maxHeartbeats 200000 in
theorem fullProg_run : ((Foa.run {} pairEq fullProg (Foa.start {} fullHash natEq)).map
    (fun r => ((r.1 0).findW 18).map (fun l => (l.res, l.len, l.cmps, l.trace)))) =
      some (some (none, 3, 2, [.group 0, .cmp 3, .group 1, .cmp 2])) := by
  decide +kernel

/-- **C53, negative part** The probe length recorded is not always the number of groups examined: a container of two groups, and a
lookup that examines both and records 3. -/
theorem C53_probe_length_wrong : ∃ (t : Table Nat Nat) (lk : Look Nat), Reachable {} t ∧ t.findW 18 = some lk ∧
    lk.trace = [.group 0, .cmp 3, .group 1, .cmp 2] ∧ lk.cmps = 2 ∧ lk.len = 3 := by
  have h := fullProg_run
  cases hr : Foa.run {} pairEq fullProg (Foa.start {} fullHash natEq) with
  | none => rw [hr] at h; cases h
  | some p =>
    rw [hr] at h
    simp only [Option.map_some, Option.some.injEq] at h
    refine ⟨p.1 0, ?_⟩
    cases hf : (p.1 0).findW 18 with
    | none => rw [hf] at h; cases h
    | some lk =>
      rw [hf] at h
      simp only [Option.map_some, Option.some.injEq, Prod.mk.injEq] at h
      exact ⟨lk, ⟨pairEq, fullHash, natEq, fullProg, p.1, p.2, 0, fullHash_lawful,
        ⟨trivial, trivial, trivial, trivial, trivial, trivial, trivial⟩, hr, rfl⟩, rfl, h.2.2.2, h.2.2.1, h.2.1⟩

/-- `C53_lookup_data_partial` speaks about this container, too, and `C53_compares_elements` about its four events. -/
example : ∃ t : Table Nat Nat, Reachable {} t ∧ ∃ lk, t.findW 18 = some lk ∧ Ev.cmp 3 ∈ lk.trace := by
  obtain ⟨t, lk, h1, h2, h3, -⟩ := C53_probe_length_wrong
  exact ⟨t, h1, lk, h2, by rw [h3]; decide⟩

/-- **C53** A lookup hands to the equality function only keys of elements of the container. -/
theorem C53_compares_elements {c : MCfg} {t : Table K V} (ht : Reachable c t) (k : K) {lk : Look K} (hf : t.findW k = some lk)
    (k' : K) (hk : Ev.cmp k' ∈ lk.trace) : ∃ l v, Iterates c t l ∧ (k', v) ∈ l := by
  obtain ⟨g, j, v, h⟩ := Arrays.findLoopW_cmp t.arr _ _ _ _ _ _ hf k' hk
  exact ⟨t.contents, v, (iterates_iff ht).2 rfl, ht.inv.mem.2 ⟨g, j, h⟩⟩

/-- **C53** An insertion records the rank, in the probe sequence of the key's hash value, of the group where the element is
placed: the number of groups examined. -/
theorem C53_insertion_data (t t' : Table K V) (x : K × V) (p : Foa.Pos) (s : Sample)
    (h : t.uncheckedInsertW x = some (t', p, s)) :
    t.uncheckedInsert x = some (t', p) ∧
      ∃ n, s = .ins (n + 1) ∧ (probeSeq t.arr.mask (t.arr.posFor (t.fns.hash x.1)))[n]? = some p.1 ∧
        ∀ i < n, ∀ g, (probeSeq t.arr.mask (t.arr.posFor (t.fns.hash x.1)))[i]? = some g → (t.arr.grp g).availSlots = [] := by
  unfold Table.uncheckedInsertW at h
  split at h
  · cases h
  · rename_i a p' s' he
    cases h
    have he' := Arrays.emplaceW_eq t.arr (t.fns.hash x.1) x
    rw [he] at he'
    refine ⟨by unfold Table.uncheckedInsert; rw [← he']; rfl, ?_⟩
    unfold Arrays.emplaceW at he
    obtain ⟨⟨a2, p2, n⟩, h3, h4⟩ := Option.map_eq_some_iff.1 he
    cases h4
    obtain ⟨i, e1, e2, e3⟩ := Arrays.emplaceLoopW_rank _ _ _ _ _ 0 _ _ _ (Nat.zero_le _) rfl h3
    exact ⟨i, by simp only [e1]; rw [Nat.zero_add], e2, e3⟩

set_option maxRecDepth 100000 in
/-- an insertion that is placed in the second group it probes records 2 -/
example : ((Foa.run {} pairEq (fullProg.take 2) (Foa.start {} fullHash natEq)).bind
    (fun r => ((r.1 0).uncheckedInsertW (3, 0)).map (fun x => (x.2.1.1, x.2.2)))) = some (0, .ins 2) := by
  decide +kernel

/-- **C53** The answer of `get_stats` does not depend on the order in which the data were recorded (fewer than `2^64` of them):
with concurrent containers, whose threads record under a lock in some order, it is that of any sequential order. -/
theorem C53_order_irrelevant {l l' : List Sample} (h : l.Perm l') (hl : l.length < 2 ^ 64) : answer l = answer l' := by
  have acc : ∀ {α : Type} (f : Sample → Option α), accounted (l.filterMap f) = l.filterMap f ∧
      accounted (l'.filterMap f) = l'.filterMap f := by
    intro α f
    have h1 := List.length_filterMap_le f l
    have h2 := List.length_filterMap_le f l'
    rw [← h.length_eq] at h2
    exact ⟨if_pos (by omega), if_pos (by omega)⟩
  have hs : ∀ {x y : List Nat}, x.Perm y → summ x = summ y := by
    intro x y hxy
    have hm : ∀ {x y : List Rat}, x.Perm y → mean x = mean y := by
      intro x y hxy
      unfold mean
      rw [hxy.sum_eq, hxy.length_eq]
      by_cases hx : x = []
      · subst hx
        rw [List.nil_perm.1 hxy]
      · rw [if_neg hx, if_neg (fun hy => hx (by subst hy; exact List.perm_nil.1 hxy))]
    have hr := hxy.map (fun n : Nat => (n : Rat))
    have hv : ∀ {x y : List Rat}, x.Perm y → variance x = variance y := by
      intro x y hxy
      unfold variance
      rw [hm hxy]
      exact hm (hxy.map _)
    unfold summ
    rw [hm hr, hv hr]
  have p1 : (insLens l).Perm (insLens l') := h.filterMap _
  have p2 : ∀ b, (looks b l).Perm (looks b l') := fun b => h.filterMap _
  have a1 : accounted (insLens l) = insLens l ∧ accounted (insLens l') = insLens l' := acc _
  have a2 : ∀ b, accounted (looks b l) = looks b l ∧ accounted (looks b l') = looks b l' := fun b => acc _
  unfold answer
  rw [a1.1, a1.2, (a2 true).1, (a2 true).2, (a2 false).1, (a2 false).2]
  simp only [p1.length_eq, (p2 true).length_eq, (p2 false).length_eq, hs p1, hs ((p2 true).map Prod.fst),
    hs ((p2 true).map Prod.snd), hs ((p2 false).map Prod.fst), hs ((p2 false).map Prod.snd)]

/-- two orders of three data -/
example : answer [.ins 1, .look true 2 3, .ins 4] = answer [.ins 4, .ins 1, .look true 2 3] :=
  C53_order_irrelevant (by decide) (by decide)

end Props

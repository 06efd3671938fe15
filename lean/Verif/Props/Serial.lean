/-
Property theorems C33: serialization.
-/
import Verif.Foa.Serial
import Verif.Fca.Serial
import Verif.Props.FoaMap
import Verif.Props.FcaMap

namespace Props.Ser
open SpecSer
variable {K V : Type}

/-! ### The machines: ordinary calls, saving, loading -/

/-- one call of a program on open-addressing containers; `conc`: use the concurrent containers' `save` and `load` -/
def foaStep (conc : Bool) (c : Foa.MCfg) (veq : K × V → K × V → Bool)
    (s : (Nat → Foa.Table K V) × (Nat → Archive (K × V))) : SOp K V (Spec.Op K V) →
    Option (((Nat → Foa.Table K V) × (Nat → Archive (K × V))) × SRes (Spec.Res K V))
  | .call op => (Foa.step c veq s.1 op).map (fun p => ((p.1, s.2), .call p.2))
  | .forge a ar => some ((s.1, put s.2 a ar), .unit)
  | .save r a => (if conc then (s.1 r).concSave else ((s.1 r).saveTracked c.regular).map Prod.fst).map
      (fun ar => ((s.1, put s.2 a ar), .unit))
  | .load r a => (if conc then (s.1 r).concLoad c.toCfg (s.2 a) else (s.1 r).load c.toCfg (s.2 a)).map
      (fun p => ((put s.1 r p.1, s.2), .load p.2.1))

/-- one call of a program on closed-addressing containers -/
def fcaStep (c : Fca.MCfg K V) (s : (Nat → Fca.Table K V) × (Nat → Archive (K × V))) : SOp K V (SpecC.Op K V) →
    Option (((Nat → Fca.Table K V) × (Nat → Archive (K × V))) × SRes (Spec.Res K V))
  | .call op => (Fca.step c s.1 op).map (fun p => ((p.1, s.2), .call p.2))
  | .forge a ar => some ((s.1, put s.2 a ar), .unit)
  | .save r a => (s.1 r).save.map (fun ar => ((s.1, put s.2 a ar), .unit))
  | .load r a => ((s.1 r).load c.u (s.2 a)).map (fun p => ((put s.1 r p.1, s.2), .load p.2))

/-- a program, for either machine -/
def runOn {S Op Res : Type} (step : S → Op → Option (S × Res)) : List Op → S → Option (S × List Res)
  | [], s => some (s, [])
  | op :: ops, s =>
    match step s op with
    | none => none
    | some (s', o) => (runOn step ops s').map (fun r => (r.1, o :: r.2))

/-- the specification of the open-addressing containers as a kind -/
def foaKind (tr : Spec.Traits) (veq : K × V → K × V → Bool) : Kind K V (Spec.Op K V) (Spec.Res K V) (Spec.Obj K V) where
  u := true
  step s op res s' := s' = (Spec.step tr veq op s).1 ∧ res.Agrees (Spec.step tr veq op s).2
  pre s op := Spec.Pre tr op s
  defined _ := True
  eq o := o.eq
  elems o := o.elems
  setElems o l := { o with elems := l }

/-- the specification of the closed-addressing containers as a kind -/
def fcaKind (u : Bool) (tr : Spec.Traits) (veq : K × V → K × V → Bool) :
    Kind K V (SpecC.Op K V) (Spec.Res K V) (SpecC.Obj K V) where
  u := u
  step s op res s' := SpecC.Step u tr veq s op res s'
  pre s op := SpecC.Pre u tr veq s op
  defined o := o.defined = true
  eq o := o.eq
  elems o := o.elems
  setElems o l := { o with elems := l, defined := true }

theorem foaStep_refines (conc : Bool) (c : Foa.MCfg) (veq : K × V → K × V → Bool) {s : Nat → Foa.Table K V}
    {a : Nat → Spec.Obj K V} (h : Foa.RS s a) (ars : Nat → Archive (K × V)) (op : SOp K V (Spec.Op K V))
    (hp : Pre (foaKind c.traits veq) (a, ars) op) :
    ∃ s' ars' res a', foaStep conc c veq (s, ars) op = some ((s', ars'), res) ∧
      Step (foaKind c.traits veq) (a, ars) op res (a', ars') ∧ Foa.RS s' a' := by
  cases op with
  | call op =>
    obtain ⟨s', o, e1, e2, e3⟩ := Foa.step_refines c veq h op hp
    exact ⟨s', ars, .call o, _, by simp only [foaStep, e1, Option.map_some], .call ⟨rfl, e2⟩, e3⟩
  | forge i ar => exact ⟨s, _, .unit, a, rfl, .forge i ar, h⟩
  | save r i =>
    refine ⟨s, put ars i ⟨(s r).size, (s r).contents⟩, .unit, a, ?_, .save r i _ ⟨?_, (h r).elems⟩, h⟩
    · simp only [foaStep, Foa.concSave_eq (h r).inv, Foa.saveTracked_eq (h r).inv, Option.map_some]
      split <;> rfl
    · exact (Foa.size_eq (h r).inv).trans (h r).elems.length_eq
  | load r i =>
    obtain ⟨t', out, tr, l, e1, e2, e3, e4, _⟩ := Foa.load_spec c.toCfg (h r) (ars i)
    refine ⟨put s r t', ars, .load out, _, ?_, .load r i out l e4, ?_⟩
    · simp only [foaStep, e1, e2]
      split <;> rfl
    · exact h.upd e3

theorem foaRun_refines (conc : Bool) (c : Foa.MCfg) (veq : K × V → K × V → Bool) : ∀ (ops : List (SOp K V (Spec.Op K V)))
    (s : Nat → Foa.Table K V) (a : Nat → Spec.Obj K V) (ars : Nat → Archive (K × V)), Foa.RS s a →
    Safe (foaKind c.traits veq) ops (a, ars) →
    ∃ s' outs a', runOn (foaStep conc c veq) ops (s, ars) = some (s', outs) ∧
      Run (foaKind c.traits veq) (a, ars) ops outs a' ∧ Foa.RS s'.1 a'.1 ∧ s'.2 = a'.2 := by
  intro ops
  induction ops with
  | nil => intro s a ars h _; exact ⟨(s, ars), [], (a, ars), rfl, .nil _, h, rfl⟩
  | cons op ops ih =>
    intro s a ars h hp
    obtain ⟨s1, ars1, res, a1, e1, e2, e3⟩ := foaStep_refines conc c veq h ars op hp.1
    obtain ⟨s2, outs, a2, f1, f2, f3⟩ := ih s1 a1 ars1 e3 (hp.2 _ _ e2)
    refine ⟨s2, res :: outs, a2, ?_, .cons e2 f2, f3⟩
    simp only [runOn, e1, f1, Option.map_some]

theorem fcaStep_refines (c : Fca.MCfg K V) {s : Nat → Fca.Table K V} {a : Nat → SpecC.Obj K V} (h : Fca.RS c.u s a)
    (ars : Nat → Archive (K × V)) (op : SOp K V (SpecC.Op K V)) (hp : Pre (fcaKind c.u c.tr c.veq) (a, ars) op) :
    ∃ s' ars' res a', fcaStep c (s, ars) op = some ((s', ars'), res) ∧
      Step (fcaKind c.u c.tr c.veq) (a, ars) op res (a', ars') ∧ Fca.RS c.u s' a' := by
  cases op with
  | call op =>
    obtain ⟨s', o, a', e1, e2, e3⟩ := Fca.step_refines c h op hp
    exact ⟨s', ars, .call o, a', by simp only [fcaStep, e1, Option.map_some], .call e2, e3⟩
  | forge i ar => exact ⟨s, _, .unit, a, rfl, .forge i ar, h⟩
  | save r i =>
    obtain ⟨ar, e1, e2, _⟩ := Fca.save_spec (h r) hp
    exact ⟨s, _, .unit, a, by simp only [fcaStep, e1, Option.map_some], .save r i ar e2, h⟩
  | load r i =>
    obtain ⟨t', out, l, e1, e2, e3⟩ := Fca.load_spec (h r) (ars i)
    exact ⟨put s r t', ars, .load out, _, by simp only [fcaStep, e1, Option.map_some], .load r i out l e3, h.upd e2⟩

theorem fcaRun_refines (c : Fca.MCfg K V) : ∀ (ops : List (SOp K V (SpecC.Op K V)))
    (s : Nat → Fca.Table K V) (a : Nat → SpecC.Obj K V) (ars : Nat → Archive (K × V)), Fca.RS c.u s a →
    Safe (fcaKind c.u c.tr c.veq) ops (a, ars) →
    ∃ s' outs a', runOn (fcaStep c) ops (s, ars) = some (s', outs) ∧
      Run (fcaKind c.u c.tr c.veq) (a, ars) ops outs a' ∧ Fca.RS c.u s'.1 a'.1 ∧ s'.2 = a'.2 := by
  intro ops
  induction ops with
  | nil => intro s a ars h _; exact ⟨(s, ars), [], (a, ars), rfl, .nil _, h, rfl⟩
  | cons op ops ih =>
    intro s a ars h hp
    obtain ⟨s1, ars1, res, a1, e1, e2, e3⟩ := fcaStep_refines c h ars op hp.1
    obtain ⟨s2, outs, a2, f1, f2, f3⟩ := ih s1 a1 ars1 e3 (hp.2 _ _ e2)
    refine ⟨s2, res :: outs, a2, ?_, .cons e2 f2, f3⟩
    simp only [runOn, e1, f1, Option.map_some]

/-- C33 (open addressing; `conc = true`: with the concurrent containers' save and load). Programs that, besides ordinary
calls, save containers and load archives (saved ones or arbitrary ones) run without undefined behaviour, and all their answers
are those allowed by the specification: a saved archive lists exactly the elements; loading ends normally with exactly the
announced items, or throws bad_archive_exception at the first item equivalent to an earlier one, or passes on the archive's
own exception, the container then holding the items before; in all cases it can be used further. -/
theorem C33_programs_with_archives (conc : Bool) (c : Foa.MCfg) (veq : K × V → K × V → Bool) (h : K → Nat)
    (e : K → K → Bool) (hl : Spec.Lawful h e) (ars : Nat → Archive (K × V)) (ops : List (SOp K V (Spec.Op K V)))
    (hp : Safe (foaKind c.traits veq) ops (Spec.start e, ars)) :
    ∃ s outs a, runOn (foaStep conc c veq) ops (Foa.start c h e, ars) = some (s, outs) ∧
      Run (foaKind c.traits veq) (Spec.start e, ars) ops outs a ∧
      ∀ r, ∃ l, Props.Iterates c (s.1 r) l ∧ l.Perm (a.1 r).elems := by
  obtain ⟨s, outs, a, h1, h2, h3, _⟩ := foaRun_refines conc c veq ops _ _ ars (Props.start_related c hl) hp
  exact ⟨s, outs, a, h1, h2, fun r => ⟨_, Foa.opIterate_eq (h3 r).inv c.regular, (h3 r).elems⟩⟩

/-- C33 (closed addressing: unordered_map/set with `c.u = true`, unordered_multimap/multiset with `c.u = false`, for which
equivalent items are no error). -/
theorem C33_closed_programs_with_archives (c : Fca.MCfg K V) (h : K → Nat) (e : K → K → Bool) (hl : Spec.Lawful h e)
    (ars : Nat → Archive (K × V)) (ops : List (SOp K V (SpecC.Op K V)))
    (hp : Safe (fcaKind c.u c.tr c.veq) ops (SpecC.start e, ars)) :
    ∃ s outs a, runOn (fcaStep c) ops (Fca.start h e, ars) = some (s, outs) ∧
      Run (fcaKind c.u c.tr c.veq) (SpecC.start e, ars) ops outs a ∧
      ∀ r, (a.1 r).defined = true → ∃ l, (s.1 r).iterate = some l ∧ l.Perm (a.1 r).elems := by
  obtain ⟨s, outs, a, h1, h2, h3, _⟩ := fcaRun_refines c ops _ _ ars (Fca.start_rs c.u hl) hp
  refine ⟨s, outs, a, h1, h2, fun r hd => ?_⟩
  obtain ⟨ar, e1, e2, _⟩ := Fca.save_spec (h3 r) hd
  unfold Fca.Table.save at e1
  rw [Option.map_eq_some_iff] at e1
  obtain ⟨l, e3, rfl⟩ := e1
  exact ⟨l, e3, e2.2⟩

/-- what `Loads` forbids: however the archive is made up, a container with unique keys never ends up with two equivalent
elements -/
theorem loads_noDup {e : K → K → Bool} (hs : ∀ a b, e a b = true → e b a = true) {ar : Archive (K × V)} {out : Outcome}
    {l : List (K × V)} (h : Loads true e ar out l) : NoDup e l := by
  have sy : ∀ {x y : K × V}, e x.1 y.1 = false → e y.1 x.1 = false := by
    intro x y hxy
    by_contra hc
    rw [hs _ _ (by simpa using hc)] at hxy; cases hxy
  cases h with
  | done _ hu hl => exact hl.symm.pairwise (hu rfl) sy
  | dup _ _ _ _ _ hd _ hl => exact hl.symm.pairwise hd sy
  | short _ hu hl => exact hl.symm.pairwise (hu rfl) sy

/-- C33. Whatever archive is loaded into whatever reachable container, the load ends, and afterwards iteration shows no two
elements with equivalent keys; if two of the announced items are equivalent, the load does not end normally; if none are and
the archive is long enough, it ends normally with exactly those items. -/
theorem C33_load_rejects_duplicates (c : Foa.MCfg) (t : Foa.Table K V) (h : Props.Reachable c t) (ar : Archive (K × V)) :
    ∃ t' out tr l, t.load c.toCfg ar = some (t', out, tr) ∧ t.concLoad c.toCfg ar = some (t', out, tr) ∧
      Props.Iterates c t' l ∧ NoDup t.fns.eq l ∧ (out = .done ↔ ar.count ≤ ar.items.length ∧ NoDup t.fns.eq (ar.items.take ar.count)) ∧
      (out = .done → l.Perm (ar.items.take ar.count)) := by
  have hi := h.inv
  have hr : Foa.R t ⟨t.fns.eq, t.al, t.contents⟩ := ⟨hi, rfl, rfl, List.Perm.refl _⟩
  obtain ⟨t', out, tr, l, e1, e2, e3, e4, _⟩ := Foa.load_spec c.toCfg hr ar
  have hnd := loads_noDup hi.law.symm e4
  have sy : ∀ {x y : K × V}, t.fns.eq x.1 y.1 = false → t.fns.eq y.1 x.1 = false := by
    intro x y hxy
    by_contra hc
    rw [hi.law.symm _ _ (by simpa using hc)] at hxy; cases hxy
  refine ⟨t', out, tr, t'.contents, e1, e2, Foa.opIterate_eq e3.inv c.regular, e3.elems.symm.pairwise hnd sy, ?_, ?_⟩
  · cases e4 with
    | done h1 h2 _ => exact ⟨fun _ => ⟨h1, h2 rfl⟩, fun _ => rfl⟩
    | dup m x hm hx _ _ he _ =>
      constructor
      · intro h; cases h
      · rintro ⟨_, hq⟩
        exfalso
        obtain ⟨y, hy, hxy⟩ := he
        have hlt : m < ar.items.length := by
          by_contra hc
          rw [List.getElem?_eq_none (by omega)] at hx; cases hx
        have hsub : (ar.items.take m ++ [x]).Sublist (ar.items.take ar.count) := by
          have : ar.items.take m ++ [x] = ar.items.take (m + 1) := by
            rw [List.take_add_one, hx]; rfl
          rw [this]
          exact List.take_sublist_take_left (by omega)
        have hq2 := hq.sublist hsub
        rw [List.pairwise_append] at hq2
        have := hq2.2.2 y hy x (by simp)
        have := sy this
        simp only at hxy
        rw [this] at hxy; cases hxy
    | short h1 _ _ =>
      constructor
      · intro h; cases h
      · rintro ⟨h2, _⟩; omega
  · rintro rfl
    cases e4 with
    | done _ _ hl => exact e3.elems.trans hl

/-- C33 (round trip). An archive saved from a reachable container, loaded into any reachable container with the same key
equality, restores an equal container (`==` both ways, for any reflexive element equality); and each iterator of the saved
container, tracked by the archive, is mapped to an iterator of the loaded container that points to the same element: the
`reserve` call makes the positions given to the archive stay valid until the end. -/
theorem C33_round_trip (c : Foa.MCfg) (x y : Foa.Table K V) (hx : Props.Reachable c x) (hy : Props.Reachable c y)
    (he : x.fns.eq = y.fns.eq) (veq : K × V → K × V → Bool) (hv : ∀ z, veq z z = true) :
    ∃ ar its t' its', x.saveTracked c.regular = some (ar, its) ∧ x.concSave = some ar ∧
      y.load c.toCfg ar = some (t', .done, its') ∧ y.concLoad c.toCfg ar = some (t', .done, its') ∧
      Foa.Table.equal veq t' x = some true ∧ Foa.Table.equal veq x t' = some true ∧
      List.Forall₂ (fun p p' => ∃ e, x.deref p = some e ∧ t'.deref p' = some e) its its' ∧ its.length = x.size := by
  have hi := hx.inv
  have hr : Foa.R y ⟨y.fns.eq, y.al, y.contents⟩ := ⟨hy.inv, rfl, rfl, List.Perm.refl _⟩
  obtain ⟨t', out, tr, l, e1, e2, e3, e4, m, e5, e6⟩ := Foa.load_spec c.toCfg hr ⟨x.size, x.contents⟩
  have hlen : x.size = x.contents.length := Foa.size_eq hi
  have hpw : NoDup y.fns.eq x.contents := by
    have := Foa.contents_pairwise hi
    refine this.imp ?_
    intro a b hab; unfold Foa.Ineq at hab; rw [he] at hab; exact hab
  have hdone : out = .done ∧ l.Perm x.contents := by
    cases e4 with
    | done _ _ hl => simp only [hlen, List.take_length] at hl; exact ⟨rfl, hl⟩
    | dup m z hm hz _ _ hq _ =>
      exfalso
      obtain ⟨w, hw, hzw⟩ := hq
      have hsub : (x.contents.take m ++ [z]).Sublist x.contents := by
        have : x.contents.take m ++ [z] = x.contents.take (m + 1) := by
          simp only at hz
          rw [List.take_add_one, hz]; rfl
        rw [this]; exact List.take_sublist _ _
      have hq2 := hpw.sublist hsub
      rw [List.pairwise_append] at hq2
      have h5 := hq2.2.2 w hw z (by simp)
      simp only at hzw
      rw [hy.inv.law.symm _ _ hzw] at h5; cases h5
    | short h1 _ _ => exfalso; simp only at h1; omega
  obtain ⟨rfl, hl⟩ := hdone
  have hperm : t'.contents.Perm x.contents := e3.elems.trans hl
  have hfe : t'.fns.eq = x.fns.eq := by rw [e3.eq, he]
  have heq : ∀ {a b : Foa.Table K V}, a.Inv → b.Inv → a.contents.Perm b.contents → Foa.Table.equal veq a b = some true := by
    intro a b ha hb hab
    rw [Foa.equal_spec veq ha hb]
    simp only [hab.length_eq, decide_true, Bool.true_and, Option.some.injEq, List.all_eq_true, List.any_eq_true,
      Bool.and_eq_true]
    intro z hz
    exact ⟨z, hab.subset hz, hb.law.refl _, hv z⟩
  have htake : x.contents.take m = x.contents := by
    have h1 := (e5.symm.trans hl).length_eq
    simp only [List.length_take] at h1
    exact List.take_of_length_le (by omega)
  simp only [htake] at e6
  refine ⟨_, _, t', tr, Foa.saveTracked_eq hi c.regular, Foa.concSave_eq hi, e1, e2, heq e3.inv hi hperm,
    heq hi e3.inv hperm.symm, ?_, Foa.occ_length hi⟩
  -- the tracked positions
  have h1 : List.Forall₂ (fun p z => x.deref p = some z) x.arr.occ x.contents := by
    have : ∀ ps : List Foa.Pos, (∀ p ∈ ps, ∃ z, x.arr.slot p.1 p.2 = some z) →
        List.Forall₂ (fun p z => x.deref p = some z) ps (ps.filterMap (fun p => x.arr.slot p.1 p.2)) := by
      intro ps
      induction ps with
      | nil => intro _; exact .nil
      | cons p ps ih =>
        intro hps
        obtain ⟨z, hz⟩ := hps p (by simp)
        rw [List.filterMap_cons_some (f := fun p : Foa.Pos => x.arr.slot p.1 p.2) hz]
        exact .cons hz (ih (fun q hq => hps q (by simp [hq])))
    exact this _ (Foa.slots_of_occ hi.arr)
  have comp : ∀ {ps ps' : List Foa.Pos} {zs : List (K × V)}, List.Forall₂ (fun p z => x.deref p = some z) ps zs →
      List.Forall₂ (fun p z => t'.deref p = some z) ps' zs →
      List.Forall₂ (fun p p' => ∃ e, x.deref p = some e ∧ t'.deref p' = some e) ps ps' := by
    intro ps ps' zs ha
    induction ha generalizing ps' with
    | nil => intro hb; cases hb; exact .nil
    | cons hp _ ih =>
      intro hb
      cases hb with
      | cons hq hb => exact .cons ⟨_, hp, hq⟩ (ih hb)
  exact comp h1 e6

/-- a saved archive loads completely -/
theorem loads_saved {u : Bool} {e : K → K → Bool} (hs : ∀ a b, e a b = true → e b a = true) {elems l : List (K × V)}
    {ar : Archive (K × V)} {out : Outcome} (hsv : Saves elems ar) (hn : u = true → NoDup e elems)
    (h : Loads u e ar out l) : out = .done ∧ l.Perm elems := by
  obtain ⟨h1, h2⟩ := hsv
  have hlen := h2.length_eq
  have sy : ∀ {x y : K × V}, e x.1 y.1 = false → e y.1 x.1 = false := by
    intro x y hxy
    by_contra hc
    rw [hs _ _ (by simpa using hc)] at hxy; cases hxy
  cases h with
  | done _ _ hl => rw [List.take_of_length_le (by omega)] at hl; exact ⟨rfl, hl.trans h2⟩
  | dup m x hm hx hu _ he _ =>
    exfalso
    have hnd : NoDup e ar.items := h2.symm.pairwise (hn hu) sy
    obtain ⟨y, hy, hxy⟩ := he
    have hsub : (ar.items.take m ++ [x]).Sublist ar.items := by
      have : ar.items.take m ++ [x] = ar.items.take (m + 1) := by rw [List.take_add_one, hx]; rfl
      rw [this]; exact List.take_sublist _ _
    have hq := hnd.sublist hsub
    rw [List.pairwise_append] at hq
    rw [sy (hq.2.2 y hy x (by simp))] at hxy; cases hxy
  | short h3 _ _ => omega

/-- C33 (round trip, closed addressing): the same for unordered_map/set and, with repeated keys, unordered_multimap/multiset.
-/
theorem C33_closed_round_trip (c : Fca.MCfg K V) (x y : Fca.Table K V) (hx : Props.Closed.Reachable c x)
    (hy : Props.Closed.Reachable c y) (he : x.fns.eq = y.fns.eq) :
    ∃ ar t' l l', x.save = some ar ∧ y.load c.u ar = some (t', .done) ∧ x.iterate = some l ∧ t'.iterate = some l' ∧
      l'.Perm l ∧ ∀ veq, SpecC.EqLawful x.fns.eq veq →
        (if c.u then Fca.Table.equalsUnique veq t' x else Fca.Table.equalsEquiv veq t' x) = some true := by
  have gx := hx.good.r
  have gy := hy.good.r
  obtain ⟨ar, e1, e2, e4⟩ := Fca.save_spec gx rfl
  obtain ⟨t', out, l, f1, f2, f3⟩ := Fca.load_spec gy ar
  have hnd : c.u = true → NoDup y.fns.eq x.contents := by
    intro hu
    have := hx.good.shape.contents hx.good.law
    unfold Fca.Arranged at this
    rw [hu, if_pos rfl, he] at this
    exact this
  obtain ⟨rfl, hl⟩ := loads_saved hy.good.law.symm e2 hnd f3
  obtain ⟨lx, i1, i2, _⟩ := Fca.iterate_spec gx.inv
  obtain ⟨lt, j1, j2, _⟩ := Fca.iterate_spec f2.inv
  have hperm : t'.contents.Perm x.contents := (f2.elems rfl).trans hl
  refine ⟨ar, t', lx, lt, e1, f1, i1, j1, j2.trans (hperm.trans i2.symm), ?_⟩
  intro veq hv
  have hfe : t'.fns.eq = x.fns.eq := by rw [f2.eq, he]
  have hv' : SpecC.EqLawful t'.fns.eq veq := by rw [hfe]; exact hv
  have hm : Fca.Match veq t'.contents x.contents :=
    ⟨t'.contents, hperm, List.forall₂_same.mpr (fun z _ => hv.refl z)⟩
  by_cases hu : c.u = true
  · rw [if_pos hu]
    rw [hu] at f2 gx
    obtain ⟨b, k1, k2⟩ := Fca.equalsUnique_spec f2.inv f2.law (f2.shape rfl) gx.inv gx.law (gx.shape rfl) hfe hv'
    rw [k1, k2.mpr hm]
  · rw [if_neg hu]
    rw [show c.u = false by simpa using hu] at f2 gx
    obtain ⟨b, k1, k2⟩ := Fca.equalsEquiv_spec f2.inv f2.law (f2.shape rfl) gx.inv gx.law (gx.shape rfl) hfe hv'
    rw [k1, k2.mpr hm]

/-! ### Concrete cases -/

/-- a forged archive with a repeated key, one announcing too many items, and a saved one -/
def serSample : List (SOp Nat Nat (Spec.Op Nat Nat)) :=
  [.call (.insertRange 0 ((List.range 40).map (fun i => (i, 10 * i)))), .call (.erase 0 7), .save 0 0, .load 1 0,
   .call (.equal 0 1), .forge 1 ⟨4, [(1, 1), (2, 2), (1, 3), (4, 4)]⟩, .load 1 1, .call (.size 1),
   .forge 2 ⟨100, [(1, 1), (2, 2), (3, 3)]⟩, .load 1 2, .call (.size 1), .call (.insert 1 (3, 0))]

theorem serSample_safe : Safe (foaKind (Foa.MCfg.traits {}) Props.pairEq) serSample (Spec.start Props.natEq, fun _ => ⟨0, []⟩) := by
  unfold serSample
  repeat (first | exact trivial | (refine ⟨trivial, ?_⟩; intro _ _ _))

def outcomes {Res : Type} : List (SRes Res) → List Outcome
  | [] => []
  | .load o :: l => o :: outcomes l
  | _ :: l => outcomes l

set_option maxRecDepth 100000 in
/-- the program runs: the saved archive loads, the one with a repeated key and the short one are rejected -/
example : ((runOn (foaStep false {} Props.pairEq) serSample (Foa.start {} Props.sampleHash Props.natEq, fun _ => ⟨0, []⟩)).map
    (fun r => (outcomes r.2, (r.1.1 0).size, (r.1.1 1).size, (r.1.1 1).capacity))) =
    some ([.done, .badArchive, .archiveError], 39, 3, 119) := by
  decide +kernel

set_option maxRecDepth 100000 in
example : ((runOn (foaStep true {} Props.pairEq) serSample (Foa.start {} Props.sampleHash Props.natEq, fun _ => ⟨0, []⟩)).map
    (fun r => (outcomes r.2, (r.1.1 0).size, (r.1.1 1).size, (r.1.1 1).capacity))) =
    some ([.done, .badArchive, .archiveError], 39, 3, 119) := by
  decide +kernel

/-- the hypotheses of the round trip are met by a container of 36 elements -/
example : ∃ x : Foa.Table Nat Nat, Props.Reachable {} x ∧ x.size = 36 ∧ x.fns.eq = x.fns.eq ∧ ∀ z, Props.pairEq z z = true := by
  obtain ⟨t, h1, h2⟩ := Props.sample_reachable
  exact ⟨t, h1, h2, rfl, fun z => by simp [Props.pairEq]⟩

example : ∃ x : Fca.Table Nat Nat, Props.Closed.Reachable Props.Closed.multi x ∧ x.size = 42 := Props.Closed.sample_reachable_multi

def serSampleC : List (SOp Nat Nat (SpecC.Op Nat Nat)) :=
  [.forge 0 ⟨4, [(1, 1), (2, 2), (1, 3), (4, 4)]⟩, .load 1 0, .call (.on 1 .size)]

theorem serSampleC_safe (u : Bool) : Safe (fcaKind u ⟨false, false, false⟩ Props.pairEq) serSampleC
    (SpecC.start Props.natEq, fun _ => ⟨0, []⟩) := by
  refine ⟨trivial, ?_⟩
  intro _ _ h1
  cases h1
  refine ⟨trivial, ?_⟩
  intro _ _ h2
  cases h2
  exact ⟨by simp [Pre, fcaKind, SpecC.Pre, SpecC.LPre, put], fun _ _ _ => trivial⟩

set_option maxRecDepth 100000 in
/-- equivalent items: an error for unique keys, fine for a multi container -/
example : ((runOn (fcaStep Props.Closed.uniq) serSampleC (Fca.start Props.sampleHash Props.natEq, fun _ => ⟨0, []⟩)).map
    (fun r => (outcomes r.2, (r.1.1 1).size))) = some ([.badArchive], 2) ∧
    ((runOn (fcaStep Props.Closed.multi) serSampleC (Fca.start Props.sampleHash Props.natEq, fun _ => ⟨0, []⟩)).map
    (fun r => (outcomes r.2, (r.1.1 1).size))) = some ([.done], 4) := by
  decide +kernel

end Props.Ser

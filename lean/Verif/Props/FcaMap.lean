/-
Property theorems C19-C22, C24, C39-C41: the closed-addressing containers unordered_map/set (`u = true`) and
unordered_multimap/multiset (`u = false`).
-/
import Verif.Fca.Refine
import Verif.Props.FoaMap

namespace Props.Closed
open Fca
open Spec (Res Traits)
open SpecC (Op LOp)
open Props (sampleHash natEq pairEq sample_lawful)
variable {K V : Type}

/-- A container that some program, run from start-up and respecting the documented preconditions, can produce (and whose
elements have not been moved from one by one). -/
def Reachable (c : MCfg K V) (t : Table K V) : Prop :=
  ∃ (h : K → Nat) (e : K → K → Bool) (ops : List (Op K V)) (s : Nat → Table K V) (outs : List (Res K V)) (r : Nat),
    Spec.Lawful h e ∧ SpecC.Safe c.u c.tr c.veq ops (SpecC.start e) ∧ Fca.run c ops (Fca.start h e) = some (s, outs) ∧
    t = s r ∧ ∀ a, SpecC.Run c.u c.tr c.veq (SpecC.start e) ops outs a → (a r).defined = true

/-- what reachability gives -/
structure Good (u : Bool) (t : Table K V) : Prop where
  inv : SInv t
  law : FLawful t.fns
  shape : Shape u t.fns t.b

theorem Reachable.good {c : MCfg K V} {t : Table K V} (h : Reachable c t) : Good c.u t := by
  obtain ⟨hf, e, ops, s, outs, r, h1, h2, h3, rfl, h5⟩ := h
  obtain ⟨s', outs', a', e1, e2, e3⟩ := run_refines c ops _ _ (start_rs c.u h1) h2
  rw [h3] at e1; cases e1
  exact ⟨(e3 r).inv, (e3 r).law, (e3 r).shape (h5 _ e2)⟩

theorem Good.r {u : Bool} {t : Table K V} (h : Good u t) : R u t ⟨t.fns.eq, t.al, t.contents, true⟩ :=
  ⟨h.inv, h.law, rfl, rfl, fun _ => h.shape, fun _ => List.Perm.refl _⟩

theorem iterate_ginv {t : Table K V} (hs : SInv t) {L : List Nat} (hg : t.b.Ginv L) : t.iterate = some (t.b.elems L) := by
  obtain ⟨it, h1, h2⟩ := Gba.begin_at hg
  have hlen : (t.b.elems L).length = t.size := by rw [hs.len]; exact (Gba.elems_perm hg).length_eq
  unfold Table.iterate Table.begin_
  by_cases h0 : t.size = 0
  · rw [if_pos h0]
    have : t.b.elems L = [] := List.length_eq_zero_iff.mp (by omega)
    rw [this, h0]; rfl
  · rw [if_neg h0, h1]
    exact Gba.walk_at hg _ [] it _ h2 (by omega)

/-! A concrete program showing that the hypotheses below can be met. -/

/-- calls without preconditions on positions -/
def EasyL (u : Bool) : LOp K V → Prop
  | .insertHint i _ => i = 0
  | .insertOrAssign _ _ => u = true
  | .index _ _ => u = true
  | .at _ => u = true
  | .eraseAt _ => False
  | .eraseRange _ _ => False
  | _ => True

/-- calls that keep all allocators equal to 0 and all objects defined -/
def Easy (u : Bool) : Op K V → Prop
  | .on _ o => EasyL u o
  | .construct _ hash eq al _ => al = 0 ∧ Spec.Lawful hash eq
  | .copyConstruct r q al => r ≠ q ∧ al = 0
  | .moveConstruct r q => r ≠ q
  | .moveConstructAlloc r q al => r ≠ q ∧ al = 0
  | .copyAssign _ _ => True
  | .moveAssign _ _ => True
  | .swap _ _ => True
  | .merge r q => r ≠ q
  | .transfer r q _ => r ≠ q
  | .equal _ _ => False

def Plain (a : Nat → SpecC.Obj K V) : Prop := ∀ r, (a r).defined = true ∧ (a r).al = 0

theorem Plain.upd {a : Nat → SpecC.Obj K V} (h : Plain a) (r : Nat) {o : SpecC.Obj K V} (ho : o.defined = true ∧ o.al = 0) :
    Plain (Spec.upd a r o) := by
  intro r'; unfold Spec.upd; split
  · exact ho
  · exact h r'

theorem inserts_plain {u : Bool} {o o' : SpecC.Obj K V} {x e : K × V} {b : Bool} (h : SpecC.Inserts u o x o' e b) :
    o'.defined = o.defined ∧ o'.al = o.al := by
  rcases h with ⟨_, _, _, rfl⟩ | ⟨_, _, _, rfl⟩ <;> exact ⟨rfl, rfl⟩

theorem insertsAll_plain {u : Bool} {o o' : SpecC.Obj K V} {xs : List (K × V)} (h : SpecC.InsertsAll u o xs o') :
    o'.defined = o.defined ∧ o'.al = o.al := by
  induction h with
  | nil => exact ⟨rfl, rfl⟩
  | cons h1 _ ih => obtain ⟨a, b⟩ := inserts_plain h1; exact ⟨ih.1.trans a, ih.2.trans b⟩

theorem lstep_plain {u : Bool} {o o' : SpecC.Obj K V} {op : LOp K V} {res : Res K V} (h : SpecC.LStep u o op res o')
    (hd : o.defined = true ∧ o.al = 0) : o'.defined = true ∧ o'.al = 0 := by
  cases op <;> simp only [SpecC.LStep] at h
  case insert => obtain ⟨e, b, h, _⟩ := h; obtain ⟨a, b⟩ := inserts_plain h; exact ⟨a.trans hd.1, b.trans hd.2⟩
  case insertHint => obtain ⟨e, b, h, _⟩ := h; obtain ⟨a, b⟩ := inserts_plain h; exact ⟨a.trans hd.1, b.trans hd.2⟩
  case insertRange => obtain ⟨a, b⟩ := insertsAll_plain h.1; exact ⟨a.trans hd.1, b.trans hd.2⟩
  case insertOrAssign => rcases h with ⟨_, _, _, rfl⟩ | ⟨_, _, rfl⟩ <;> exact hd
  case index => rcases h with ⟨_, _, _, rfl⟩ | ⟨_, _, rfl⟩ <;> exact hd
  case erase => obtain ⟨_, rfl⟩ := h; exact hd
  case eraseAt => obtain ⟨_, _, _, _, rfl⟩ := h; exact hd
  case eraseRange => obtain ⟨_, _, _, _, _, rfl⟩ := h; exact hd
  case extract => rcases h with ⟨_, _, _, _, _, rfl⟩ | ⟨_, _, rfl⟩ <;> exact hd
  case eraseIf => obtain ⟨_, rfl⟩ := h; exact hd
  case clear => obtain ⟨_, rfl⟩ := h; exact ⟨rfl, hd.2⟩
  case rehash => obtain ⟨_, rfl⟩ := h; exact hd
  case reserve => obtain ⟨_, rfl⟩ := h; exact hd
  case maxLoadFactor => obtain ⟨_, rfl⟩ := h; exact hd
  all_goals (obtain ⟨rfl, _⟩ := h; exact hd)

theorem step_plain {u : Bool} {tr : Traits} {veq : K × V → K × V → Bool} {a a' : Nat → SpecC.Obj K V} {op : Op K V}
    {res : Res K V} (he : Easy u op) (h : SpecC.Step u tr veq a op res a') (hp : Plain a) : Plain a' := by
  cases op <;> simp only [SpecC.Step] at h
  case on r o => obtain ⟨o', h1, rfl⟩ := h; exact hp.upd r (lstep_plain h1 (hp r))
  case construct => obtain ⟨_, rfl⟩ := h; exact hp.upd _ ⟨rfl, he.1⟩
  case copyConstruct r q al => obtain ⟨_, rfl⟩ := h; exact hp.upd _ ⟨(hp q).1, he.2⟩
  case moveConstruct r q => obtain ⟨_, rfl⟩ := h; exact (hp.upd _ (hp q)).upd _ (hp q)
  case moveConstructAlloc r q al =>
    obtain ⟨_, rfl⟩ := h
    rw [if_pos (he.2.trans (hp q).2.symm)]
    refine Plain.upd (Plain.upd hp r ?_) q ?_
    · exact ⟨(hp q).1, he.2⟩
    · exact hp q
  case copyAssign r q =>
    obtain ⟨_, rfl⟩ := h
    split
    · exact hp
    · exact hp.upd _ ⟨(hp q).1, by dsimp only; split <;> [exact (hp q).2; exact (hp r).2]⟩
  case moveAssign r q =>
    obtain ⟨_, rfl⟩ := h
    split
    · exact hp
    · refine Plain.upd (Plain.upd hp r ?_) q ?_
      · exact ⟨(hp q).1, by dsimp only; split <;> [exact (hp q).2; exact (hp r).2]⟩
      · rw [if_pos (Or.inr ((hp r).2.trans (hp q).2.symm))]
        exact hp q
  case swap r q => obtain ⟨_, rfl⟩ := h; exact (hp.upd _ (hp q)).upd _ (hp r)
  case merge r q =>
    obtain ⟨_, h⟩ := h
    rw [if_neg he] at h
    obtain ⟨_, _, _, _, _, rfl⟩ := h
    refine Plain.upd (Plain.upd hp r ?_) q ?_
    · exact hp r
    · exact hp q
  case transfer r q k =>
    rcases h with ⟨_, _, rfl⟩ | ⟨_, _, _, _, _, _, _, h3, _, rfl⟩
    · exact hp
    · obtain ⟨x, y⟩ := inserts_plain h3
      exact Plain.upd (Plain.upd hp r ⟨x.trans (hp r).1, y.trans (hp r).2⟩) q (hp q)
  case equal => exact absurd he id

theorem easy_safe {u : Bool} {tr : Traits} {veq : K × V → K × V → Bool} : ∀ (ops : List (Op K V))
    (a : Nat → SpecC.Obj K V), (∀ op ∈ ops, Easy u op) → Plain a → SpecC.Safe u tr veq ops a
  | [], _, _, _ => trivial
  | op :: ops, a, he, hp => by
    have h1 := he op (List.mem_cons_self ..)
    refine ⟨?_, fun res a' h => easy_safe ops a' (fun o ho => he o (List.mem_cons_of_mem _ ho)) (step_plain h1 h hp)⟩
    cases op <;> simp only [SpecC.Pre]
    case on r o =>
      have := (hp r).1
      cases o <;> simp only [SpecC.LPre, this, true_and]
      case insertHint i x =>
        have : i = 0 := h1
        omega
      case insertOrAssign => exact h1
      case index => exact h1
      case «at» => exact h1
      case eraseAt => exact absurd h1 id
      case eraseRange => exact absurd h1 id
    case construct => exact h1.2
    case copyConstruct r q al => exact ⟨h1.1, (hp q).1⟩
    case moveConstruct r q => exact ⟨h1, (hp q).1⟩
    case moveConstructAlloc r q al => exact ⟨h1.1, (hp q).1⟩
    case copyAssign r q =>
      exact ⟨(hp q).1, fun h => h.2.2.1 ((hp r).2.trans (hp q).2.symm)⟩
    case moveAssign r q => exact (hp q).1
    case swap r q => exact Or.inr ((hp r).2.trans (hp q).2.symm)
    case merge r q => exact ⟨(hp r).1, (hp q).1, (hp r).2.trans (hp q).2.symm, fun h => absurd h h1⟩
    case transfer r q k => exact ⟨(hp r).1, (hp q).1, (hp r).2.trans (hp q).2.symm, h1⟩
    case equal => exact absurd h1 id

theorem easy_plain {u : Bool} {tr : Traits} {veq : K × V → K × V → Bool} {ops : List (Op K V)}
    {a a' : Nat → SpecC.Obj K V} {outs : List (Res K V)} (h : SpecC.Run u tr veq a ops outs a')
    (he : ∀ op ∈ ops, Easy u op) (hp : Plain a) : Plain a' := by
  induction h with
  | nil => exact hp
  | cons h1 _ ih => exact ih (fun o ho => he o (List.mem_cons_of_mem _ ho)) (step_plain (he _ (List.mem_cons_self ..)) h1 hp)

theorem start_plain (e : K → K → Bool) : Plain (SpecC.start e : Nat → SpecC.Obj K V) := fun _ => ⟨rfl, rfl⟩

/-- a multimap program with duplicate keys, colliding hashes, growth, erasures and copies -/
def sample : List (Op Nat Nat) :=
  [.on 0 (.insertRange true ((List.range 30).map (fun i => (i % 7, i)))), .on 0 (.insert (3, 100)), .on 0 (.erase 4),
   .copyConstruct 1 0 0, .on 1 (.insertHint 0 (5, 7)), .on 1 (.rehash 200), .swap 0 1,
   .on 1 (.eraseIf (fun x => x.2 % 2 == 0)), .on 0 (.reserve 50), .transfer 1 0 6, .on 1 (.insert (8, 8)), .merge 1 0,
   .moveAssign 2 1]

def multi : MCfg Nat Nat := ⟨false, ⟨false, false, false⟩, id, pairEq⟩
def uniq : MCfg Nat Nat := ⟨true, ⟨false, false, false⟩, id, pairEq⟩

theorem sample_easy (u : Bool) : ∀ op ∈ sample, Easy u op := by
  intro op h
  simp only [sample, List.mem_cons, List.not_mem_nil, or_false] at h
  rcases h with h | h | h | h | h | h | h | h | h | h | h | h | h <;> subst h <;> simp [Easy, EasyL]

theorem sample_safe (u : Bool) (tr : Traits) : SpecC.Safe u tr pairEq sample (SpecC.start natEq) :=
  easy_safe _ _ (sample_easy u) (start_plain _)

set_option maxRecDepth 100000 in
theorem sample_run_multi : ((Fca.run multi sample (Fca.start sampleHash natEq)).map
    (fun r => ((r.1 0).size, (r.1 1).size, (r.1 2).size, (r.1 2).bucketCount))) = some (0, 0, 42, 53) := by
  decide +kernel

set_option maxRecDepth 100000 in
theorem sample_run_uniq : ((Fca.run uniq sample (Fca.start sampleHash natEq)).map
    (fun r => ((r.1 0).size, (r.1 1).size, (r.1 2).size, (r.1 2).bucketCount))) = some (3, 0, 7, 13) := by
  decide +kernel

/-- a program of easy calls that runs makes its variables reachable -/
theorem reach_easy (c : MCfg Nat Nat) (ops : List (Op Nat Nat)) (he : ∀ op ∈ ops, Easy c.u op) (r : Nat) {β : Type}
    {f : Table Nat Nat → β} {y : β} (h : ((Fca.run c ops (Fca.start sampleHash natEq)).map (fun p => f (p.1 r))) = some y) :
    ∃ t : Table Nat Nat, Reachable c t ∧ f t = y := by
  cases hr : Fca.run c ops (Fca.start sampleHash natEq) with
  | none => rw [hr] at h; cases h
  | some p =>
    rw [hr] at h
    simp only [Option.map_some, Option.some.injEq] at h
    exact ⟨p.1 r, ⟨sampleHash, natEq, ops, p.1, p.2, r, sample_lawful, easy_safe _ _ he (start_plain _), hr, rfl,
      fun a ha => (easy_plain ha he (start_plain _) r).1⟩, h⟩

theorem sample_reachable_multi : ∃ t : Table Nat Nat, Reachable multi t ∧ t.size = 42 := by
  have h := sample_run_multi
  cases hr : Fca.run multi sample (Fca.start sampleHash natEq) with
  | none => rw [hr] at h; cases h
  | some p =>
    rw [hr] at h
    simp only [Option.map_some, Option.some.injEq, Prod.mk.injEq] at h
    exact ⟨p.1 2, ⟨sampleHash, natEq, sample, p.1, p.2, 2, sample_lawful, sample_safe _ _, hr, rfl,
      fun a ha => (easy_plain ha (sample_easy _) (start_plain _) 2).1⟩, h.2.2.1⟩

theorem sample_reachable_uniq : ∃ t : Table Nat Nat, Reachable uniq t ∧ t.size = 7 := by
  have h := sample_run_uniq
  cases hr : Fca.run uniq sample (Fca.start sampleHash natEq) with
  | none => rw [hr] at h; cases h
  | some p =>
    rw [hr] at h
    simp only [Option.map_some, Option.some.injEq, Prod.mk.injEq] at h
    exact ⟨p.1 2, ⟨sampleHash, natEq, sample, p.1, p.2, 2, sample_lawful, sample_safe _ _, hr, rfl,
      fun a ha => (easy_plain ha (sample_easy _) (start_plain _) 2).1⟩, h.2.2.1⟩

/-! ### C19, C20 -/

/-- C19. Every program over unordered_map/set objects that respects the preconditions runs without undefined behaviour; its
answers and final contents are allowed by the abstract unique-key container (`Verif/SpecC.lean`), and afterwards each variable
iterates exactly over the elements of its abstract counterpart, no two of which have equivalent keys. -/
theorem C19_program_refines_abstract_map (c : MCfg K V) (hu : c.u = true) (h : K → Nat) (e : K → K → Bool)
    (hl : Spec.Lawful h e) (ops : List (Op K V)) (hp : SpecC.Safe true c.tr c.veq ops (SpecC.start e)) :
    ∃ s outs a, Fca.run c ops (Fca.start h e) = some (s, outs) ∧ SpecC.Run true c.tr c.veq (SpecC.start e) ops outs a ∧
      ∀ r, (a r).defined = true → ∃ l, (s r).iterate = some l ∧ l.Perm (a r).elems ∧
        (s r).size = (a r).elems.length ∧ l.Pairwise (fun x y => (a r).eq x.1 y.1 = false) := by
  rw [← hu] at hp
  obtain ⟨s, outs, a, h1, h2, h3⟩ := run_refines c ops _ _ (start_rs c.u hl) hp
  rw [hu] at h2 h3
  refine ⟨s, outs, a, h1, h2, fun r hd => ?_⟩
  obtain ⟨l, e1, e2, _, e4⟩ := iterate_spec (h3 r).inv
  have := e4 true (h3 r).law ((h3 r).shape hd)
  unfold Arranged at this
  rw [if_pos rfl, (h3 r).eq] at this
  exact ⟨l, e1, e2.trans ((h3 r).elems hd), (h3 r).size hd, this⟩

example : Spec.Lawful sampleHash natEq ∧ SpecC.Safe true uniq.tr uniq.veq sample (SpecC.start natEq) :=
  ⟨sample_lawful, sample_safe _ _⟩

/-- C20. Every program over unordered_multimap/multiset objects that respects the preconditions runs without undefined
behaviour; its answers and final contents are allowed by the abstract multi container, and afterwards each variable iterates
exactly over the elements of its abstract counterpart, equivalent ones being adjacent. -/
theorem C20_program_refines_abstract_multimap (c : MCfg K V) (hu : c.u = false) (h : K → Nat) (e : K → K → Bool)
    (hl : Spec.Lawful h e) (ops : List (Op K V)) (hp : SpecC.Safe false c.tr c.veq ops (SpecC.start e)) :
    ∃ s outs a, Fca.run c ops (Fca.start h e) = some (s, outs) ∧ SpecC.Run false c.tr c.veq (SpecC.start e) ops outs a ∧
      ∀ r, (a r).defined = true → ∃ l, (s r).iterate = some l ∧ l.Perm (a r).elems ∧
        (s r).size = (a r).elems.length ∧ SpecC.Contig (a r).eq l := by
  rw [← hu] at hp
  obtain ⟨s, outs, a, h1, h2, h3⟩ := run_refines c ops _ _ (start_rs c.u hl) hp
  rw [hu] at h2 h3
  refine ⟨s, outs, a, h1, h2, fun r hd => ?_⟩
  obtain ⟨l, e1, e2, _, e4⟩ := iterate_spec (h3 r).inv
  have := (e4 false (h3 r).law ((h3 r).shape hd)).contig
  rw [(h3 r).eq] at this
  exact ⟨l, e1, e2.trans ((h3 r).elems hd), (h3 r).size hd, this⟩

example : Spec.Lawful sampleHash natEq ∧ SpecC.Safe false multi.tr multi.veq sample (SpecC.start natEq) :=
  ⟨sample_lawful, sample_safe _ _⟩

/-- C20. In every reachable multi container, `equal_range(k)` is one contiguous block of the iteration sequence, holding all
elements equivalent to `k` and nothing else, and `count(k)` is its length. -/
theorem C20_equal_range_is_the_group (c : MCfg K V) (hu : c.u = false) (t : Table K V) (h : Reachable c t) (k : K) :
    ∃ pre mid post, t.iterate = some (pre ++ mid ++ post) ∧ t.equalRangeEquiv k = some mid ∧
      t.groupCount k = some mid.length ∧ (∀ x ∈ mid, t.fns.eq k x.1 = true) ∧
      ∀ x ∈ pre ++ post, t.fns.eq k x.1 = false := by
  have hg := h.good
  rw [hu] at hg
  have hc := groupCount_spec hg.inv hg.law hg.shape k
  rcases find_spec hg.inv hg.law hg.shape.1 k with ⟨h1, h2⟩ | ⟨i, x, h1, h2, _, _, _⟩
  · obtain ⟨l, e1, e2, _, _⟩ := iterate_spec hg.inv
    refine ⟨l, [], [], by simpa using e1, ?_, ?_, by simp, ?_⟩
    · unfold Table.equalRangeEquiv; rw [h1]
      cases hs : t.size <;> rfl
    · rw [hc, List.countP_eq_zero.mpr]
      · rfl
      · intro a ha; rw [h2 a ha]; simp
    · intro y hy
      exact h2 y (e2.subset (by simpa using hy))
  · obtain ⟨L, pre, y, ys, post, a1, a2, a3, a4⟩ := find_at hg.inv hg.law hg.shape k h1
    have hlen := At.length hg.inv a1 a2
    obtain ⟨it', b1, b2⟩ := nextGroup_at a1 (k := k) (y :: ys) t.size _ pre post a2 a3
      (fun z hz => a4 z (List.mem_append_right _ hz)) (by simp only [List.length_append] at hlen; omega)
    refine ⟨pre, y :: ys, post, ?_, ?_, ?_, a3, a4⟩
    · rw [iterate_ginv hg.inv a1, a2.elems, List.append_assoc]
    · unfold Table.equalRangeEquiv; simp only [h1, b1, Option.map_some]
    · rw [hc]
      have := at_filter a1 a2 (p := fun e => t.fns.eq k e.1) a3 a4
      rw [List.countP_eq_length_filter, this.length_eq]

example : ∃ t : Table Nat Nat, Reachable multi t ∧ t.size = 42 := sample_reachable_multi

/-! ### C21 -/

theorem filter_flatMap_one {α : Type} (f : Nat → List α) (p : α → Bool) (b : Nat) :
    ∀ (bs : List Nat), bs.Nodup → (∀ b', b' ≠ b → ∀ x ∈ f b', p x = false) → (b ∉ bs → ∀ x ∈ f b, p x = false) →
      (bs.flatMap f).filter p = (f b).filter p
  | [], _, _, h2 => by
    have : (f b).filter p = [] := by
      rw [List.filter_eq_nil_iff]
      intro x hx; rw [h2 (by simp) x hx]; simp
    rw [this]; rfl
  | a :: bs, hn, h1, h2 => by
    rw [List.nodup_cons] at hn
    rw [List.flatMap_cons, List.filter_append]
    by_cases ha : a = b
    · subst ha
      have : (bs.flatMap f).filter p = [] := by
        rw [List.filter_eq_nil_iff]
        intro x hx
        obtain ⟨b', hb', hx'⟩ := List.mem_flatMap.mp hx
        rw [h1 b' (fun hc => hn.1 (hc ▸ hb')) x hx']; simp
      rw [this, List.append_nil]
    · have : (f a).filter p = [] := by
        rw [List.filter_eq_nil_iff]
        intro x hx
        rw [h1 a ha x hx]; simp
      rw [this, List.nil_append]
      refine filter_flatMap_one f p b bs hn.2 h1 (fun hb => h2 ?_)
      simp only [List.mem_cons, not_or]
      exact ⟨fun hc => ha hc.symm, hb⟩

theorem filter_elems {t : Table K V} (hl : FLawful t.fns) (hp : Placed t.fns t.b) {L : List Nat} (hg : t.b.Ginv L) (k : K) :
    (t.b.elems L).filter (fun e => t.fns.eq k e.1) = (t.b.chain (t.pos k)).filter (fun e => t.fns.eq k e.1) := by
  refine filter_flatMap_one _ _ _ _ (Gba.order_nodup hg) ?_ ?_
  · intro b hb x hx
    cases hq : t.fns.eq k x.1 with
    | false => rfl
    | true =>
      exfalso; apply hb
      rw [← hp b x hx]
      unfold Table.pos
      rw [hl.compat _ _ hq]
  · intro hn x hx
    exact absurd ((Gba.mem_order hg).mpr (Or.inr (List.ne_nil_of_mem hx))) hn

/-- C21 (what the code does instead): rehashing changes nothing if the bucket count stays; otherwise it exactly reverses the
order of every group of equivalent elements. In both cases the multiset of elements is kept and equivalent elements stay
adjacent. Missing for C21: the relative order is reversed, not preserved. -/
theorem C21_rehash_reverses_groups_partial (c : MCfg K V) (hu : c.u = false) (t : Table K V) (h : Reachable c t) (n : Nat) :
    ∃ t' l l', t.rehash n = some t' ∧ t.iterate = some l ∧ t'.iterate = some l' ∧ l'.Perm l ∧ SpecC.Contig t.fns.eq l' ∧
      (t'.bucketCount = t.bucketCount → l' = l) ∧
      (t'.bucketCount ≠ t.bucketCount →
        ∀ k, l'.filter (fun e => t.fns.eq k e.1) = (l.filter (fun e => t.fns.eq k e.1)).reverse) := by
  have hg := h.good
  rw [hu] at hg
  obtain ⟨l, i1, i2, i3, i4⟩ := iterate_spec hg.inv
  obtain ⟨t', h1, h2, h3⟩ := rehash_spec hg.inv n
  obtain ⟨l', j1, j2, j3, j4⟩ := iterate_spec h2.inv
  refine ⟨t', l, l', h1, i1, j1, j2.trans (h2.perm.trans i2.symm), ?_, ?_, ?_⟩
  · have := (j4 false (by rw [h2.fns]; exact hg.law) (by rw [h2.fns]; exact h2.shape _ hg.law hg.shape)).contig
    rw [h2.fns] at this; exact this
  · intro hb
    have : t' = t := by
      unfold Table.rehash at h1
      simp only at h1
      split at h1
      · next hne =>
        exfalso; apply hne
        rw [← h3]; exact hb
      · cases h1; rfl
    subst this
    rw [i1] at j1; cases j1; rfl
  · intro hb k
    by_cases h0 : t.size = 0
    · have e1 : l = [] := List.length_eq_zero_iff.mp (by omega)
      have e2 : l' = [] := List.length_eq_zero_iff.mp (by rw [j3, h2.size]; exact h0)
      rw [e1, e2]; rfl
    · obtain ⟨L, hL⟩ := hg.inv.ginv h0
      obtain ⟨L', hL'⟩ := h2.inv.ginv (by rw [h2.size]; exact h0)
      have hsh := h2.shape _ hg.law hg.shape
      have hl' : FLawful t'.fns := by rw [h2.fns]; exact hg.law
      have hp' : Placed t'.fns t'.b := by rw [h2.fns]; exact hsh.1
      have hfe := filter_elems hl' hp' hL' k
      rw [iterate_ginv h2.inv hL'] at j1; cases j1
      rw [iterate_ginv hg.inv hL] at i1; cases i1
      rw [h2.fns] at hfe
      rw [hfe, filter_elems hg.law hg.shape.1 hL, ← filter_contents hg.law hg.shape.1 hL]
      have hr : t.rehashImpl (Gba.bucketCountFor (max (minBuckets t.size t.mlf) n)) = some t' := by
        unfold Table.rehash at h1
        simp only at h1
        split at h1
        · exact h1
        · cases h1; exact absurd rfl hb
      obtain ⟨t'', g1, _, _, _, _, g6⟩ := rehashImpl_spec hg.inv
        (n := Gba.bucketCountFor (max (minBuckets t.size t.mlf) n)) (by
          left
          exact le_bucketCountFor_pos (by
            have := minBuckets_pos t.mlf (Nat.pos_of_ne_zero h0); omega))
      rw [hr] at g1; cases g1
      rw [g6, List.filter_reverse, List.filter_filter]
      congr 1
      apply List.filter_congr
      intro x _
      cases hq : t.fns.eq k x.1 with
      | false => simp
      | true =>
        simp only [Bool.true_and, decide_eq_true_eq]
        unfold Table.pos
        rw [h2.fns, hg.law.compat _ _ hq]

set_option maxRecDepth 100000 in
/-- C21 is false: there is a reachable multimap in which `rehash(100)` changes the relative order of three elements with the
same key. -/
theorem C21_rehash_does_not_preserve_order : ∃ t : Table Nat Nat, Reachable multi t ∧
    t.iterate = some [(1, 1), (1, 3), (1, 2)] ∧
    ∃ t', t.rehash 100 = some t' ∧ t'.iterate = some [(1, 2), (1, 3), (1, 1)] := by
  obtain ⟨t, h1, h2⟩ := reach_easy multi [.on 0 (.insertRange true [(1, 1), (1, 2), (1, 3)])] (by simp [Easy, EasyL]) 0
    (f := fun t => (t.iterate, (t.rehash 100).bind Table.iterate))
    (y := (some [(1, 1), (1, 3), (1, 2)], some [(1, 2), (1, 3), (1, 1)])) (by decide +kernel)
  injection h2 with h2 h3
  refine ⟨t, h1, h2, ?_⟩
  cases hr : t.rehash 100 with
  | none => rw [hr] at h3; cases h3
  | some t' => rw [hr] at h3; exact ⟨t', rfl, h3⟩

/-! ### C22 -/

/-- C22. Iteration over the grouped bucket array is the concatenation of the local iterations over a duplicate-free list of
exactly the non-empty buckets. -/
theorem C22_iteration_visits_each_bucket_once (c : MCfg K V) (t : Table K V) (h : Reachable c t) :
    ∃ bs : List Nat, bs.Nodup ∧ (∀ b, b ∈ bs ↔ b < t.bucketCount ∧ ∃ x l, t.localIterate b = some (x :: l)) ∧
      ∃ ls, bs.mapM t.localIterate = some ls ∧ t.iterate = some ls.flatten := by
  have hg := h.good
  by_cases hz : t.b.size = 0
  · refine ⟨[], List.nodup_nil, ?_, [], rfl, ?_⟩
    · intro b; simp [Table.bucketCount, hz]
    · have h0 : t.size = 0 := by
        by_contra hc; exact hg.inv.pos hc hz
      unfold Table.iterate Table.begin_; rw [if_pos h0, h0]; rfl
  · obtain ⟨L, hL⟩ := hg.inv.wf.ginv hz
    obtain ⟨xs, hxs⟩ := Gba.order_last hL
    have hnd := Gba.order_nodup hL
    rw [hxs] at hnd
    have hget : ∀ b, b ≤ t.b.size → t.localIterate b = some (t.b.chain b) := by
      intro b hb; unfold Table.localIterate; rw [if_neg hz]; exact Gba.get_of_le hL (it := ⟨b, none⟩) hb
    have hmem : ∀ b, b ∈ xs ↔ t.b.chain b ≠ [] := by
      intro b
      have h1 := Gba.mem_order hL (b := b)
      rw [hxs] at h1
      simp only [List.mem_append, List.mem_singleton] at h1
      constructor
      · intro hb
        rcases h1.mp (Or.inl hb) with hc | hc
        · subst hc
          exact absurd hb (by
            intro hb2
            have := (List.nodup_append.mp hnd).2.2 _ hb2 _ (List.mem_singleton.mpr rfl)
            exact this rfl)
        · exact hc
      · intro hb
        rcases h1.mpr (Or.inr hb) with hc | hc
        · exact hc
        · subst hc; exact absurd (Gba.chain_size hL) hb
    refine ⟨xs, (List.nodup_append.mp hnd).1, ?_, xs.map t.b.chain, ?_, ?_⟩
    · intro b
      rw [hmem]
      constructor
      · intro hb
        have hlt := hL.nonempty_lt hb
        refine ⟨hlt, ?_⟩
        rw [hget b (by omega)]
        cases hc : t.b.chain b with
        | nil => exact absurd hc hb
        | cons x l => exact ⟨x, l, rfl⟩
      · rintro ⟨hlt, x, l, he⟩
        have hlt' : b < t.b.size := hlt
        rw [hget b (by omega)] at he
        cases he' : t.b.chain b with
        | nil => rw [he'] at he; cases he
        | cons y m => simp
    · have : ∀ ys : List Nat, (∀ b ∈ ys, b ≤ t.b.size) → ys.mapM t.localIterate = some (ys.map t.b.chain) := by
        intro ys
        induction ys with
        | nil => intro _; rfl
        | cons y ys ih =>
          intro hy
          rw [List.mapM_cons, hget y (hy y (List.mem_cons_self ..)), ih (fun b hb => hy b (List.mem_cons_of_mem _ hb))]
          rfl
      exact this xs (fun b hb => Nat.le_of_lt (hL.nonempty_lt ((hmem b).mp hb)))
    · rw [iterate_ginv hg.inv hL]
      unfold Gba.elems
      rw [hxs, List.flatMap_append, List.flatMap_singleton, Gba.chain_size hL, List.append_nil]
      rfl

example : ∃ t : Table Nat Nat, Reachable multi t ∧ t.size = 42 := sample_reachable_multi

/-! ### C39 -/

/-- C39. The bucket interface partitions the container: with `bucket_count() > 0`, `bucket(k) < bucket_count()` for every key;
bucket `n` holds exactly the elements whose key maps to it; `bucket_size(n)` is its length; iterating all the buckets gives
every element exactly once, so the bucket sizes sum to `size()`. -/
theorem C39_buckets_partition (c : MCfg K V) (t : Table K V) (h : Reachable c t) (hz : t.bucketCount ≠ 0) :
    (∀ k, t.bucketOf k < t.bucketCount) ∧
    (∀ n, n < t.bucketCount → ∃ l, t.localIterate n = some l ∧ t.bucketSize n = some l.length ∧
      ∃ all, t.iterate = some all ∧ ∀ x, x ∈ l ↔ x ∈ all ∧ t.bucketOf x.1 = n) ∧
    ∃ ls all, (List.range t.bucketCount).mapM t.localIterate = some ls ∧ t.iterate = some all ∧ ls.flatten.Perm all ∧
      (ls.map List.length).sum = t.size := by
  have hg := h.good
  change t.b.size ≠ 0 at hz
  obtain ⟨L, hL⟩ := hg.inv.wf.ginv hz
  have hget : ∀ b, b ≤ t.b.size → t.localIterate b = some (t.b.chain b) := by
    intro b hb; unfold Table.localIterate; rw [if_neg hz]; exact Gba.get_of_le hL (it := ⟨b, none⟩) hb
  refine ⟨fun k => Gba.position_lt hL _, ?_, ?_⟩
  · intro n hn
    have hn' : n < t.b.size := hn
    refine ⟨_, hget n (by omega), ?_, _, iterate_ginv hg.inv hL, ?_⟩
    · unfold Table.bucketSize
      split
      · rw [Gba.at_eq (by omega), Gba.get_of_le hL (by simpa using Nat.le_of_lt hn')]; rfl
      · next h0 =>
        have := hg.inv.contents_nil (by omega)
        rw [Gba.WF.chain_nil hg.inv.wf this]; rfl
    · intro x
      rw [Gba.mem_elems hL]
      constructor
      · intro hx; exact ⟨⟨n, hx⟩, hg.shape.1 n x hx⟩
      · rintro ⟨⟨b, hb⟩, hx⟩
        have := hg.shape.1 b x hb
        unfold Table.bucketOf at hx
        rw [this] at hx; subst hx; exact hb
  · refine ⟨(List.range t.b.size).map t.b.chain, _, ?_, iterate_ginv hg.inv hL, ?_, ?_⟩
    · have : ∀ ys : List Nat, (∀ b ∈ ys, b < t.b.size) → ys.mapM t.localIterate = some (ys.map t.b.chain) := by
        intro ys
        induction ys with
        | nil => intro _; rfl
        | cons y ys ih =>
          intro hy
          rw [List.mapM_cons, hget y (Nat.le_of_lt (hy y (List.mem_cons_self ..))),
            ih (fun b hb => hy b (List.mem_cons_of_mem _ hb))]
          rfl
      exact this _ (fun b hb => List.mem_range.mp hb)
    · exact (Gba.elems_perm hL).symm
    · rw [hg.inv.len]
      show _ = (t.b.contents).length
      unfold Gba.contents
      rw [List.length_flatMap, List.map_map]; rfl

set_option maxRecDepth 100000 in
example : ((Fca.run multi sample (Fca.start sampleHash natEq)).map
    (fun r => ((r.1 2).bucketCount, (r.1 2).bucketOf 5, ((r.1 2).bucketSize ((r.1 2).bucketOf 5))))) =
    some (53, 23, some 14) := by decide +kernel

/-! ### C40 -/

/-- C40. `erase(it)` at any position of any reachable container removes that element only, keeps the others in their order, and
returns an iterator to the element that followed (walking on from it shows exactly the elements that followed). -/
theorem C40_erase_at (c : MCfg K V) (t : Table K V) (h : Reachable c t) (pre post : List (K × V)) (x : K × V)
    (hi : t.iterate = some (pre ++ x :: post)) :
    ∃ q t' it', t.begin_.bind (t.advance pre.length) = some (some q) ∧ t.b.deref q = some x ∧
      t.eraseNode q = some (t', it') ∧ t'.iterate = some (pre ++ post) ∧ t'.b.walk post.length it' = some post ∧
      t'.size + 1 = t.size ∧ t'.bucketCount = t.bucketCount := by
  have hg := h.good
  obtain ⟨l, e1, _, e3, _⟩ := iterate_spec hg.inv
  rw [hi] at e1; cases e1
  rcases advance_begin hg.inv (i := pre.length) (by rw [← e3]; simp) with ⟨_, h0⟩ | ⟨L, it, pre', post', g1, g2, g3, g4⟩
  · exfalso; rw [← e3] at h0; simp at h0
  · have hel := g3.elems
    have := iterate_ginv hg.inv g1
    rw [hi] at this
    injection this with this
    rw [hel] at this
    obtain ⟨rfl, rfl⟩ := List.append_inj this.symm g4
    obtain ⟨q, rfl⟩ := g3.some_of_cons
    obtain ⟨t', L', it', k1, k2, k3, k4⟩ := eraseNode_at hg.inv g1 g3
    refine ⟨q, t', it', g2, g3.deref g1, k1, ?_, Gba.walk_at k3 _ _ _ _ k4 (Nat.le_refl _), ?_, k2.bsize⟩
    · rw [iterate_ginv k2.inv k3, k4.elems]
    · rw [k2.size]; rfl

/-- C40. `erase(first,last)` removes exactly the elements of the range and keeps the others in their order. -/
theorem C40_erase_range (c : MCfg K V) (t : Table K V) (h : Reachable c t) (pre mid post : List (K × V))
    (hi : t.iterate = some (pre ++ mid ++ post)) :
    ∃ t', t.opEraseRange pre.length mid.length = some t' ∧ t'.iterate = some (pre ++ post) ∧
      t'.size + mid.length = t.size ∧ t'.bucketCount = t.bucketCount := by
  have hg := h.good
  obtain ⟨l, e1, _, e3, _⟩ := iterate_spec hg.inv
  rw [hi] at e1; cases e1
  rcases advance_begin hg.inv (i := pre.length) (by rw [← e3]; simp) with ⟨h1, h0⟩ | ⟨L, it, pre', post', g1, g2, g3, g4⟩
  · have e4 : (pre ++ mid ++ post).length = 0 := e3.trans h0
    simp only [List.length_append] at e4
    have a1 : pre = [] := List.length_eq_zero_iff.mp (by omega)
    have a2 : mid = [] := List.length_eq_zero_iff.mp (by omega)
    have a3 : post = [] := List.length_eq_zero_iff.mp (by omega)
    subst a1; subst a2; subst a3
    exact ⟨t, by unfold Table.opEraseRange; rw [h1]; rfl, hi, rfl, rfl⟩
  · have hel := g3.elems
    have := iterate_ginv hg.inv g1
    rw [hi] at this
    injection this with this
    rw [hel, List.append_assoc] at this
    obtain ⟨rfl, rfl⟩ := List.append_inj this.symm g4
    obtain ⟨t', L', k1, k2, k3, k4⟩ := eraseRange_at hg.inv g1 g3
    refine ⟨t', by unfold Table.opEraseRange; rw [g2]; exact k1, ?_, k2.size.symm, k2.bsize⟩
    rw [iterate_ginv k2.inv k3, k4]

/-- C40. `erase_if(c,pred)` removes exactly the elements satisfying `pred`, keeps the others in their order and returns the
number removed. -/
theorem C40_erase_if (c : MCfg K V) (t : Table K V) (h : Reachable c t) (pr : K × V → Bool) (l : List (K × V))
    (hi : t.iterate = some l) :
    ∃ t', t.eraseIf pr = some (t', l.countP pr) ∧ t'.iterate = some (l.filter (fun e => !pr e)) := by
  have hg := h.good
  rcases begin_spec hg.inv with ⟨h1, h2⟩ | ⟨L, it, g1, g2, g3, g4, g5⟩
  · obtain ⟨l', e1, e2, _, _⟩ := iterate_spec hg.inv
    rw [hi] at e1; cases e1
    rw [h2] at e2
    have := List.Perm.eq_nil e2; subst this
    refine ⟨t, ?_, hi⟩
    unfold Table.eraseIf; rw [h1]
    cases hs : t.size with
    | zero => simp [Table.eraseIfLoop]
    | succ n => simp [Table.eraseIfLoop, hs]
  · have := iterate_ginv hg.inv g1
    rw [hi] at this; cases this
    obtain ⟨t', L', k1, k2, k3, k4⟩ := eraseIfLoop_at pr _ t.size t L it [] hg.inv g1 g3 (by omega)
    refine ⟨t', ?_, ?_⟩
    · unfold Table.eraseIf; rw [g2]; simp only [k1, Option.map_some]
      have := k2.size
      rw [List.countP_eq_length_filter]
      congr 2; omega
    · rw [iterate_ginv k2.inv k3, k4]; rfl

set_option maxRecDepth 100000 in
/-- the hypotheses of the C40 theorems are met by a reachable container -/
example : ((Fca.run multi sample (Fca.start sampleHash natEq)).map
    (fun r => (((r.1 2).iterate).map (fun l => (l.length, l.take 3))))) =
    some (some (42, [(6, 27), (6, 27), (6, 20)])) := by decide +kernel

end Props.Closed

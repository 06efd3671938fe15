/-
Programs with statistics behave as `SpecStats.Allowed` says.
-/
import Verif.Foa.StatsLemmas

namespace Foa
open Spec (Op Res upd Obj)
open SpecStats
open Table Arrays
variable {K V : Type}

def StOk (st : Nat → CStats) (l : Nat → List Sample) : Prop := ∀ r, (st r).Ok (l r)

theorem StOk.upd {st : Nat → CStats} {l : Nat → List Sample} (h : StOk st l) {r : Nat} {c : CStats} {x : List Sample}
    (hc : c.Ok x) : StOk (upd st r c) (upd l r x) := by
  intro i
  by_cases hi : i = r <;> simp [Spec.upd, hi, hc, h i]

theorem StOk.add {st : Nat → CStats} {l : Nat → List Sample} (h : StOk st l) (r : Nat) (new : List Sample) :
    StOk (Spec.upd st r ((st r).addAll new)) (Spec.upd l r (l r ++ new)) := h.upd (CStats.addAll_ok new (h r))

theorem R.occ_length {t : Table K V} {o : Obj K V} (h : R t o) : t.arr.occ.length = o.elems.length := by
  rw [Foa.occ_length h.inv, h.inv.size, h.elems.length_eq]

theorem R.findW {t : Table K V} {o : Obj K V} (h : R t o) (k : K) :
    ∃ lk, t.findW k = some lk ∧ lk.sample.Sane ∧ Looks o k (cnt [lk.sample]) := by
  rcases h.find k with ⟨g, j, y, h1, -, -, h4⟩ | ⟨h1, h2, -⟩
  · obtain ⟨lk, e1, e2, e3⟩ := findW_some h1
    exact ⟨lk, e1, e3, by simp [Looks, h4, Look.sample, e2, cnt, looks, insLens]⟩
  · obtain ⟨lk, e1, e2, e3⟩ := findW_some h1
    exact ⟨lk, e1, e3, by simp [Looks, h2, Look.sample, e2, cnt, looks, insLens]⟩

theorem R.emplaceW {t : Table K V} {o : Obj K V} (h : R t o) (cfg : Cfg) (x : K × V) :
    ∃ t' p b new, t.emplaceImplW cfg x = some (t', p, b, new) ∧ R t' (Spec.insert o x).1 ∧ (∀ s ∈ new, s.Sane) ∧
      Inserts o x.1 (cnt new) := by
  obtain ⟨t', p, b, e, h1, -, -, h4, h5, h6⟩ := h.emplace cfg x
  obtain ⟨l, e1, e2, e3⟩ := emplaceImplW_some h1
  refine ⟨t', p, b, l, e1, h4, e3, ?_⟩
  rw [h.occ_length] at e2
  cases b with
  | false => simpa [Inserts, (h5 rfl).2.1] using e2
  | true => simpa [Inserts, (h6 rfl).2] using e2

theorem R.insertRangeW (cfg : Cfg) : ∀ (xs : List (K × V)) (t : Table K V) (o : Obj K V), R t o →
    ∃ t' new, Table.insertRangeW cfg xs t = some (t', new) ∧ (∀ s ∈ new, s.Sane) ∧ InsertsAll o xs (cnt new)
  | [], t, o, h => ⟨t, [], rfl, by simp, rfl⟩
  | x :: xs, t, o, h => by
    obtain ⟨t1, p, b, l1, e1, e2, e3, e4⟩ := h.emplaceW cfg x
    obtain ⟨t2, l2, g1, g2, g3⟩ := R.insertRangeW cfg xs t1 _ e2
    refine ⟨t2, l1 ++ l2, by simp [Table.insertRangeW, e1, g1], ?_, cnt l1, cnt l2, e4, g3, cnt_append _ _⟩
    intro s hs
    rcases List.mem_append.1 hs with hs | hs
    · exact e3 s hs
    · exact g2 s hs

theorem InsOnly.recs {r : Nat} {l : Nat → List Sample} {new : List Sample} {n : Nat}
    (h : Arrays.InsOnly 0 new ∨ Arrays.InsOnly n new) :
    Records r l (upd l r (l r ++ new)) (fun d => d = ⟨0, 0, 0⟩ ∨ d = ⟨n, 0, 0⟩) := by
  rcases h with h | h
  · exact ⟨new, .inl h.1, h.2, rfl⟩
  · exact ⟨new, .inr h.1, h.2, rfl⟩

theorem upd_upd_same {α : Type} (f : Nat → α) (r : Nat) (x y : α) : upd (upd f r x) r y = upd f r y := by
  funext i; by_cases hi : i = r <;> simp [Spec.upd, hi]

theorem upd_comm {α : Type} (f : Nat → α) {r q : Nat} (h : r ≠ q) (x y : α) : upd (upd f r x) q y = upd (upd f q y) r x := by
  funext i
  by_cases hi : i = r <;> by_cases hj : i = q <;> simp_all [Spec.upd]

theorem upd_at {α : Type} (f : Nat → α) (r : Nat) (x : α) : upd f r x r = x := by simp [Spec.upd]
theorem upd_ne {α : Type} (f : Nat → α) {r i : Nat} (h : i ≠ r) (x : α) : upd f r x i = f i := by simp [Spec.upd, h]

/-- A call with statistics is allowed. -/
def StatGood (c : MCfg) (veq : K × V → K × V → Bool) (s : SState K V) (a : Nat → Obj K V) (l : Nat → List Sample)
    (op : Op K V) : Prop :=
  ∃ s' o, stepS c veq s op = some (s', o) ∧ step c veq s.tab op = some (s'.tab, o) ∧
    o.Agrees (Spec.step c.traits veq op a).2 ∧
    RS s'.tab (Spec.step c.traits veq op a).1 ∧ ∃ l', Recs c.traits veq op a l l' ∧ StOk s'.stats l'

section
variable {c : MCfg} {veq : K × V → K × V → Bool} {s : SState K V} {a : Nat → Obj K V} {l : Nat → List Sample}

theorem stepS_eq {op : Op K V} {tab' : Nat → Table K V} {o : Res K V} {st : Nat → CStats}
    (h1 : step c veq s.tab op = some (tab', o)) (h2 : statsAfter c veq s op = some st) :
    stepS c veq s op = some (⟨tab', st⟩, o) := by
  unfold stepS
  rw [h1, h2]

/-- calls that record into some containers -/
theorem StatGood.mk (h : RS s.tab a) (op : Op K V) (hpre : Spec.Pre c.traits op a) (st : Nat → CStats) (l' : Nat → List Sample)
    (e1 : statsAfter c veq s op = some st)
    (e2 : Recs c.traits veq op a l l') (e3 : StOk st l') : StatGood c veq s a l op := by
  obtain ⟨tab', o, hs, ho, hr⟩ := step_refines c veq h op hpre
  exact ⟨⟨tab', st⟩, o, stepS_eq hs e1, hs, ho, hr, l', e2, e3⟩

theorem StatGood.quiet (h : RS s.tab a) (hst : StOk s.stats l) (op : Op K V) (hpre : Spec.Pre c.traits op a)
    (e1 : statsAfter c veq s op = some s.stats)
    (e2 : Recs c.traits veq op a l l) : StatGood c veq s a l op := StatGood.mk h op hpre _ _ e1 e2 hst

/-- the calls that construct or move a container -/
def special : Op K V → Bool
  | .construct .. | .copyConstruct .. | .moveConstruct .. | .moveConstructAlloc .. | .moveAssign .. => true
  | _ => false

theorem statsAfter_recorded {op : Op K V} (hsp : special op = false) :
    statsAfter c veq s op = recordInto s.stats (recorded c veq s.tab op) := by
  cases op <;> first | rfl | cases hsp

theorem StatGood.one (h : RS s.tab a) (hst : StOk s.stats l) (op : Op K V) (hpre : Spec.Pre c.traits op a) (r : Nat) (new : List Sample)
    (hsp : special op = false) (hrec : recorded c veq s.tab op = some (r, some new))
    (e2 : Recs c.traits veq op a l (upd l r (l r ++ new))) : StatGood c veq s a l op :=
  StatGood.mk h op hpre _ _ (by rw [statsAfter_recorded hsp, hrec]; rfl) e2 (hst.add r new)

theorem look_rec (h : RS s.tab a) (r : Nat) (k : K) : ∃ new, ((s.tab r).findW k).map (fun l => [l.sample]) = some new ∧
    Records r l (upd l r (l r ++ new)) (Looks (a r) k) := by
  obtain ⟨lk, e1, e2, e3⟩ := (h r).findW k
  exact ⟨[lk.sample], by rw [e1]; rfl, ⟨_, e3, by simpa using e2, rfl⟩⟩

theorem emp_rec (h : RS s.tab a) (cfg : Cfg) (r : Nat) (x : K × V) :
    ∃ new, ((s.tab r).emplaceImplW cfg x).map (·.2.2.2) = some new ∧
      Records r l (upd l r (l r ++ new)) (Inserts (a r) x.1) := by
  obtain ⟨t', p, b, new, e1, -, e3, e4⟩ := (h r).emplaceW cfg x
  exact ⟨new, by rw [e1]; rfl, ⟨_, e4, e3, rfl⟩⟩

theorem good_construct (h : RS s.tab a) (hst : StOk s.stats l) (r : Nat) (hh : K → Nat) (e : K → K → Bool) (al : Nat) (n : Nat) (hpre : Spec.Pre c.traits (.construct r hh e al n) a) :
    StatGood c veq s a l (.construct r hh e al n) := by
  exact StatGood.mk h _ hpre (upd s.stats r {}) _ rfl rfl (hst.upd CStats.ok_nil)

theorem good_insert (h : RS s.tab a) (hst : StOk s.stats l) (r : Nat) (x : K × V) (hpre : Spec.Pre c.traits (.insert r x) a) :
    StatGood c veq s a l (.insert r x) := by
  obtain ⟨new, e1, e2⟩ := emp_rec (l := l) h c.toCfg r x
  exact StatGood.one h hst _ hpre r new rfl (by simp only [recorded, e1]) e2

theorem good_insertRange (h : RS s.tab a) (hst : StOk s.stats l) (r : Nat) (xs : List (K × V)) (hpre : Spec.Pre c.traits (.insertRange r xs) a) :
    StatGood c veq s a l (.insertRange r xs) := by
  obtain ⟨t', new, e1, e2, e3⟩ := R.insertRangeW c.toCfg xs (s.tab r) (a r) (h r)
  exact StatGood.one h hst _ hpre r new rfl (by simp only [recorded, e1, Option.map_some]) ⟨new, e3, e2, rfl⟩

theorem good_insertOrAssign (h : RS s.tab a) (hst : StOk s.stats l) (r : Nat) (k : K) (v : V) (hpre : Spec.Pre c.traits (.insertOrAssign r k v) a) :
    StatGood c veq s a l (.insertOrAssign r k v) := by
  obtain ⟨new, e1, e2⟩ := emp_rec (l := l) h c.toCfg r (k, v)
  exact StatGood.one h hst _ hpre r new rfl (by simp only [recorded, e1]) e2

theorem good_index (h : RS s.tab a) (hst : StOk s.stats l) (r : Nat) (k : K) (d : V) (hpre : Spec.Pre c.traits (.index r k d) a) :
    StatGood c veq s a l (.index r k d) := by
  obtain ⟨new, e1, e2⟩ := emp_rec (l := l) h c.toCfg r (k, d)
  exact StatGood.one h hst _ hpre r new rfl (by simp only [recorded, e1]) e2

theorem good_at (h : RS s.tab a) (hst : StOk s.stats l) (r : Nat) (k : K) (hpre : Spec.Pre c.traits (.at r k) a) :
    StatGood c veq s a l (.at r k) := by
  obtain ⟨new, e1, e2⟩ := look_rec (l := l) h r k
  exact StatGood.one h hst _ hpre r new rfl (by simp only [recorded, e1]) e2

theorem good_find (h : RS s.tab a) (hst : StOk s.stats l) (r : Nat) (k : K) (hpre : Spec.Pre c.traits (.find r k) a) :
    StatGood c veq s a l (.find r k) := by
  obtain ⟨new, e1, e2⟩ := look_rec (l := l) h r k
  exact StatGood.one h hst _ hpre r new rfl (by simp only [recorded, e1]) e2

theorem good_count (h : RS s.tab a) (hst : StOk s.stats l) (r : Nat) (k : K) (hpre : Spec.Pre c.traits (.count r k) a) :
    StatGood c veq s a l (.count r k) := by
  obtain ⟨new, e1, e2⟩ := look_rec (l := l) h r k
  exact StatGood.one h hst _ hpre r new rfl (by simp only [recorded, e1]) e2

theorem good_contains (h : RS s.tab a) (hst : StOk s.stats l) (r : Nat) (k : K) (hpre : Spec.Pre c.traits (.contains r k) a) :
    StatGood c veq s a l (.contains r k) := by
  obtain ⟨new, e1, e2⟩ := look_rec (l := l) h r k
  exact StatGood.one h hst _ hpre r new rfl (by simp only [recorded, e1]) e2

theorem good_erase (h : RS s.tab a) (hst : StOk s.stats l) (r : Nat) (k : K) (hpre : Spec.Pre c.traits (.erase r k) a) :
    StatGood c veq s a l (.erase r k) := by
  have he : ∃ t' n, (s.tab r).eraseKey k = some (t', n) := by
    obtain ⟨tab', o, hs, -⟩ := step_refines c veq h _ hpre
    simp only [step, on1, Option.map_eq_some_iff] at hs
    obtain ⟨y, ⟨⟨t', n⟩, h1, -⟩, -⟩ := hs
    exact ⟨t', n, h1⟩
  obtain ⟨t', n, he⟩ := he
  obtain ⟨lk, e1, e2⟩ := eraseKeyW_some he
  obtain ⟨lk', f1, f2, f3⟩ := (h r).findW k
  rw [e2] at f1; cases f1
  exact StatGood.one h hst _ hpre r [lk.sample] rfl (by simp only [recorded, e1, Option.map_some]) ⟨_, f3, by simpa using f2, rfl⟩

theorem good_eraseIt (h : RS s.tab a) (hst : StOk s.stats l) (r : Nat) (k : K) (hpre : Spec.Pre c.traits (.eraseIt r k) a) :
    StatGood c veq s a l (.eraseIt r k) := by
  obtain ⟨new, e1, e2⟩ := look_rec (l := l) h r k
  exact StatGood.one h hst _ hpre r new rfl (by simp only [recorded, e1]) e2

theorem good_extract (h : RS s.tab a) (hst : StOk s.stats l) (r : Nat) (k : K) (hpre : Spec.Pre c.traits (.extract r k) a) :
    StatGood c veq s a l (.extract r k) := by
  obtain ⟨new, e1, e2⟩ := look_rec (l := l) h r k
  exact StatGood.one h hst _ hpre r new rfl (by simp only [recorded, e1]) e2

theorem good_eraseIf (h : RS s.tab a) (hst : StOk s.stats l) (r : Nat) (pr : K × V → Bool) (hpre : Spec.Pre c.traits (.eraseIf r pr) a) :
    StatGood c veq s a l (.eraseIf r pr) := by
  exact StatGood.quiet h hst _ hpre rfl rfl

theorem good_eraseWalk (h : RS s.tab a) (hst : StOk s.stats l) (r : Nat) (pr : K × V → Bool) (hpre : Spec.Pre c.traits (.eraseWalk r pr) a) :
    StatGood c veq s a l (.eraseWalk r pr) := by
  exact StatGood.quiet h hst _ hpre rfl rfl

theorem good_clear (h : RS s.tab a) (hst : StOk s.stats l) (r : Nat) (hpre : Spec.Pre c.traits (.clear r) a) :
    StatGood c veq s a l (.clear r) := by
  exact StatGood.quiet h hst _ hpre rfl rfl

theorem good_rehash (h : RS s.tab a) (hst : StOk s.stats l) (r : Nat) (n : Nat) (hpre : Spec.Pre c.traits (.rehash r n) a) :
    StatGood c veq s a l (.rehash r n) := by
  obtain ⟨t', h1, -⟩ := rehash_spec c.toCfg (h r).inv n
  obtain ⟨new, e1, e2, -⟩ := rehashW_some h1
  rw [(h r).occ_length] at e2
  exact StatGood.one h hst _ hpre r new rfl (by simp only [recorded, e1, Option.map_some]) (InsOnly.recs e2)

theorem good_reserve (h : RS s.tab a) (hst : StOk s.stats l) (r : Nat) (n : Nat) (hpre : Spec.Pre c.traits (.reserve r n) a) :
    StatGood c veq s a l (.reserve r n) := by
  obtain ⟨t', h1, -⟩ := reserve_spec c.toCfg (h r).inv n
  obtain ⟨new, e1, e2, -⟩ := reserveW_some h1
  rw [(h r).occ_length] at e2
  exact StatGood.one h hst _ hpre r new rfl (by simp only [recorded, e1, Option.map_some]) (InsOnly.recs e2)

theorem good_copyConstruct (h : RS s.tab a) (hst : StOk s.stats l) (r : Nat) (q : Nat) (al : Nat) (hpre : Spec.Pre c.traits (.copyConstruct r q al) a) :
    StatGood c veq s a l (.copyConstruct r q al) := by
  obtain ⟨t', h1, -⟩ := copyCtor_spec c.toCfg (h q).inv al
  obtain ⟨new, e1, e2⟩ := copyCtorW_some h1
  rw [(h q).occ_length] at e2
  refine StatGood.mk h _ hpre (upd s.stats r (CStats.addAll {} new)) _ (by simp only [statsAfter, e1, Option.map_some]) (InsOnly.recs e2) ?_
  rw [upd_at, List.nil_append, upd_upd_same]
  exact hst.upd (CStats.addAll_ok new CStats.ok_nil)

theorem good_moveConstruct (h : RS s.tab a) (hst : StOk s.stats l) (r : Nat) (q : Nat) (hpre : Spec.Pre c.traits (.moveConstruct r q) a) :
    StatGood c veq s a l (.moveConstruct r q) := by
  exact StatGood.mk h _ hpre (upd (upd s.stats r (s.stats q)) q {}) _ rfl rfl
    ((hst.upd (hst q)).upd CStats.ok_nil)

theorem good_moveConstructAlloc (h : RS s.tab a) (hst : StOk s.stats l) (r : Nat) (q : Nat) (al : Nat) (hpre : Spec.Pre c.traits (.moveConstructAlloc r q al) a) :
    StatGood c veq s a l (.moveConstructAlloc r q al) := by
  have hrq : r ≠ q := hpre
  obtain ⟨t', x', h1, -⟩ := moveCtorAlloc_spec c.toCfg (h q).inv al
  have hocc : (Table.mk_ c.toCfg (s.tab q).fns al 0 : Table K V).arr.occ = [] := by
    have hi := mk_inv (V := V) c.toCfg (h q).inv.law al 0
    have := occ_length hi
    rw [hi.size, mk_contents] at this
    exact List.length_eq_zero_iff.1 this
  have := moveCtorAllocW_some (s.stats q) hocc h1
  by_cases hal : al = (s.tab q).al
  · rw [if_pos hal] at this
    refine StatGood.mk h _ hpre (upd (upd s.stats r (s.stats q)) q {}) (upd (upd l r (l q)) q []) (by simp only [statsAfter, this, Option.map_some])
      ?_ ((hst.upd (hst q)).upd CStats.ok_nil)
    simp only [Recs]
    rw [if_pos (hal.trans (h q).al)]
    trivial
  · rw [if_neg hal] at this
    obtain ⟨new, e1, e2⟩ := this
    rw [CStats.reset_eq (hst q)] at e1
    rw [(h q).occ_length] at e2
    refine StatGood.mk h _ hpre (upd (upd s.stats r (CStats.addAll {} new)) q {}) (upd (upd l r ([] ++ new)) q []) (by simp only [statsAfter, e1, Option.map_some])
      ?_ ((hst.upd (CStats.addAll_ok new CStats.ok_nil)).upd CStats.ok_nil)
    simp only [Recs]
    rw [if_neg (fun hh => hal (hh.trans (h q).al.symm))]
    refine ⟨new, e2.1, e2.2, ?_⟩
    rw [upd_ne _ hrq, upd_at, upd_comm _ hrq, upd_comm l hrq, upd_upd_same]

theorem good_copyAssign (h : RS s.tab a) (hst : StOk s.stats l) (r : Nat) (q : Nat) (hpre : Spec.Pre c.traits (.copyAssign r q) a) :
    StatGood c veq s a l (.copyAssign r q) := by
  by_cases hrq : r = q
  · exact StatGood.quiet h hst _ hpre (by subst hrq; simp [statsAfter, recorded, recordInto]) (by subst hrq; simp [Recs])
  · obtain ⟨t', h1, -⟩ := copyAssign_spec c.toCfg (h r).inv (h q).inv
    obtain ⟨new, e1, e2⟩ := copyAssignW_some h1
    rw [(h q).occ_length] at e2
    exact StatGood.one h hst _ hpre r new rfl (by simp only [recorded, hrq, if_false, e1, Option.map_some])
      (by simp only [Recs, hrq, if_false]; exact InsOnly.recs e2)

theorem good_moveAssign (h : RS s.tab a) (hst : StOk s.stats l) (r : Nat) (q : Nat) (hpre : Spec.Pre c.traits (.moveAssign r q) a) :
    StatGood c veq s a l (.moveAssign r q) := by
  by_cases hrq : r = q
  · exact StatGood.quiet h hst _ hpre (by subst hrq; simp [statsAfter]) (by subst hrq; simp [Recs])
  · obtain ⟨t', x', h1, -⟩ := moveAssign_spec c.toCfg (h r).inv (h q).inv
    have := moveAssignW_some (s.stats r) (s.stats q) h1
    by_cases hal : c.toCfg.pocma = true ∨ (s.tab r).al = (s.tab q).al
    · rw [if_pos hal, CStats.reset_eq (hst q)] at this
      refine StatGood.mk h _ hpre (upd (upd s.stats r (s.stats q)) q {}) (upd (upd l r (l q)) q []) (by simp only [statsAfter, hrq, if_false, this, Option.map_some])
        ?_ ((hst.upd (hst q)).upd CStats.ok_nil)
      simp only [Recs, hrq, if_false]
      rw [if_pos (by rw [← (h r).al, ← (h q).al]; exact hal)]
      trivial
    · rw [if_neg hal] at this
      obtain ⟨new, e1, e2⟩ := this
      rw [CStats.reset_eq (hst q)] at e1
      rw [(h q).occ_length] at e2
      refine StatGood.mk h _ hpre (upd (upd s.stats r ((s.stats r).addAll new)) q {}) (upd (upd l r (l r ++ new)) q []) (by simp only [statsAfter, hrq, if_false, e1, Option.map_some])
        ?_ ((hst.add r new).upd CStats.ok_nil)
      simp only [Recs, hrq, if_false]
      rw [if_neg (by rw [← (h r).al, ← (h q).al]; exact hal)]
      refine ⟨new, e2.1, e2.2, ?_⟩
      rw [upd_ne _ hrq, upd_comm l hrq]

theorem good_swap (h : RS s.tab a) (hst : StOk s.stats l) (r : Nat) (q : Nat) (hpre : Spec.Pre c.traits (.swap r q) a) :
    StatGood c veq s a l (.swap r q) := by
  exact StatGood.quiet h hst _ hpre rfl rfl

theorem good_merge (h : RS s.tab a) (hst : StOk s.stats l) (r : Nat) (q : Nat) (hpre : Spec.Pre c.traits (.merge r q) a) :
    StatGood c veq s a l (.merge r q) := by
  by_cases hrq : r = q
  · obtain ⟨new, e1, e2, e3⟩ := mergeSelfLoopW_some c.toCfg (h r).inv _ (slots_of_occ (h r).inv.arr)
    refine StatGood.one h hst _ hpre r new rfl (by simp only [recorded, hrq ▸ e1, hrq, if_true, Option.map_some]) ?_
    simp only [Recs, hrq, if_true]
    subst hrq
    rw [(h r).occ_length] at e2
    exact ⟨new, e2, e3, rfl⟩
  · have hpre : (a r).eq = (a q).eq := hpre
    obtain ⟨t', x', h1, h2, h3, h4, h5, h6, h7, h8, h9⟩ := merge_spec c.toCfg (h r).inv (h q).inv
      (by rw [(h r).eq, (h q).eq]; exact hpre)
    obtain ⟨new, e1, e2, e3, e4, e5⟩ := mergeLoopW_some c.toCfg _ _ _ _ _ h1
    refine StatGood.one h hst _ hpre r new rfl (by simp only [recorded, hrq, if_false, e1, Option.map_some]) ?_
    simp only [Recs, hrq, if_false]
    have hl := h8.length_eq
    rw [List.length_append, ← h2.size, ← (h r).inv.size, e3] at hl
    have hnone : (a q).elems.countP (fun e => (Spec.lookup (a r) e.1).isNone) = (cnt new).uns := by
      rw [List.countP_eq_length_filter]
      have : ((s.tab q).contents.filter (fun e => !hasKey (s.tab r).fns (s.tab r).contents e.1)).length =
          ((a q).elems.filter (fun e => (Spec.lookup (a r) e.1).isNone)).length := by
        rw [((h q).elems.filter _).length_eq]
        congr 1
        apply List.filter_congr
        intro e _
        rw [← (h r).lookup_isSome]; simp
      omega
    have htot : (a q).elems.countP (fun e => (Spec.lookup (a r) e.1).isSome) +
        (a q).elems.countP (fun e => (Spec.lookup (a r) e.1).isNone) = (a q).elems.length := by
      rw [List.length_eq_countP_add_countP (fun e => (Spec.lookup (a r) e.1).isSome)]
      congr 1
      apply List.countP_congr
      intro e _
      simp
    rw [(h q).occ_length] at e2
    exact ⟨new, ⟨by omega, by omega, hnone.symm⟩, e5, rfl⟩

theorem good_size (h : RS s.tab a) (hst : StOk s.stats l) (r : Nat) (hpre : Spec.Pre c.traits (.size r) a) :
    StatGood c veq s a l (.size r) := by
  exact StatGood.quiet h hst _ hpre rfl rfl

theorem good_isEmpty (h : RS s.tab a) (hst : StOk s.stats l) (r : Nat) (hpre : Spec.Pre c.traits (.isEmpty r) a) :
    StatGood c veq s a l (.isEmpty r) := by
  exact StatGood.quiet h hst _ hpre rfl rfl

theorem good_iterate (h : RS s.tab a) (hst : StOk s.stats l) (r : Nat) (hpre : Spec.Pre c.traits (.iterate r) a) :
    StatGood c veq s a l (.iterate r) := by
  exact StatGood.quiet h hst _ hpre rfl rfl

theorem good_equal (h : RS s.tab a) (hst : StOk s.stats l) (r : Nat) (q : Nat) (hpre : Spec.Pre c.traits (.equal r q) a) :
    StatGood c veq s a l (.equal r q) := by
  obtain ⟨tab', o, hs, ho, hr⟩ := step_refines c veq h _ hpre
  have hb : ∃ b, Table.equal veq (s.tab r) (s.tab q) = some b ∧ o = .bool b := by
    simp only [step, on0, Option.map_eq_some_iff] at hs
    obtain ⟨y, ⟨b, h1, rfl⟩, h2⟩ := hs
    cases h2
    exact ⟨b, h1, rfl⟩
  obtain ⟨b, hb, rfl⟩ := hb
  obtain ⟨new, e1, e2, e3, e4, e5, e6, e7⟩ := equalW_some hb
  rw [(h r).occ_length] at e4 e6
  refine StatGood.one h hst _ hpre q new rfl (by simp only [recorded, e1, Option.map_some]) ?_
  refine ⟨new, ⟨e2, e3, e4, ?_, ?_⟩, e7, rfl⟩
  · intro hn
    rw [e5 ?_]; rfl
    rw [(h r).inv.size, (h q).inv.size, (h r).elems.length_eq, (h q).elems.length_eq]
    exact hn
  · intro ht
    have ho' : (Res.bool b : Res K V) = (Spec.step c.traits veq (.equal r q) a).2 := ho
    rw [ht] at ho'
    cases ho'
    exact e6 rfl

end

theorem stepS_allowed (c : MCfg) (veq : K × V → K × V → Bool) {s : SState K V} {a : Nat → Obj K V} {l : Nat → List Sample}
    (h : RS s.tab a) (hst : StOk s.stats l) (op : Op K V) (hpre : Spec.Pre c.traits op a) : StatGood c veq s a l op := by
  cases op with
  | construct r hh e al n => exact good_construct h hst _ _ _ _ _ hpre
  | insert r x => exact good_insert h hst _ _ hpre
  | insertRange r xs => exact good_insertRange h hst _ _ hpre
  | insertOrAssign r k v => exact good_insertOrAssign h hst _ _ _ hpre
  | index r k d => exact good_index h hst _ _ _ hpre
  | «at» r k => exact good_at h hst _ _ hpre
  | find r k => exact good_find h hst _ _ hpre
  | count r k => exact good_count h hst _ _ hpre
  | contains r k => exact good_contains h hst _ _ hpre
  | erase r k => exact good_erase h hst _ _ hpre
  | eraseIt r k => exact good_eraseIt h hst _ _ hpre
  | extract r k => exact good_extract h hst _ _ hpre
  | eraseIf r pr => exact good_eraseIf h hst _ _ hpre
  | eraseWalk r pr => exact good_eraseWalk h hst _ _ hpre
  | clear r => exact good_clear h hst _ hpre
  | rehash r n => exact good_rehash h hst _ _ hpre
  | reserve r n => exact good_reserve h hst _ _ hpre
  | copyConstruct r q al => exact good_copyConstruct h hst _ _ _ hpre
  | moveConstruct r q => exact good_moveConstruct h hst _ _ hpre
  | moveConstructAlloc r q al => exact good_moveConstructAlloc h hst _ _ _ hpre
  | copyAssign r q => exact good_copyAssign h hst _ _ hpre
  | moveAssign r q => exact good_moveAssign h hst _ _ hpre
  | swap r q => exact good_swap h hst _ _ hpre
  | merge r q => exact good_merge h hst _ _ hpre
  | size r => exact good_size h hst _ hpre
  | isEmpty r => exact good_isEmpty h hst _ hpre
  | iterate r => exact good_iterate h hst _ hpre
  | equal r q => exact good_equal h hst _ _ hpre

theorem runStats_allowed (c : MCfg) (veq : K × V → K × V → Bool) : ∀ (ops : List (SOp K V)) (s : SState K V)
    (a : Nat → Obj K V) (l : Nat → List Sample), RS s.tab a → StOk s.stats l → SPre c.traits veq ops a →
    ∃ s' outs, runStats c veq ops s = some (s', outs) ∧ Allowed c.traits veq ops a l outs
  | [], s, a, l, h, hst, hp => ⟨s, [], rfl, rfl⟩
  | .op o :: ops, s, a, l, h, hst, hp => by
    obtain ⟨s1, x, e1, -, e2, e3, l', e4, e5⟩ := stepS_allowed c veq h hst o hp.1
    obtain ⟨s2, outs, g1, g2⟩ := runStats_allowed c veq ops s1 _ l' e3 e5 hp.2
    exact ⟨s2, .res x :: outs, by simp [runStats, stepStats, e1, g1], x, outs, rfl, e2, l', e4, g2⟩
  | .getStats r :: ops, s, a, l, h, hst, hp => by
    obtain ⟨s2, outs, g1, g2⟩ := runStats_allowed c veq ops s a l h hst hp
    exact ⟨s2, .stats (answer (l r)) :: outs, by simp [runStats, stepStats, g1, CStats.get_ok (hst r)], outs, rfl, g2⟩
  | .resetStats r :: ops, s, a, l, h, hst, hp => by
    obtain ⟨s2, outs, g1, g2⟩ := runStats_allowed c veq ops ⟨s.tab, upd s.stats r {}⟩ a (upd l r []) h
      (hst.upd CStats.ok_nil) hp
    exact ⟨s2, .unit :: outs, by simp [runStats, stepStats, CStats.reset_eq (hst r), g1], outs, rfl, g2⟩

end Foa

/-
Properties of concurrent containers under a weak memory model (C49). `WReach cfg f al n w` ranges over every state that any
number of threads can reach from a new container when reads without lock may return old values (`Verif.Conc.Weak`);
`WRun cfg ω who n` over every continuation `ω 0, ..., ω n` in which thread `who i` makes step `i`.
The specification of single operations is in `Verif.SpecT`; the vocabulary is that of `Verif.Props.ConcTable`.
-/
import Verif.Conc.WeakLin
import Verif.Props.ConcTable

namespace Props.ConcWeak
open Conc.Weak Conc.Tab Foa SpecT
open Props.ConcTable (Elems Called Returned Does does_eq Touches Busy Executes sizeAnswer)
open Conc.Locking (Mode)

variable {K V : Type}

/-! ### vocabulary -/

/-- An element with a key equivalent to `k` is in the container, and its insertion happens before the present point of thread
`t`: it was inserted by `t`, or before `t` synchronized (outside of the container) with a thread that knew of it, or before the
last exclusive access to the container. -/
def Known (eq : K → K → Bool) (w : WState K V) (t : Nat) (k : K) : Prop :=
  ∃ g j y, w.mem.slot g j = some y ∧ eq k y.1 = true ∧ w.kn t g j

/-- The run of the states without the views. -/
abbrev scs (ω : Nat → WState K V) : Nat → State K V := fun i => (ω i).sc

/-! ### examples: concrete runs -/

open Props.ConcTable (exF exF_lawful exInsert go ex0 ex1 ex1_reach exRace exRun exRace_run exRace_first exRace_second ran answers)

theorem exWeak : ∃ ω : Nat → WState Nat Nat, WReach {} exF 0 20 (ω 0) ∧ WRun {} ω (who exRace) 75 ∧
    Executes (scs ω) 0 (.key (exInsert 1 10)) 0 75 0 ∧ Executes (scs ω) 1 (.key (exInsert 1 20)) 0 44 1 := by
  obtain ⟨w, h1, h2⟩ := Conc.Weak.Reach.weak exF_lawful ex1_reach
  obtain ⟨ω, h3, h4, h5, _, _⟩ := Conc.Weak.Run.weak exRace_run (h1.inv exF_lawful) h2
  have ex : ∀ {t b r : Nat} {o : Op Nat Nat}, b ≤ 75 → Executes exRun t o 0 b r → Executes (scs ω) t o 0 b r := by
    intro t b r o hb he
    refine ⟨he.le, ?_, ?_, fun i h6 h7 r' => ?_⟩
    · rw [Called, scs, h5 0 (by omega)]; exact he.called
    · rw [Returned, scs, h5 b hb]; exact he.returned
    · rw [Returned, scs, h5 i (by omega)]; exact he.running i h6 h7 r'
  exact ⟨ω, h3 ▸ h1, h4, ex le_rfl exRace_first, ex (by omega) exRace_second⟩

/-! ### safety -/

/-- Whatever old values unlocked reads return, no thread ever comes to undefined behaviour (reading a slot without element,
constructing in an occupied slot, writing to the shared dummy arrays, wrapping the size or `ml`). -/
theorem C49_no_undefined_behaviour {cfg : Cfg} {f : Fns K} (hf : f.Lawful) {al c : Nat} {w : WState K V}
    (h : WReach cfg f al c w) (t : Nat) : w.pc t ≠ .bad := pcOk_not_bad ((h.inv hf).b.pcs t)

/-- Equivalent elements are one element in one slot. -/
theorem C49_no_duplicates_partial {cfg : Cfg} {f : Fns K} (hf : f.Lawful) {al c : Nat} {w : WState K V} (h : WReach cfg f al c w)
    {g j g' j' : Nat} {x y : K × V} (hx : w.mem.slot g j = some x) (hy : w.mem.slot g' j' = some y)
    (he : f.eq x.1 y.1 = true) : g = g' ∧ j = j' := by
  have hi := (h.inv hf).b.base
  refine (hi.shape.live hx).2.uniq _ _ _ _ _ _ hx hy ?_
  have := h.fns hf
  show w.mem.tab.fns.eq x.1 y.1 = true
  rw [this]
  exact he

theorem WRun.reach {cfg : Cfg} {f : Fns K} {al c : Nat} {ω : Nat → WState K V} {who : Nat → Nat} {n : Nat}
    (h0 : WReach cfg f al c (ω 0)) (hr : WRun cfg ω who n) : ∀ i ≤ n, WReach cfg f al c (ω i) := by
  intro i
  induction i with
  | zero => intro _; exact h0
  | succ i ih => intro hi; exact .step (ih (by omega)) (hr.nowrap i (by omega)) (hr.step i (by omega))

/-- After the race of the example there is an element. -/
example : ∃ w : WState Nat Nat, ∃ x, WReach {} exF 0 20 w ∧ w.mem.slot 0 0 = some x := by
  obtain ⟨w, h1, h2⟩ := Conc.Weak.Reach.weak exF_lawful Props.ConcTable.exEnd_reach
  have h : Props.ConcTable.exEnd.state.mem.slot 0 0 = some (1, 20) := by decide +kernel
  exact ⟨w, (1, 20), h1, by rw [WState.mem, h2]; exact h⟩

/-- Two threads about to access the same element only read it. So elements are never subject to a data race. -/
theorem C49_no_conflicting_access {cfg : Cfg} {f : Fns K} (hf : f.Lawful) {al c : Nat} {w : WState K V} (h : WReach cfg f al c w)
    {t u g j : Nat} {a a' : Bool} (htu : t ≠ u) (ht : Touches w.sc t g j a) (hu : Touches w.sc u g j a') :
    a = false ∧ a' = false := by
  have hi := (h.inv hf).b.base
  have key : ∀ {t : Nat} {a : Bool}, Touches w.sc t g j a → ∃ m, (w.pc t).locks = some (g, m) ∧ (a = true → m = .excl) := by
    intro t a ht
    unfold Touches at ht
    split at ht
    · rename_i hq; rw [WState.pc, hq]; obtain ⟨rfl, _, h⟩ := ht; exact ⟨_, rfl, fun h' => by rw [h] at h'; cases h'⟩
    · rename_i hq; rw [WState.pc, hq]; obtain ⟨rfl, _, h⟩ := ht; exact ⟨_, rfl, h.1⟩
    · rename_i hq; rw [WState.pc, hq]; obtain ⟨rfl, _, h⟩ := ht; exact ⟨_, rfl, h.1⟩
    · rename_i hq; rw [WState.pc, hq]; obtain ⟨rfl, _, h⟩ := ht; exact ⟨_, rfl, fun _ => rfl⟩
    · rename_i hq; rw [WState.pc, hq]; obtain ⟨rfl, _, h⟩ := ht; exact ⟨_, rfl, fun _ => rfl⟩
    · rename_i hq; rw [WState.pc, hq]; obtain ⟨rfl, _, h⟩ := ht; exact ⟨_, rfl, h.1⟩
    · cases ht
  have ex : ∀ {t u : Nat} {m : Mode}, t ≠ u → (w.pc t).locks = some (g, .excl) → (w.pc u).locks = some (g, m) → False := by
    intro t u m htu h1 h2
    refine hi.excl t u g m htu ?_ ?_
    · exact (grant_facts _ _).1.trans h1
    · exact (grant_facts _ _).1.trans h2
  obtain ⟨m, h1, h2⟩ := key ht
  obtain ⟨m', h1', h2'⟩ := key hu
  constructor
  · by_contra hw
    have := h2 (by simpa using hw)
    subst this
    exact ex htu h1 h1'
  · by_contra hw
    have := h2' (by simpa using hw)
    subst this
    exact ex htu.symm h1' h1

set_option maxRecDepth 100000 in
/-- Two threads looking up the same key at the same time. -/
example : ∃ w : WState Nat Nat, WReach {} exF 0 20 w ∧ Touches w.sc 0 0 0 false ∧ Touches w.sc 1 0 0 false := by
  let es : List (Ev Nat Nat) := .op 0 (.key (exInsert 1 10)) :: go 0 26 ++ .op 0 (.key Props.ConcTable.exLook) ::
    .op 1 (.key Props.ConcTable.exLook) :: go 0 18 ++ go 1 18
  have h : (ex0.run {} es).isSome = true := by decide +kernel
  have h0 : Props.ConcTable.isCheck 0 0 (((ex0.run {} es).getD ex0).pc 0) = true := by decide +kernel
  have h1 : Props.ConcTable.isCheck 0 0 (((ex0.run {} es).getD ex0).pc 1) = true := by decide +kernel
  obtain ⟨S, hS⟩ := Option.isSome_iff_exists.1 h
  rw [hS, Option.getD_some] at h0 h1
  have hr : Reach {} exF 0 20 S.state := Sys.run_reach (S := ex0) (by rw [ex0, Sys.init_state]; exact .init) hS
  obtain ⟨w, h2, h3⟩ := Conc.Weak.Reach.weak exF_lawful hr
  refine ⟨w, h2, ?_, ?_⟩ <;> rw [h3]
  · exact Props.ConcTable.touches_of h0
  · exact Props.ConcTable.touches_of h1

/-! ### size control -/

/-- The elements and the granted reservations together never exceed `ml`. -/
theorem C49_no_overcommitment {cfg : Cfg} {f : Fns K} (hf : f.Lawful) {al c : Nat} {w : WState K V} (h : WReach cfg f al c w)
    {P : List (Nat × Nat)} (hP : P.Nodup) (hp : ∀ p ∈ P, ∃ x, w.mem.slot p.1 p.2 = some x) {T : List Nat} (hT : T.Nodup)
    (ht : ∀ t ∈ T, ∃ o c pb, w.pc t = .insLock o c pb ∨ w.pc t = .insFind o c pb ∨ ∃ j, w.pc t = .insInc o c pb j) :
    P.length + T.length ≤ w.mem.tab.ml ∧ w.mem.tab.ml ≤ w.mem.tab.capacity := by
  have hi := (h.inv hf).b.base
  have h1 := hi.count_le hP hT hp (by
    intro t htT
    obtain ⟨o, c, pb, h | h | ⟨j, h⟩⟩ := ht t htT <;> rw [fake_pc (by rw [h]; trivial), h] <;> rfl)
  obtain ⟨L, hL⟩ := hi.acct
  have h3 := hL.capLe
  have h3' : w.mem.tab.ml + pend L ≤ w.mem.tab.capacity := h3
  exact ⟨h1, by omega⟩

/-- Every thread whose reservation has been granted and which is looking for a slot: there is a free one. -/
theorem C49_granted_slot_exists {cfg : Cfg} {f : Fns K} (hf : f.Lawful) {al c : Nat} {w : WState K V} (h : WReach cfg f al c w)
    {t : Nat} {o : KOp K V} {cn : Nat} {pb : Prober} (ht : w.pc t = .insLock o cn pb ∨ w.pc t = .insFind o cn pb) :
    ∃ g j, g < 2 ^ w.mem.tab.arr.k ∧ j < N ∧ ¬ (g = w.mem.tab.arr.mask ∧ j = N - 1) ∧ (w.mem.grp g).md j = 0 ∧
      w.mem.slot g j = none := by
  have hi := (h.inv hf).b.base
  have hfp : w.fake.pc t = w.pc t := fake_pc (by rcases ht with ht | ht <;> rw [ht] <;> trivial)
  have he : w.mem.tab.arr.hasElems = true := by
    have := hi.pcs t
    rw [hfp] at this
    rcases ht with ht | ht <;> rw [ht] at this <;> exact this.2.1
  obtain ⟨g, j, hv, hm⟩ := hi.free (t := t) (by rw [hfp]; rcases ht with ht | ht <;> rw [ht] <;> rfl)
    (by rw [hfp]; rcases ht with ht | ht <;> rw [ht] <;> rfl) he
  refine ⟨g, j, hv.1, hv.2.1, hv.2.2, hm, ?_⟩
  rcases (hi.shape.of_elems he).cell g j hv with ⟨_, h2⟩ | ⟨y, _, h2⟩ | ⟨_, h2, _⟩
  · exact h2
  · change (w.mem.tab.arr.grp g).md j = 0 at hm
    have := rhash_ge_two (w.mem.tab.fns.hash y.1)
    have h2' : (w.mem.tab.arr.grp g).md j = rhash (w.mem.tab.fns.hash y.1) := h2
    omega
  · change (w.mem.tab.arr.grp g).md j = 0 at hm
    change 2 ≤ (w.mem.tab.arr.grp g).md j at h2
    omega

set_option maxRecDepth 100000 in
example : ∃ w : WState Nat Nat, ∃ o cn pb, WReach {} exF 0 20 w ∧ (w.pc 0 = .insLock o cn pb ∨ w.pc 0 = .insFind o cn pb) := by
  have h : ((ex1.run {} (go 0 22)).getD ex1).pc 0 |> Props.ConcTable.isIns := by decide +kernel
  have h' : (ex1.run {} (go 0 22)).isSome = true := by decide +kernel
  obtain ⟨S, hS⟩ := Option.isSome_iff_exists.1 h'
  rw [hS, Option.getD_some] at h
  obtain ⟨w, h1, h2⟩ := Conc.Weak.Reach.weak exF_lawful (Sys.run_reach ex1_reach hS)
  refine ⟨w, ?_⟩
  rw [WState.pc, h2]
  change Props.ConcTable.isIns (S.state.pc 0) = true at h
  generalize S.state.pc 0 = p at h
  cases p <;> first | (cases h; done) | exact ⟨_, _, _, h1, .inl rfl⟩ | exact ⟨_, _, _, h1, .inr rfl⟩

/-- When no operation is in flight, `size()` is the number of elements, and it is within the load limit. -/
theorem C49_size_when_quiet {cfg : Cfg} {f : Fns K} (hf : f.Lawful) {al c : Nat} {w : WState K V} (h : WReach cfg f al c w)
    (hq : ∀ t, ¬ Busy w.sc t) : ∃ L : List (K × V), L.Nodup ∧ (∀ x, x ∈ L ↔ Elems w.sc x) ∧ sizeAnswer w.sc = L.length ∧
      w.mem.tab.size = L.length ∧ L.length ≤ w.mem.tab.ml := by
  have hi : w.mem.tab.Inv := (h.inv hf).b.base.quiescent (fake_inside fun u => by simpa [Busy] using hq u)
  refine ⟨w.mem.tab.contents, ?_, fun x => hi.mem, ?_, hi.size, hi.size ▸ hi.size_le⟩
  · refine (contents_pairwise hi).imp ?_
    rintro a b hab rfl
    have := hi.law.refl a.1
    rw [hab] at this
    cases this
  · rw [sizeAnswer, Nat.min_eq_left hi.size_le, hi.size]

example : ∃ w : WState Nat Nat, WReach {} exF 0 20 w ∧ ∀ t, ¬ Busy w.sc t :=
  ⟨_, .init, fun t ht => by cases ht⟩

/-! ### linearizability -/

theorem WRun.sub {cfg : Cfg} {ω : Nat → WState K V} {who : Nat → Nat} {n : Nat} (h : WRun cfg ω who n) {a b : Nat}
    (hab : a ≤ b) (hb : b ≤ n) : WRun cfg (fun i => ω (a + i)) (fun i => who (a + i)) (b - a) :=
  ⟨fun i hi => h.step (a + i) (by omega), fun i hi => h.nowrap (a + i) (by omega)⟩

/-- Every operation with a key either takes effect in one of its own steps, which does to the contents exactly what the
specification says while none of its other steps changes the contents; or it changes nothing, is no insertion, answers 0 (not
found), and at some instant between its call and its return there was no equivalent element whose insertion happens before. -/
theorem C49_linearizable {cfg : Cfg} {f : Fns K} (hf : f.Lawful) {al c : Nat} {ω : Nat → WState K V} {who : Nat → Nat} {n : Nat}
    (h0 : WReach cfg f al c (ω 0)) (hr : WRun cfg ω who n) {t : Nat} {o : KOp K V} {a b r : Nat}
    (he : Executes (scs ω) t (.key o) a b r) (hb : b ≤ n) :
    (∃ l, a ≤ l ∧ l < b ∧ who l = t ∧ Does f.eq o (Elems (ω l).sc) (Elems (ω (l + 1)).sc) r ∧
      ∀ l', a ≤ l' → l' < b → who l' = t → l' ≠ l → Same (Elems (ω l').sc) (Elems (ω (l' + 1)).sc)) ∨
    ((∀ md x f2 f1, o ≠ .insert md x f2 f1) ∧ r = 0 ∧ (∃ l, a ≤ l ∧ l ≤ b ∧ ¬ Known f.eq (ω l) t o.key) ∧
      ∀ l', a ≤ l' → l' < b → who l' = t → Same (Elems (ω l').sc) (Elems (ω (l' + 1)).sc)) := by
  have hi0 := h0.inv hf
  have hfn0 : (ω 0).mem.tab.fns = f := h0.fns hf
  have hle := he.le
  have hia := hr.inv hi0 a (by omega)
  have hfa : (ω a).mem.tab.fns = f := (hr.fns hi0 a (by omega)).trans hfn0
  have hsub := WRun.sub hr he.le hb
  have key := lin_pointsW hsub (t := t) (o := o) hia he.called
    (fun i hi r' hq => he.running (a + i) (by omega) (by omega) r' hq) (b - a) le_rfl
  have hret : (ω b).pc t = .done r := he.returned
  simp only [Nat.add_sub_cancel' he.le, Nat.add_zero] at key
  rw [hret, hfa] at key
  rcases key with ⟨h1, _⟩ | ⟨r', h1, h2⟩
  · cases h1
  · cases h1
    rw [does_eq]
    rcases h2 with ⟨l, hl, hw, hs, hsame⟩ | ⟨h3, h4, ⟨l, hl, hno⟩, hsame⟩
    · left
      refine ⟨a + l, by omega, by omega, hw, hs, fun l' h1 h2 h3 h4 => ?_⟩
      have := hsame (l' - a) (by omega) (by rw [Nat.add_sub_cancel' h1]; exact h3) (by omega)
      rw [Nat.add_sub_cancel' h1, show a + (l' - a + 1) = l' + 1 by omega] at this
      exact this
    · right
      refine ⟨fun md x f2 f1 hq => (by subst hq; cases h3), h4, ⟨a + l, by omega, by omega, ?_⟩, fun l' h1 h2 h3 => ?_⟩
      · rintro ⟨g, j, y, hy, hk, hkn⟩
        have hfl := (hr.fns hi0 (a + l) (by omega)).trans hfn0
        exact hno g j y hy (by rw [hfl]; exact hk) hkn
      · have := hsame (l' - a) (by omega) (by rw [Nat.add_sub_cancel' h1]; exact h3)
        rw [Nat.add_sub_cancel' h1, show a + (l' - a + 1) = l' + 1 by omega] at this
        exact this

example : exF.Lawful ∧ ∃ ω : Nat → WState Nat Nat, WReach {} exF 0 20 (ω 0) ∧ WRun {} ω (who exRace) 75 ∧
    Executes (scs ω) 0 (.key (exInsert 1 10)) 0 75 0 ∧ Executes (scs ω) 1 (.key (exInsert 1 20)) 0 44 1 :=
  ⟨exF_lawful, exWeak⟩

/-- A lookup finds a key if at every instant from its call to its return an equivalent element is present whose insertion happens
before that instant of the thread; and does not find a key that is absent all the time. -/
theorem C49_lookup {cfg : Cfg} {f : Fns K} (hf : f.Lawful) {al c : Nat} {ω : Nat → WState K V} {who : Nat → Nat} {n : Nat}
    (h0 : WReach cfg f al c (ω 0)) (hr : WRun cfg ω who n) {t : Nat} {m : Mode} {k : K} {g : K × V → V} {a b r : Nat}
    (he : Executes (scs ω) t (.key (.visit m k g)) a b r) (hb : b ≤ n) :
    ((∀ i, a ≤ i → i ≤ b → Known f.eq (ω i) t k) → r = 1) ∧
    ((∀ i, a ≤ i → i ≤ b → ¬ Present f.eq (Elems (ω i).sc) k) → r = 0) := by
  have hv : ∀ {A A' : Con K V}, Does f.eq (.visit m k g) A A' r → (Present f.eq A k ∧ r = 1) ∨ (¬ Present f.eq A k ∧ r = 0) := by
    intro A A' hd
    have : ∃ w, Visit f.eq w k g A A' r := by cases m <;> exact ⟨_, hd⟩
    obtain ⟨w, ⟨y, h1, h2, _, h⟩ | ⟨h1, h2, h3⟩⟩ := this
    · exact .inl ⟨⟨y, h1, h2⟩, h⟩
    · exact .inr ⟨h1, h3⟩
  rcases C49_linearizable hf h0 hr he hb with ⟨l, h1, h2, h3, h4, _⟩ | ⟨_, h2, ⟨l, h3, h4, h5⟩, _⟩
  · rcases hv h4 with h | h
    · exact ⟨fun _ => h.2, fun hno => absurd h.1 (hno l h1 h2.le)⟩
    · refine ⟨fun hp => ?_, fun _ => h.2⟩
      obtain ⟨g', j, y, hy, hk, _⟩ := hp l h1 h2.le
      exact absurd ⟨y, ⟨g', j, hy⟩, hk⟩ h.1
  · exact ⟨fun hp => absurd (hp l h3 h4) h5, fun _ => h2⟩

/-- One element, inserted by thread 1; thread 0 is about to call `rehash`. -/
def exOne : Sys Nat Nat := (ex0.run {} (.op 1 (.key (exInsert 1 10)) :: go 1 26 ++ [.op 0 (.ex (.rehash 0))])).getD ex0
def exOne' : Sys Nat Nat := (exOne.run {} [.go 0]).getD ex0
/-- Thread 0 looks the key up while thread 1 inserts another one. -/
def exFind : List (Ev Nat Nat) := .op 0 (.key Props.ConcTable.exLook) :: go 0 10 ++ .op 1 (.key (exInsert 2 20)) :: go 1 26 ++ go 0 12

theorem fresh_reach {cfg : Cfg} {f : Fns K} (hf : f.Lawful) {al c : Nat} {s s' : State K V} (h : Reach cfg f al c s) (hw : NoWrap s)
    {t : Nat} {e : ExOp K V} (hq : s.pc t = .start (.ex e)) (hs : StepBy cfg t s s') : WReach cfg f al c (WState.fresh s') := by
  obtain ⟨w, h1, rfl⟩ := Conc.Weak.Reach.weak hf h
  cases hs with
  | quiet h => rw [hq] at h; cases h
  | eff h => rw [hq] at h; cases h
  | alone ho h => exact .step h1 hw (.alone ho h)

def isRehash : Pc Nat Nat → Bool
  | .start (.ex (.rehash 0)) => true
  | _ => false
theorem isRehash_eq {p : Pc Nat Nat} (h : isRehash p = true) : p = .start (.ex (.rehash 0)) := by
  unfold isRehash at h
  split at h
  · rfl
  · cases h

set_option maxRecDepth 100000 in
theorem exOne_reach : WReach {} exF 0 20 (WState.fresh exOne'.state) := by
  have h : (ex0.run {} (.op 1 (.key (exInsert 1 10)) :: go 1 26 ++ [.op 0 (.ex (.rehash 0))])).isSome = true := by decide +kernel
  have h' : (exOne.run {} [.go 0]).isSome = true := by decide +kernel
  have hq : isRehash (exOne.pc 0) = true := by decide +kernel
  obtain ⟨S, hS⟩ := Option.isSome_iff_exists.1 h
  obtain ⟨S', hS'⟩ := Option.isSome_iff_exists.1 h'
  have e1 : exOne = S := by rw [exOne, hS]; rfl
  have e2 : exOne' = S' := by rw [exOne', hS']; rfl
  have h1 : exOne.step {} (.go 0) = some S' := by simpa [Sys.run] using hS'
  obtain ⟨h2, h3⟩ := Sys.step_sound h1
  rw [e2]
  refine fresh_reach exF_lawful ?_ h2 (t := 0) (e := .rehash 0) (isRehash_eq hq) h3
  rw [e1]
  exact Sys.run_reach (S := ex0) (by rw [ex0, Sys.init_state]; exact .init) hS

/-- The states `0` to `n` of a run of events: the slot holds an element, nobody wants the container exclusively. -/
def keeps (S : Sys Nat Nat) (es : List (Ev Nat Nat)) (g j : Nat) (i : Nat) : Bool :=
  ((S.trace {} es i).mem.slot g j).isSome && !((S.trace {} es i).pc (who es i)).wantsAll

set_option maxRecDepth 100000 in
example : exF.Lawful ∧ ∃ ω : Nat → WState Nat Nat, WReach {} exF 0 20 (ω 0) ∧ WRun {} ω (who exFind) 50 ∧
    Executes (scs ω) 0 (.key Props.ConcTable.exLook) 1 50 1 ∧ ∀ i, 1 ≤ i → i ≤ 50 → Known exF.eq (ω i) 0 1 := by
  have hrun : Run {} (exOne'.trace {} exFind) (who exFind) 50 := ran (by decide +kernel)
  obtain ⟨ω, h1, h2, h3, h4, _⟩ := Conc.Weak.Run.weak hrun (exOne_reach.inv exF_lawful) rfl
  have hk : ∀ i < 50, keeps exOne' exFind 0 0 i = true := by decide +kernel
  have hsl : ∀ i < 51, (exOne'.trace {} exFind i).mem.slot 0 0 = some (1, 10) := by decide +kernel
  have hkn := h4 0 0 0 (fun i hi => by
    have := hk i hi
    simp only [keeps, Bool.and_eq_true, Bool.not_eq_true'] at this
    exact ⟨Option.isSome_iff_exists.1 this.1, this.2⟩)
  refine ⟨exF_lawful, ω, h1 ▸ exOne_reach, h2, ⟨by omega, ?_, ?_, fun i h5 h6 r => ?_⟩, fun i h5 h6 => ?_⟩
  · rw [Called, scs, h3 1 (by omega)]
    have h : (exOne'.trace {} exFind 1).pc 0 = _ := (Sys.call_step (cfg := {}) (S := exOne') (t := 0) (r := 0)
      (o := .key Props.ConcTable.exLook) (by decide +kernel) (by decide +kernel)).2
    exact h
  · rw [Returned, scs, h3 50 le_rfl]
    exact (answers (r := some 1) (by decide +kernel)).1 1 rfl
  · rw [scs, h3 i (by omega)]
    have : ∀ i < 50, 1 ≤ i → ((exOne'.trace {} exFind i).pc 0).answer = none := by decide +kernel
    exact (answers (this i h6 h5)).2 rfl r
  · refine ⟨0, 0, (1, 10), ?_, rfl, (hkn i h6).2 trivial⟩
    have := hsl i (by omega)
    rw [← h3 i h6] at this
    exact this

/-- Two insertions of equivalent keys do not both answer true unless the element was taken out in between. -/
theorem C49_one_insertion_succeeds_partial {cfg : Cfg} {f : Fns K} (hf : f.Lawful) {al c : Nat} {ω : Nat → WState K V}
    {who : Nat → Nat} {n : Nat} (h0 : WReach cfg f al c (ω 0)) (hr : WRun cfg ω who n) {t u : Nat} {m m' : Mode} {x y : K × V}
    {f2 f1 f2' f1' : K × V → V} {a b a' b' : Nat} (he : Executes (scs ω) t (.key (.insert m x f2 f1)) a b 1)
    (he' : Executes (scs ω) u (.key (.insert m' y f2' f1')) a' b' 1) (hb : b ≤ n) (hb' : b' ≤ n) (hk : f.eq x.1 y.1 = true)
    (hd : t ≠ u ∨ b ≤ a')
    (hstay : ∀ i i', min a a' ≤ i → i ≤ i' → i' ≤ max b b' → Present f.eq (Elems (ω i).sc) x.1 →
      Present f.eq (Elems (ω i').sc) x.1) : False := by
  have key : ∀ {m : Mode} {x : K × V} {f2 f1 : K × V → V} {t a b : Nat}, Executes (scs ω) t (.key (.insert m x f2 f1)) a b 1 →
      b ≤ n → ∃ l, a ≤ l ∧ l < b ∧ who l = t ∧ ¬ Present f.eq (Elems (ω l).sc) x.1 ∧ Present f.eq (Elems (ω (l + 1)).sc) x.1 := by
    intro m x f2 f1 t a b he hb
    have hins : ∀ {A A' : Con K V}, Does f.eq (.insert m x f2 f1) A A' 1 → ¬ Present f.eq A x.1 ∧ Present f.eq A' x.1 := by
      intro A A' hd
      have : ∃ w, Insert f.eq w x f2 f1 A A' 1 := by cases m <;> exact ⟨_, hd⟩
      obtain ⟨w, ⟨y, _, _, _, h⟩ | ⟨h1, h2, _⟩⟩ := this
      · cases h
      · exact ⟨h1, _, (h2 _).2 (.inr rfl), hf.refl _⟩
    rcases C49_linearizable hf h0 hr he hb with ⟨l, h1, h2, h3, h4, _⟩ | ⟨h1, _⟩
    · exact ⟨l, h1, h2, h3, hins h4⟩
    · exact absurd rfl (h1 _ _ _ _)
  have hpe : ∀ A : Con K V, Present f.eq A x.1 ↔ Present f.eq A y.1 := by
    intro A
    constructor
    · rintro ⟨z, hz, hzz⟩; exact ⟨z, hz, hf.trans _ _ _ (hf.symm _ _ hk) hzz⟩
    · rintro ⟨z, hz, hzz⟩; exact ⟨z, hz, hf.trans _ _ _ hk hzz⟩
  obtain ⟨l, h1, h2, h3, h4, h5⟩ := key he hb
  obtain ⟨l', h1', h2', h3', h4', h5'⟩ := key he' hb'
  rw [← hpe] at h4' h5'
  rcases Nat.lt_trichotomy l l' with hl | hl | hl
  · exact h4' (hstay (l + 1) l' (by omega) (by omega) (by omega) h5)
  · rcases hd with hd | hd
    · exact hd (by rw [← h3, ← h3', hl])
    · omega
  · exact h4 (hstay (l' + 1) l (by omega) (by omega) (by omega) h5')

/-- The hypotheses but one are met by the race of the example, and there one of the answers is false. -/
example : exF.Lawful ∧ (∃ ω : Nat → WState Nat Nat, WReach {} exF 0 20 (ω 0) ∧ WRun {} ω (who exRace) 75 ∧
    Executes (scs ω) 0 (.key (exInsert 1 10)) 0 75 0 ∧ Executes (scs ω) 1 (.key (exInsert 1 20)) 0 44 1) ∧ (0 : Nat) ≠ 1 ∧
    exF.eq 1 1 = true := ⟨exF_lawful, exWeak, by decide, rfl⟩

/-- A thread that inserts an element knows of it. -/
theorem known_insert {cfg : Cfg} {w w' : WState K V} (hi : WInv w) {t : Nat} (h : WStepBy cfg t w w') {k : K}
    (h0 : ¬ Present w.mem.tab.fns.eq (Elems w.sc) k) (h1 : Present w.mem.tab.fns.eq (Elems w'.sc) k) :
    Known w.mem.tab.fns.eq w' t k := by
  have hb := hi.b
  cases h with
  | @eff m' p' h =>
    obtain ⟨y', ⟨g, j, hy'⟩, he⟩ := h1
    rcases h.slots hy' with ⟨y, hy, hyy⟩ | ⟨md, z, f2, f1, c, pb, hq, rfl, hyz, hcc⟩
    · exact absurd ⟨y, ⟨g, j, hy⟩, by rw [hyy]; exact he⟩ h0
    · refine ⟨_, j, y', hy', he, ?_⟩
      rw [(eff_ins (m' := m') (p' := p') hq).2.2, if_pos ⟨rfl, rfl⟩]
  | alone ho h =>
    obtain ⟨y', ⟨g, j, hy'⟩, he⟩ := h1
    exact ⟨g, j, y', hy', he, trivial⟩
  | _ => exact absurd h1 h0

/-- An element one knows of remains known as long as the key is present. -/
theorem known_keep {cfg : Cfg} {w w' : WState K V} (hi : WInv w) (hw : NoWrap w.sc) {t u : Nat} (h : WStepBy cfg u w w') {k : K}
    (h0 : Known w.mem.tab.fns.eq w t k) (h1 : Present w.mem.tab.fns.eq (Elems w'.sc) k) :
    Known w.mem.tab.fns.eq w' t k := by
  have hb := hi.b
  have hv := hi.v
  have hlaw : w.mem.tab.fns.Lawful := hb.base.law
  cases h with
  | @eff m' p' h =>
    obtain ⟨g, j, y, hy, he, hkn⟩ := h0
    obtain ⟨y', ⟨g', j', hy'⟩, he'⟩ := h1
    rcases h.slots hy' with ⟨y2, hy2, hyy⟩ | ⟨md, z, f2, f1, c, pb, hq, rfl, hyz, hcc⟩
    · have hee := hlaw.trans _ _ _ (hlaw.symm _ _ he) (by rw [← hyy] at he'; exact he')
      obtain ⟨rfl, rfl⟩ := (hb.base.shape.live hy).2.uniq _ _ _ _ _ _ hy hy2 hee
      exact ⟨g, j, y', hy', he', (eff_kn hb hy t).2 hkn⟩
    · exfalso
      have := hv.noKey hb.base.law hw hq hcc g j y hy
      have hee : w.mem.tab.fns.eq (KOp.insert md z f2 f1).key y.1 = true := by
        rw [hyz] at he'
        exact hlaw.trans _ _ _ (hlaw.symm _ _ he') he
      rw [hee] at this
      cases this
  | alone ho h =>
    obtain ⟨y', ⟨g, j, hy'⟩, he⟩ := h1
    exact ⟨g, j, y', hy', he, trivial⟩
  | sync x =>
    obtain ⟨g, j, y, hy, he, hkn⟩ := h0
    refine ⟨g, j, y, hy, he, ?_⟩
    show if t = u then _ else _
    split
    · rename_i htu; subst htu; exact .inl hkn
    · exact hkn
  | _ => exact h0

/-- A lookup finds an element inserted before by the same thread, or by a thread that its thread has synchronized with in between
(a mutex, a join, an acquire load of a flag: anything that makes the insertion happen before the lookup), if the key stays in
the container. -/
theorem C49_synchronized_lookup {cfg : Cfg} {f : Fns K} (hf : f.Lawful) {al c : Nat} {ω : Nat → WState K V}
    {who : Nat → Nat} {n : Nat} (h0 : WReach cfg f al c (ω 0)) (hr : WRun cfg ω who n) {t u : Nat} {m m' : Mode} {x : K × V} {k : K}
    {f2 f1 g : K × V → V} {a b a' b' r : Nat} (he : Executes (scs ω) t (.key (.insert m x f2 f1)) a b 1)
    (he' : Executes (scs ω) u (.key (.visit m' k g)) a' b' r) (hb' : b' ≤ n) (hk : f.eq k x.1 = true)
    (hbefore : (t = u ∧ b ≤ a') ∨ ∃ l, b ≤ l ∧ l < a' ∧ ω (l + 1) = (ω l).sync u t)
    (hstay : ∀ i i', a ≤ i → i ≤ i' → i' ≤ b' → Present f.eq (Elems (ω i).sc) k → Present f.eq (Elems (ω i').sc) k) : r = 1 := by
  have hle := he.le
  have hle' := he'.le
  have hba : b ≤ a' := by
    rcases hbefore with ⟨_, h⟩ | ⟨l, h1, h2, _⟩
    · exact h
    · omega
  have hi0 := h0.inv hf
  have hfn : ∀ i ≤ n, (ω i).mem.tab.fns = f := fun i hi => (hr.fns hi0 i hi).trans (h0.fns hf)
  have hpe : ∀ A : Con K V, Present f.eq A x.1 ↔ Present f.eq A k := by
    intro A
    constructor
    · rintro ⟨z, hz, hzz⟩; exact ⟨z, hz, hf.trans _ _ _ hk hzz⟩
    · rintro ⟨z, hz, hzz⟩; exact ⟨z, hz, hf.trans _ _ _ (hf.symm _ _ hk) hzz⟩
  have hins : ∃ l, a ≤ l ∧ l < b ∧ who l = t ∧ ¬ Present f.eq (Elems (ω l).sc) k ∧ Present f.eq (Elems (ω (l + 1)).sc) k := by
    have hin : ∀ {A A' : Con K V}, Does f.eq (.insert m x f2 f1) A A' 1 → ¬ Present f.eq A x.1 ∧ Present f.eq A' x.1 := by
      intro A A' hd
      have : ∃ w, Insert f.eq w x f2 f1 A A' 1 := by cases m <;> exact ⟨_, hd⟩
      obtain ⟨w, ⟨y, _, _, _, h⟩ | ⟨h1, h2, _⟩⟩ := this
      · cases h
      · exact ⟨h1, _, (h2 _).2 (.inr rfl), hf.refl _⟩
    rcases C49_linearizable hf h0 hr he (by omega) with ⟨l, h1, h2, h3, h4, _⟩ | ⟨h1, _⟩
    · obtain ⟨h5, h6⟩ := hin h4
      exact ⟨l, h1, h2, h3, fun h => h5 ((hpe _).2 h), (hpe _).1 h6⟩
    · exact absurd rfl (h1 _ _ _ _)
  obtain ⟨l, hl1, hl2, hl3, hl4, hl5⟩ := hins
  have keep : ∀ v i, l + 1 ≤ i → Known f.eq (ω i) v k → ∀ d, i + d ≤ b' → Known f.eq (ω (i + d)) v k := by
    intro v i hi hkn d
    induction d with
    | zero => intro _; exact hkn
    | succ d ih =>
      intro hd
      have hkd := ih (by omega)
      have hp : Present f.eq (Elems (ω (i + d + 1)).sc) k := hstay (l + 1) _ (by omega) (by omega) (by omega) hl5
      have := known_keep (hr.inv hi0 (i + d) (by omega)) (hr.nowrap (i + d) (by omega)) (hr.step (i + d) (by omega)) (t := v) (k := k)
      rw [hfn (i + d) (by omega)] at this
      exact this hkd hp
  have hk1 : Known f.eq (ω (l + 1)) t k := by
    have := known_insert (hr.inv hi0 l (by omega)) (hr.step l (by omega)) (k := k)
    rw [hfn l (by omega), hl3] at this
    exact this hl4 hl5
  have hk2 : ∃ i, l + 1 ≤ i ∧ i ≤ a' ∧ Known f.eq (ω i) u k := by
    rcases hbefore with ⟨rfl, _⟩ | ⟨l', h1, h2, h3⟩
    · exact ⟨l + 1, le_rfl, by omega, hk1⟩
    · refine ⟨l' + 1, by omega, by omega, ?_⟩
      have := keep t (l + 1) le_rfl hk1 (l' - (l + 1)) (by omega)
      rw [show l + 1 + (l' - (l + 1)) = l' by omega] at this
      obtain ⟨g', j, y, hy, hee, hkn⟩ := this
      rw [h3]
      exact ⟨g', j, y, hy, hee, by show if u = u then _ else _; rw [if_pos rfl]; exact .inr hkn⟩
  obtain ⟨i, hi1, hi2, hi3⟩ := hk2
  refine (C49_lookup hf h0 hr he' hb').1 fun q hq1 hq2 => ?_
  have := keep u i hi1 hi3 (q - i) (by omega)
  rw [show i + (q - i) = q by omega] at this
  exact this

/-- Thread 0 inserts key 1. -/
def exIns : List (Ev Nat Nat) := .op 0 (.key (exInsert 1 10)) :: go 0 26
def exInsEnd : Sys Nat Nat := (ex0.run {} exIns).getD ex0

/-- Then thread 1 looks it up. -/
def exThen : List (Ev Nat Nat) := .op 1 (.key Props.ConcTable.exLook) :: go 1 22

set_option maxRecDepth 100000 in
example : exF.Lawful ∧ exF.eq 1 1 = true ∧ ∃ (ω : Nat → WState Nat Nat) (who : Nat → Nat),
    WReach {} exF 0 20 (ω 0) ∧ WRun {} ω who 51 ∧
    Executes (scs ω) 0 (.key (.insert .shared (1, 10) (·.2) (·.2))) 1 27 1 ∧
    Executes (scs ω) 1 (.key (.visit .shared 1 (·.2))) 29 51 1 ∧
    (∃ l, 27 ≤ l ∧ l < 29 ∧ ω (l + 1) = (ω l).sync 1 0) ∧
    ∀ i i', 1 ≤ i → i ≤ i' → i' ≤ 51 → Present exF.eq (Elems (ω i).sc) 1 → Present exF.eq (Elems (ω i').sc) 1 := by
  refine ⟨exF_lawful, rfl, ?_⟩
  have hinit : WReach {} exF 0 20 (WState.fresh ex0.state) := by rw [ex0, Sys.init_state]; exact .init
  have hrun : Run {} (ex0.trace {} exIns) (Conc.Tab.who exIns) 27 := ran (by decide +kernel)
  have hrun' : Run {} (exInsEnd.trace {} exThen) (Conc.Tab.who exThen) 23 := ran (by decide +kernel)
  obtain ⟨ω, h1, h2, h3, _⟩ := Conc.Weak.Run.weak hrun (hinit.inv exF_lawful) rfl
  have hre : WReach {} exF 0 20 (ω 27) := WRun.reach (h1 ▸ hinit) h2 27 le_rfl
  have hnw : NoWrap (ω 27).sc := by
    rw [h3 27 le_rfl]
    exact Sys.nowrap_sound (S := exInsEnd) (by decide +kernel)
  have hre' : WReach {} exF 0 20 ((ω 27).sync 1 0) := .step hre hnw (.sync (t := 1) 0)
  have hsc : ((ω 27).sync 1 0).sc = exInsEnd.trace {} exThen 0 := h3 27 le_rfl
  obtain ⟨ω', h1', h2', h3', _⟩ := Conc.Weak.Run.weak hrun' (hre'.inv exF_lawful) hsc
  let Ω : Nat → WState Nat Nat := fun i => if i ≤ 27 then ω i else ω' (i - 28)
  have hΩ1 : ∀ i ≤ 27, Ω i = ω i := fun i hi => if_pos hi
  have hΩ2 : ∀ i, 28 ≤ i → Ω i = ω' (i - 28) := fun i hi => if_neg (by omega)
  have hrunΩ : WRun {} Ω (fun i => if i < 27 then Conc.Tab.who exIns i else if i = 27 then 1 else Conc.Tab.who exThen (i - 28)) 51 := by
    refine ⟨fun i hi => ?_, fun i hi => ?_⟩
    · rcases Nat.lt_trichotomy i 27 with h | rfl | h
      · rw [hΩ1 i (by omega), hΩ1 (i + 1) (by omega), if_pos h]; exact h2.step i h
      · rw [hΩ1 27 le_rfl, hΩ2 28 le_rfl, h1']
        exact .sync 0
      · rw [hΩ2 i (by omega), hΩ2 (i + 1) (by omega), if_neg (by omega), if_neg (by omega), show i + 1 - 28 = i - 28 + 1 by omega]
        exact h2'.step (i - 28) (by omega)
    · rcases Nat.lt_trichotomy i 27 with h | rfl | h
      · rw [hΩ1 i (by omega)]; exact h2.nowrap i h
      · rw [hΩ1 27 le_rfl]; exact hnw
      · rw [hΩ2 i (by omega)]; exact h2'.nowrap _ (by omega)
  have hreach : WReach {} exF 0 20 (Ω 0) := by rw [hΩ1 0 (by omega), h1]; exact hinit
  have hcall : ex0.trace {} exIns 1 = ⟨ex0.mem, ((ex0.pcs.set 0 (.start (.key (exInsert 1 10)))).getD · .idle)⟩ := rfl
  have hcall' : exInsEnd.trace {} exThen 1 = ((exInsEnd.run {} [.op 1 (.key Props.ConcTable.exLook)]).getD exInsEnd).state := rfl
  have hcall2 : (exInsEnd.run {} [.op 1 (.key Props.ConcTable.exLook)]) =
      some ⟨exInsEnd.mem, exInsEnd.pcs.set 1 (.start (.key Props.ConcTable.exLook))⟩ := by
    have e1 : (1 < exInsEnd.pcs.length ∧ exInsEnd.nowrap = true) := by decide +kernel
    have e2 : exInsEnd.pc 1 = .idle := by
      have : ∀ p : Pc Nat Nat, (match p with | .idle => true | _ => false) = true → p = .idle := by
        intro p hp; cases p <;> first | rfl | cases hp
      exact this _ (by decide +kernel)
    simp only [Sys.run, List.foldlM_cons, List.foldlM_nil, Sys.step, Ev.op, e1, e2, and_self, if_true, Option.bind_eq_bind,
      Option.bind_some]
    rfl
  refine ⟨Ω, _, hreach, hrunΩ, ⟨by omega, ?_, ?_, fun i h5 h6 r => ?_⟩,
    ⟨by omega, ?_, ?_, fun i h5 h6 r => ?_⟩, ⟨27, le_rfl, by omega, ?_⟩, fun i i' h5 h6 h7 => ?_⟩
  · rw [Called, scs, hΩ1 1 (by omega), h3 1 (by omega), hcall]; rfl
  · rw [Returned, scs, hΩ1 27 le_rfl, h3 27 le_rfl]
    exact (answers (r := some 1) (by decide +kernel)).1 1 rfl
  · rw [scs, hΩ1 i (by omega), h3 i (by omega)]
    have : ∀ i < 27, 1 ≤ i → ((ex0.trace {} exIns i).pc 0).answer = none := by decide +kernel
    exact (answers (this i h6 h5)).2 rfl r
  · rw [Called, scs, hΩ2 29 (by omega), h3' 1 (by omega), hcall', hcall2, Option.getD_some,
      Sys.set_state (by decide +kernel)]
    rfl
  · rw [Returned, scs, hΩ2 51 (by omega), h3' 23 le_rfl]
    exact (answers (r := some 1) (by decide +kernel)).1 1 rfl
  · rw [scs, hΩ2 i (by omega), h3' (i - 28) (by omega)]
    have : ∀ i < 23, ((exInsEnd.trace {} exThen i).pc 1).answer = none := by decide +kernel
    exact (answers (this (i - 28) (by omega))).2 rfl r
  · rw [hΩ1 27 le_rfl, hΩ2 28 le_rfl, h1']
  · have hno : ∀ i < 25, ∀ g < 2, ∀ j < 15, (ex0.trace {} exIns i).mem.slot g j = none := by decide +kernel
    have hyes : ∀ i < 28, 25 ≤ i → (ex0.trace {} exIns i).mem.slot 0 0 = some (1, 10) := by decide +kernel
    have hyes' : ∀ i < 24, (exInsEnd.trace {} exThen i).mem.slot 0 0 = some (1, 10) := by decide +kernel
    have hk : ∀ i < 25, (ex0.trace {} exIns i).mem.tab.arr.k = 1 := by decide +kernel
    by_cases hi' : i' < 25
    · rintro ⟨y, ⟨g, j, hy⟩, _⟩
      exfalso
      have hinv := hrunΩ.inv (hreach.inv exF_lawful) i (by omega)
      have hv : Valid (Ω i).mem.tab.arr.k g j := (hinv.b.base.shape.live hy).2.valid hy
      rw [hΩ1 i (by omega)] at hv hy
      have e : (ω i).mem = (ex0.trace {} exIns i).mem := by rw [WState.mem, h3 i (by omega)]
      rw [e, hk i (by omega)] at hv
      have := hno i (by omega) g hv.1 j hv.2.1
      rw [← e] at this
      rw [show (ω i).mem.slot g j = some y from hy] at this
      cases this
    · intro _
      refine ⟨(1, 10), ⟨0, 0, ?_⟩, rfl⟩
      by_cases h8 : i' ≤ 27
      · rw [hΩ1 i' h8, h3 i' h8]; exact hyes i' (by omega) (by omega)
      · rw [hΩ2 i' (by omega), h3' (i' - 28) (by omega)]; exact hyes' _ (by omega)

/-! ### relation to sequential consistency -/

/-- Every execution of the model with one total order of accesses is one of the weak model. -/
theorem C49_includes_sequential_executions {cfg : Cfg} {f : Fns K} (hf : f.Lawful) {al c : Nat} {σ : Nat → State K V}
    {who : Nat → Nat} {n : Nat} (h0 : Reach cfg f al c (σ 0)) (hr : Run cfg σ who n) :
    ∃ ω : Nat → WState K V, WReach cfg f al c (ω 0) ∧ WRun cfg ω who n ∧ ∀ i ≤ n, (ω i).sc = σ i := by
  obtain ⟨w, h1, h2⟩ := Conc.Weak.Reach.weak hf h0
  obtain ⟨ω, h3, h4, h5, _, _⟩ := Conc.Weak.Run.weak hr (h1.inv hf) h2
  exact ⟨ω, h3 ▸ h1, h4, h5⟩

example : exF.Lawful ∧ Reach {} exF 0 20 (exRun 0) ∧ Run {} exRun (who exRace) 75 := ⟨exF_lawful, ex1_reach, exRace_run⟩

/-! ### what is lost

Without a happens-before relation an insertion that has completed, in the order of time, may be missed by a later lookup: the
claim of C30 (a lookup finds a key that is present from its call to its return) is false in the weak model. -/

theorem move_move (w : WState K V) (t : Nat) (p p' : Pc K V) (vw vw' : Nat → Nat) :
    (w.move t p vw).move t p' vw' = w.move t p' vw' := by
  unfold WState.move State.set
  simp only [WState.mk.injEq, and_true, true_and, State.mk.injEq]
  constructor
  · funext u; split <;> rfl
  · funext u; split <;> rfl

theorem move_self (w : WState K V) (t : Nat) : w.move t (w.pc t) (w.view t) = w := by
  unfold WState.move State.set
  cases w with
  | mk sc ver top view cmsg mlv smsg num kn =>
    cases sc with
    | mk mem pc =>
      simp only [WState.mk.injEq, and_true, true_and, State.mk.injEq, WState.pc, WState.mem]
      constructor
      · funext u; split
        · rename_i h; rw [h]
        · rfl
      · funext u; split
        · rename_i h; rw [h]
        · rfl

theorem move_pc (w : WState K V) (t : Nat) (p : Pc K V) (vw : Nat → Nat) : (w.move t p vw).pc t = p := by
  show (if t = t then p else _) = p
  rw [if_pos rfl]

theorem move_view (w : WState K V) (t : Nat) (p : Pc K V) (vw : Nat → Nat) : (w.move t p vw).view t = vw := by
  show (if t = t then vw else _) = vw
  rw [if_pos rfl]

/-- Where thread 1 is when it looks key 1 up and reads the initial version of everything. -/
def stale (m : Mem Nat Nat) : List (Pc Nat Nat) :=
  [.idle, .start (.key Props.ConcTable.exLook)] ++
  (List.range 16).map (fun i => .scan Props.ConcTable.exLook 0 (probe0 m Props.ConcTable.exLook) ((List.range N).drop i) []) ++
  [.over Props.ConcTable.exLook 0 (probe0 m Props.ConcTable.exLook), .leave 0, .done 0]

def isInc : Pc K V → Bool
  | .insInc _ _ _ _ => true
  | _ => false
set_option maxRecDepth 100000 in
/-- Thread 0 inserts key 1 and the insertion returns true; then thread 1 looks key 1 up, nothing else happens, and the answer is
that it is not there. -/
theorem C49_unsynchronized_lookup_may_miss : ∃ (ω : Nat → WState Nat Nat) (who : Nat → Nat),
    WReach {} exF 0 20 (ω 0) ∧ WRun {} ω who 47 ∧
    Executes (scs ω) 0 (.key (.insert .shared (1, 10) (·.2) (·.2))) 1 27 1 ∧
    Executes (scs ω) 1 (.key (.visit .shared 1 (·.2))) 28 47 0 ∧
    ∀ i, 27 ≤ i → i ≤ 47 → Present exF.eq (Elems (ω i).sc) 1 := by
  have hinit : WReach {} exF 0 20 (WState.fresh ex0.state) := by rw [ex0, Sys.init_state]; exact .init
  have hrun : Run {} (ex0.trace {} exIns) (Conc.Tab.who exIns) 27 := ran (by decide +kernel)
  have hwho : ∀ i < 27, Conc.Tab.who exIns i = 0 := by decide +kernel
  have hwa : ∀ i < 27, ((ex0.trace {} exIns i).pc 0).wantsAll = false := by decide +kernel
  obtain ⟨ω, h1, h2, h3, _, h4⟩ := Conc.Weak.Run.weak hrun (hinit.inv exF_lawful) rfl
  obtain ⟨hv, hver, htop⟩ := h4 1 (fun i hi => by rw [hwho i hi]; exact ⟨by decide, hwa i hi⟩) 27 le_rfl
  generalize hw : ω 27 = w at hv hver htop
  have hsc : w.sc = ex0.trace {} exIns 27 := hw ▸ h3 27 le_rfl
  have hmem : w.mem = exInsEnd.mem := by rw [WState.mem, hsc]; rfl
  have hrd : ∀ g, w.Readable 1 g 0 := fun g => ⟨by rw [hv]; exact le_rfl, Nat.zero_le _⟩
  have hver0 : ∀ g, w.ver g 0 = ex0.mem.grp g := fun g => hver g 0 (Nat.zero_le _)
  have hmd : ∀ j < 15, (ex0.mem.grp (probe0 exInsEnd.mem Props.ConcTable.exLook).pos).md j ≠ rhash (exInsEnd.mem.hashOf 1) := by
    decide +kernel
  have hov : (ex0.mem.grp (probe0 exInsEnd.mem Props.ConcTable.exLook).pos).isNotOverflowed (exInsEnd.mem.hashOf 1) = true := by
    decide +kernel
  let B : Nat → WState Nat Nat := fun i => w.move 1 ((stale exInsEnd.mem).getD i .idle) (w.view 1)
  have hB0 : B 0 = w := by
    have hpc : w.pc 1 = .idle := by
      rw [WState.pc, hsc]
      have : ∀ p : Pc Nat Nat, (match p with | .idle => true | _ => false) = true → p = .idle := by
        intro p hp; cases p <;> first | rfl | cases hp
      exact this _ (by decide +kernel)
    show w.move 1 .idle (w.view 1) = w
    rw [← hpc]
    exact move_self w 1
  have hBmem : ∀ i, (B i).mem = exInsEnd.mem := fun i => hmem
  have hBv : ∀ i, (B i).view 1 = w.view 1 := fun i => move_view _ _ _ _
  have hBrd : ∀ i g, (B i).Readable 1 g 0 := fun i g => ⟨by rw [hBv]; exact (hrd g).1, Nat.zero_le _⟩
  have hBver : ∀ i g, (B i).ver g 0 = ex0.mem.grp g := fun i g => hver0 g
  have hBpc : ∀ i, (B i).pc 1 = (stale exInsEnd.mem).getD i .idle := fun i => move_pc _ _ _ _
  have hquiet : ∀ i p', Racy ((B i).pc 1) = false → Quiet (B i).mem ((B i).sc.canS 1) ((B i).sc.canX 1) ((B i).pc 1) p' →
      p'.locks = none → (stale exInsEnd.mem).getD (i + 1) .idle = p' → WStepBy {} 1 (B i) (B (i + 1)) := by
    intro i p' hr hq hl hp
    have h := WStepBy.quiet (cfg := {}) hr hq
    have hlv : (B i).lockView 1 p' = w.view 1 := by
      funext g
      rw [WState.lockView, hl, hBv]
      exact if_neg (by simp)
    rw [hlv] at h
    have e : (B i).move 1 p' (w.view 1) = B (i + 1) := by
      show (w.move 1 _ _).move 1 p' _ = w.move 1 _ _
      rw [move_move, hp]
    rw [e] at h
    exact h
  have hstep : ∀ i < 20, WStepBy {} 1 (B i) (B (i + 1)) := by
    intro i hi
    rcases (show i = 0 ∨ i = 1 ∨ (2 ≤ i ∧ i < 17) ∨ i = 17 ∨ i = 18 ∨ i = 19 by omega) with rfl | rfl | hc | rfl | rfl | rfl
    · refine hquiet 0 _ (by rw [hBpc]; rfl) (by rw [hBpc]; exact .call _) rfl rfl
    · refine hquiet 1 _ (by rw [hBpc]; rfl) (by rw [hBpc]; exact .enter _) rfl ?_
      rw [hBmem]; rfl
    · obtain ⟨k, rfl⟩ : ∃ k, i = k + 2 := ⟨i - 2, by omega⟩
      have hk : k < 15 := by omega
      have hpc : ∀ l ≤ 15, (stale exInsEnd.mem).getD (l + 2) .idle =
          .scan Props.ConcTable.exLook 0 (probe0 exInsEnd.mem Props.ConcTable.exLook) ((List.range N).drop l) [] := by
        intro l hl
        rcases (show l = 0 ∨ l = 1 ∨ l = 2 ∨ l = 3 ∨ l = 4 ∨ l = 5 ∨ l = 6 ∨ l = 7 ∨ l = 8 ∨ l = 9 ∨ l = 10 ∨ l = 11 ∨ l = 12 ∨
          l = 13 ∨ l = 14 ∨ l = 15 by omega) with h | h | h | h | h | h | h | h | h | h | h | h | h | h | h | h <;> subst h <;> rfl
      have hd : ∀ k < 15, k ∈ (List.range N).drop k ∧ ((List.range N).drop k).erase k = (List.range N).drop (k + 1) := by decide +kernel
      have h := WStepBy.scanMiss (cfg := {}) (t := 1) (w := B (k + 2)) _ _ _ _ _ k 0 ((hBpc (k + 2)).trans (hpc k (by omega))) (hd k hk).1
        (hBrd _ _) (by rw [hBver, hBmem]; exact hmd k hk)
      rw [(hd k hk).2, hBv] at h
      have e : (B (k + 2)).move 1 (.scan Props.ConcTable.exLook 0 (probe0 exInsEnd.mem Props.ConcTable.exLook)
          ((List.range N).drop (k + 1)) []) (w.view 1) = B (k + 2 + 1) := by
        show (w.move 1 _ _).move 1 _ _ = w.move 1 _ _
        rw [move_move, show k + 2 + 1 = (k + 1) + 2 by omega, hpc (k + 1) (by omega)]
      rw [e] at h
      exact h
    · refine hquiet 17 _ (by rw [hBpc]; rfl) (by rw [hBpc]; exact .scanNone _ _ _) rfl rfl
    · have h := WStepBy.overEnd (cfg := {}) (t := 1) (w := B 18) _ _ _ 0 (hBpc 18) (hBrd _ _) (by rw [hBver, hBmem]; exact hov)
      rw [hBv] at h
      have e : (B 18).move 1 (missPc Props.ConcTable.exLook 0) (w.view 1) = B 19 := by
        show (w.move 1 _ _).move 1 _ _ = w.move 1 _ _
        rw [move_move]; rfl
      rw [e] at h
      exact h
    · refine hquiet 19 _ (by rw [hBpc]; rfl) (by rw [hBpc]; exact .leave _) rfl rfl
  have hst : exInsEnd.state = ex0.trace {} exIns 27 := rfl
  have hnw : ∀ i < 20, NoWrap (B i).sc := by
    intro i hi t o c pb j hq
    by_cases ht : t = 1
    · subst ht
      have h := (hBpc i).symm.trans hq
      have hno : ∀ i < 20, isInc ((stale exInsEnd.mem).getD i .idle) = false := by decide +kernel
      have := hno i hi
      rw [h] at this
      cases this
    · have hS : NoWrap exInsEnd.state := Sys.nowrap_sound (by decide +kernel)
      have h : (B i).sc.pc t = w.pc t := if_neg ht
      rw [hst, ← hsc] at hS
      exact hS t o c pb j (h.symm.trans hq)
  let Ω : Nat → WState Nat Nat := fun i => if i ≤ 27 then ω i else B (i - 27)
  have hΩ1 : ∀ i ≤ 27, Ω i = ω i := fun i hi => if_pos hi
  have hΩ2 : ∀ i, 27 ≤ i → Ω i = B (i - 27) := by
    intro i hi
    by_cases h : i ≤ 27
    · obtain rfl : i = 27 := by omega
      rw [hΩ1 27 le_rfl, hw]
      exact hB0.symm
    · exact if_neg h
  have hsl : exInsEnd.mem.slot 0 0 = some (1, 10) := by decide +kernel
  have hcall : ex0.trace {} exIns 1 = ⟨ex0.mem, ((ex0.pcs.set 0 (.start (.key (exInsert 1 10)))).getD · .idle)⟩ := rfl
  refine ⟨Ω, fun i => if i < 27 then 0 else 1, ?_, ⟨fun i hi => ?_, fun i hi => ?_⟩, ⟨by omega, ?_, ?_, fun i h5 h6 r => ?_⟩,
    ⟨by omega, ?_, ?_, fun i h5 h6 r => ?_⟩, fun i h5 h6 => ?_⟩
  · rw [hΩ1 0 (by omega), h1]; exact hinit
  · by_cases hi' : i < 27
    · rw [hΩ1 i (by omega), hΩ1 (i + 1) (by omega), if_pos hi']
      have := h2.step i hi'
      rw [hwho i hi'] at this
      exact this
    · rw [hΩ2 i (by omega), hΩ2 (i + 1) (by omega), if_neg hi', show i + 1 - 27 = i - 27 + 1 by omega]
      exact hstep (i - 27) (by omega)
  · by_cases hi' : i < 27
    · rw [hΩ1 i (by omega)]; exact h2.nowrap i hi'
    · rw [hΩ2 i (by omega)]; exact hnw _ (by omega)
  · rw [Called, scs, hΩ1 1 (by omega), h3 1 (by omega), hcall]; rfl
  · rw [Returned, scs, hΩ1 27 le_rfl, h3 27 le_rfl]
    exact (answers (r := some 1) (by decide +kernel)).1 1 rfl
  · rw [scs, hΩ1 i (by omega), h3 i (by omega)]
    have : ∀ i < 27, 1 ≤ i → ((ex0.trace {} exIns i).pc 0).answer = none := by decide +kernel
    exact (answers (this i h6 h5)).2 rfl r
  · rw [Called, scs, hΩ2 28 (by omega)]; exact hBpc 1
  · rw [Returned, scs, hΩ2 47 (by omega)]; exact hBpc 20
  · rw [Returned, scs, hΩ2 i (by omega)]
    intro hq
    have hno : ∀ i < 20, 1 ≤ i → ((stale exInsEnd.mem).getD i .idle).answer = none := by decide +kernel
    have := hno (i - 27) (by omega) (by omega)
    rw [← hBpc, show (B (i - 27)).pc 1 = .done r from hq] at this
    cases this
  · rw [hΩ2 i h5]
    refine ⟨(1, 10), ⟨0, 0, ?_⟩, rfl⟩
    have := hBmem (i - 27)
    show (B (i - 27)).mem.slot 0 0 = _
    rw [this]
    exact hsl

end Props.ConcWeak

/-
Exceptions in concurrent containers: the invariant of `Verif.Conc.TabInv` holds in all reachable states.
-/
import Verif.Conc.Exc
import Verif.SpecTExc

namespace Conc.Exc
open Foa Conc.Tab SpecT
open Conc.Locking (Mode)

variable {K V : Type}

/-! ### replacing the place of one thread -/

theorem base_relabel {s : State K V} (hi : SBase s) {t : Nat} {p' : Pc K V} (hl : p'.locks = none ∨ p'.locks = (s.pc t).locks)
    (ho : ∀ g j, (s.pc t).owns = some (g, j) → p'.owns = some (g, j)) (hr : p'.hasRes = (s.pc t).hasRes)
    (he : p'.er = (s.pc t).er)
    (hb : p'.hasRes = true → ∀ b n', p'.resBound b = some n' → ∃ n, (s.pc t).resBound b = some n ∧ n ≤ n')
    (hok : PcOk s.mem p') : SBase (s.set t s.mem p') := by
  obtain ⟨L, ha⟩ := hi.acct
  refine ⟨hi.law, excl_step hi t p' (hl.imp id .inl), ?_, hi.al, ?_, L, ?_⟩
  · refine hi.shape.mono ?_
    rintro g j ⟨u, hu⟩
    by_cases hut : u = t
    · subst hut; exact ⟨u, by rw [State.set_pc, upd_self]; exact ho g j hu⟩
    · exact ⟨u, by rw [State.set_pc, upd_of_ne _ hut]; exact hu⟩
  · intro u
    rw [State.set_pc]
    by_cases hut : u = t
    · subst hut; rw [upd_self]; exact hok
    · rw [upd_of_ne _ hut]; exact hi.pcs u
  · exact ha.same (fun _ _ => Iff.rfl) rfl rfl rfl hr he (fun h b _ => hb h b)

theorem inv_relabel {s : State K V} (hi : SInv s) {t : Nat} {p' : Pc K V} (hl : p'.locks = none ∨ p'.locks = (s.pc t).locks)
    (ho : ∀ g j, (s.pc t).owns = some (g, j) → p'.owns = some (g, j)) (hr : p'.hasRes = (s.pc t).hasRes)
    (he : p'.er = (s.pc t).er)
    (hb : p'.hasRes = true → ∀ b n', p'.resBound b = some n' → ∃ n, (s.pc t).resBound b = some n ∧ n ≤ n')
    (hok : PcOk s.mem p') (hins : InsOk s.mem p') : SInv (s.set t s.mem p') := by
  refine ⟨base_relabel hi.toSBase hl ho hr he hb hok, fun u => ?_⟩
  rw [State.set_pc]
  by_cases hut : u = t
  · subst hut; rw [upd_self]; exact hins
  · rw [upd_of_ne _ hut]; exact hi.ins u

theorem insOk_of_nostamp {m : Mem K V} {p : Pc K V} (h : p.stamp = none) : InsOk m p := by
  intro x c hx; rw [h] at hx; cases hx

/-- To a place where nothing is owned or reserved. -/
theorem inv_drop {s : State K V} (hi : SInv s) {t : Nat} {p' : Pc K V} (hl : p'.locks = none ∨ p'.locks = (s.pc t).locks)
    (ho : (s.pc t).owns = none) (hr : (s.pc t).hasRes = false) (he : (s.pc t).er = none)
    (h1 : p'.hasRes = false) (h2 : p'.er = none) (h3 : p'.stamp = none) (hok : PcOk s.mem p') : SInv (s.set t s.mem p') :=
  inv_relabel hi hl (by rw [ho]; rintro g j ⟨⟩) (h1.trans hr.symm) (h2.trans he.symm) (fun h => by rw [h1] at h; cases h) hok
    (insOk_of_nostamp h3)

theorem set_set (s : State K V) (t : Nat) (m m' : Mem K V) (p p' : Pc K V) : (s.set t m p).set t m' p' = s.set t m' p' := by
  unfold State.set
  congr 1
  funext u
  dsimp only
  split <;> rfl

theorem nowrap_relabel {s : State K V} (hw : NoWrap s) {t : Nat} {p' : Pc K V}
    (h : ∀ o c pb j, p' = .insInc o c pb j → ∃ o', s.pc t = .insInc o' c pb j ∧ o'.key = o.key) :
    NoWrap (s.set t s.mem p') := by
  intro u o c pb j hq
  rw [State.set_pc] at hq
  by_cases hut : u = t
  · subst hut
    rw [upd_self] at hq
    obtain ⟨o', h1, h2⟩ := h o c pb j hq
    have := hw u o' c pb j h1
    rw [h2] at this
    exact this
  · rw [upd_of_ne _ hut] at hq
    exact hw u o c pb j hq

/-- A callback that throws on a found element: like one that returns. -/
theorem inv_hit {s : State K V} (hi : SInv s) (hw : NoWrap s) {t : Nat} {o : KOp K V} {pb : Prober} {j : Nat} {y : K × V} {v : V}
    (hq : s.pc t = .hit o pb j) (hy : s.mem.slot pb.pos j = some y) :
    SInv (s.set t (s.mem.call o.mode pb.pos j y v) (.unlock pb.pos o.mode 0)) := by
  have hp := hi.pcs t
  rw [hq] at hp
  let o' : KOp K V := .visit o.mode o.key (fun _ => v)
  have h1 : SInv (s.set t s.mem (.hit o' pb j)) := by
    refine inv_relabel hi (.inr ?_) ?_ ?_ ?_ (fun h => by cases h) hp (insOk_of_nostamp rfl)
    · rw [hq]; rfl
    · rw [hq]; rintro g l ⟨⟩
    · rw [hq]; rfl
    · rw [hq]; rfl
  have hw1 : NoWrap (s.set t s.mem (.hit o' pb j)) := nowrap_relabel hw (by rintro _ _ _ _ ⟨⟩)
  have hpc : (s.set t s.mem (.hit o' pb j)).pc t = .hit o' pb j := by rw [State.set_pc, upd_self]
  have h2 := h1.eff hw1 (t := t) (m' := s.mem.call o.mode pb.pos j y v) (p' := .unlock pb.pos o.mode 1)
    (by rw [hpc]; exact .visit o.mode o.key (fun _ => v) pb j y hy)
  rw [set_set] at h2
  have hpc2 : (s.set t (s.mem.call o.mode pb.pos j y v) (.unlock pb.pos o.mode 1)).pc t = .unlock pb.pos o.mode 1 := by
    rw [State.set_pc, upd_self]
  have h3 := inv_drop h2 (t := t) (p' := .unlock pb.pos o.mode 0) (.inr (by rw [hpc2]; rfl)) (by rw [hpc2]; rfl)
    (by rw [hpc2]; rfl) (by rw [hpc2]; rfl) rfl rfl rfl trivial
  rw [State.set_mem, set_set] at h3
  exact h3

/-- The step of the constructor that throws, as a failed comparison of counters. -/
theorem Throw.construct_eff {m : Mem K V} {o : KOp K V} {pb : Prober} {j : Nat} :
    ∃ c', Eff m (.insInc o c' pb j) (m.incCnt (m.pos0 o.key)) (.rollReset o pb j) := by
  refine ⟨m.cnt (m.pos0 o.key) + 1, .startOver o _ pb j ?_⟩
  omega

theorem inv_throw {may : Call → Bool} {s : State K V} (hi : SInv s) (hw : NoWrap s) {t : Nat} {m' : Mem K V} {p' : Pc K V}
    (h : Throw may s.mem (s.pc t) m' p') : SInv (s.set t m' p') := by
  generalize hq : s.pc t = p at h
  have hp := hi.pcs t
  rw [hq] at hp
  cases h with
  | hash o _ =>
    exact inv_drop hi (.inl rfl) (by rw [hq]; rfl) (by rw [hq]; rfl) (by rw [hq]; rfl) rfl rfl rfl trivial
  | early o _ _ =>
    exact inv_drop hi (.inl rfl) (by rw [hq]; rfl) (by rw [hq]; rfl) (by rw [hq]; rfl) rfl rfl rfl trivial
  | eq o c pb j ms _ _ =>
    exact inv_drop hi (.inr (by rw [hq]; rfl)) (by rw [hq]; rfl) (by rw [hq]; rfl) (by rw [hq]; rfl) rfl rfl rfl trivial
  | visit md k f pb j y v _ hy => exact inv_hit hi hw hq hy
  | found md x f2 f1 pb j y v _ hy => exact inv_hit hi hw hq hy
  | erase k p pb j y v _ hy => exact inv_hit hi hw hq hy
  | construct o c pb j _ hc hs =>
    obtain ⟨c', he⟩ := Throw.construct_eff (m := s.mem) (o := o) (pb := pb) (j := j)
    have h1 : SBase (s.set t s.mem (.insInc o c' pb j)) := by
      refine base_relabel hi.toSBase (.inr ?_) ?_ ?_ ?_ (fun _ b n' hn' => ⟨n', by rw [hq]; exact hn', le_rfl⟩) hp
      · rw [hq]; rfl
      · rw [hq]; exact fun _ _ h => h
      · rw [hq]; rfl
      · rw [hq]; rfl
    have hpc : (s.set t s.mem (.insInc o c' pb j)).pc t = .insInc o c' pb j := by rw [State.set_pc, upd_self]
    have h2 := h1.eff (t := t) (m' := s.mem.incCnt (s.mem.pos0 o.key)) (p' := .rollReset o pb j) (by rw [hpc]; exact he) (by
      intro md x f2 f1 c2 pb2 j2 hq2 hc2
      rw [hpc] at hq2
      cases hq2
      have := hi.noKey hw hq hc
      exact this)
    rw [set_set] at h2
    refine ⟨h2, fun u => ?_⟩
    rw [State.set_pc, State.set_mem]
    by_cases hut : u = t
    · subst hut; rw [upd_self]; exact insOk_of_nostamp rfl
    · rw [upd_of_ne _ hut]; exact he.insOk_other hi.law (hi.ins u)
  | inserted md x f2 f1 c pb j v _ hc hs =>
    have hins := hi.ins t
    rw [hq] at hins
    have h1 : SInv (s.set t s.mem (.insInc (.insert md x f2 (fun _ => v)) c pb j)) := by
      refine inv_relabel hi (.inr ?_) ?_ ?_ ?_ (fun _ b n' hn' => ⟨n', by rw [hq]; exact hn', le_rfl⟩) hp ?_
      · rw [hq]; rfl
      · rw [hq]; exact fun _ _ h => h
      · rw [hq]; rfl
      · rw [hq]; rfl
      · exact hins
    have hpc : (s.set t s.mem (.insInc (.insert md x f2 (fun _ => v)) c pb j)).pc t = .insInc (.insert md x f2 (fun _ => v)) c pb j := by
      rw [State.set_pc, upd_self]
    have hw1 : NoWrap (s.set t s.mem (.insInc (.insert md x f2 (fun _ => v)) c pb j)) :=
      nowrap_relabel hw (by rintro _ _ _ _ ⟨⟩; exact ⟨_, hq, rfl⟩)
    have h2 := h1.eff hw1 (t := t) (m' := (s.mem.incCnt (s.mem.pos0 x.1)).setSlot pb.pos j (some (x.1, v)))
      (p' := .unlock pb.pos .excl 1) (by rw [hpc]; exact .insert md x f2 (fun _ => v) c pb j hc hs)
    rw [set_set] at h2
    have hpc2 : (s.set t ((s.mem.incCnt (s.mem.pos0 x.1)).setSlot pb.pos j (some (x.1, v))) (.unlock pb.pos .excl 1)).pc t =
        .unlock pb.pos .excl 1 := by rw [State.set_pc, upd_self]
    have h3 := inv_drop h2 (t := t) (p' := .unlock pb.pos .excl 0) (.inr (by rw [hpc2]; rfl)) (by rw [hpc2]; rfl)
      (by rw [hpc2]; rfl) (by rw [hpc2]; rfl) rfl rfl rfl trivial
    rw [State.set_mem, set_set] at h3
    exact h3
  | pass md act g j js r y v _ hy =>
    have h1 : SInv (s.set t s.mem (.swAt md (fun _ => .stop v 0) g (j :: js) r)) := by
      refine inv_relabel hi (.inr ?_) ?_ ?_ ?_ (fun h => by cases h) hp (insOk_of_nostamp rfl)
      · rw [hq]; rfl
      · rw [hq]; rintro g l ⟨⟩
      · rw [hq]; rfl
      · rw [hq]; rfl
    have hpc : (s.set t s.mem (.swAt md (fun _ => .stop v 0) g (j :: js) r)).pc t = .swAt md (fun _ => .stop v 0) g (j :: js) r := by
      rw [State.set_pc, upd_self]
    have hw1 : NoWrap (s.set t s.mem (.swAt md (fun _ => .stop v 0) g (j :: js) r)) := nowrap_relabel hw (by rintro _ _ _ _ ⟨⟩)
    have h2 := h1.eff hw1 (t := t) (m' := s.mem.call md g j y v) (p' := .unlock g md r)
      (by rw [hpc]; exact .swStop md (fun _ => .stop v 0) g j js r y v 0 hy rfl)
    rw [set_set] at h2
    exact h2

/-! ### exclusive sections -/

theorem growX_spec {may : Call → Bool} {mv : Bool} {cfg : Cfg} {t : Table K V} (hi : t.Inv) {n : Nat} (hn : 0 < n)
    (hle : t.size ≤ initialMaxLoad (capacityFor n)) (env : Env) :
    (growX may mv cfg n t env).Sat (fun _ _ => True) (fun _ t' => Kept t t' ∧
      ((mv = false ∨ may .hash = false ∧ may .transfer = false) → t' = t)) := by
  unfold growX
  cases hnew : (Arrays.newX may cfg t.al n env : Option (Env × Arrays K V)) with
  | none => exact ⟨Kept.refl hi, fun _ => rfl⟩
  | some q =>
    obtain ⟨e, new⟩ := q
    have hnw : new = Arrays.new_ cfg t.al n := by
      simp only [Arrays.newX] at hnew
      split at hnew
      · simp only [Option.map_eq_some_iff] at hnew
        obtain ⟨_, _, h⟩ := hnew
        cases h; rfl
      · cases hnew; rfl
    subst hnw
    have hcap := new_capacity (K := K) (V := V) cfg t.al n hn
    have hml : Table.initMl (Arrays.new_ cfg t.al n : Arrays K V) = initialMaxLoad (capacityFor n) := by
      unfold Table.initMl; rw [hcap]
    refine (uncheckedRehashX_sat may mv hi _ (new_inv cfg t.fns t.al n) (fun _ => new_al cfg t.al n) (by
      rw [new_contents, List.append_nil]; exact contents_pairwise hi) (by rw [new_contents, hml]; simpa using hle) e).imp
      (fun _ _ _ => trivial) ?_
    rintro e' t' ⟨h1, h2, h3, h4, h5, h6, h7, _⟩
    refine ⟨⟨h1, h2, h3, h4, h5⟩, ?_⟩
    rintro (h | ⟨ha, hb⟩)
    · exact h6 h
    · rcases h7 with h7 | h7
      · rw [ha] at h7; cases h7
      · rw [hb] at h7; cases h7

/-- Elements are moved one by one when a table grows, and one of the calls made in between can throw. -/
def Losing (may : Call → Bool) (mv : Bool) : Prop := mv = true ∧ (may .hash = true ∨ may .transfer = true)

theorem not_losing {may : Call → Bool} {mv : Bool} (h : ¬ Losing may mv) : mv = false ∨ may .hash = false ∧ may .transfer = false := by
  unfold Losing at h
  cases mv <;> cases h1 : may .hash <;> cases h2 : may .transfer <;> simp_all

theorem rehashIfFullX_spec {may : Call → Bool} {mv : Bool} {cfg : Cfg} {t : Table K V} (hi : t.Inv) (env : Env) :
    (rehashIfFullX may mv cfg t env).Sat (fun _ _ => True) (fun _ t' => Kept t t' ∧ (¬ Losing may mv → t'.contents = t.contents)) := by
  unfold rehashIfFullX
  split
  · have hl := lt_maxLoad_growth t.size
    have hg : 0 < growthRequest t.size := slotsFor_pos (by omega)
    generalize growthRequest t.size = n at hl hg
    exact (growX_spec hi hg hl.le env).imp (fun _ _ _ => trivial)
      (fun _ t' h => ⟨h.1, fun hn => by rw [h.2 (not_losing hn)]⟩)
  · trivial

theorem runX_spec {may : Call → Bool} {mv : Bool} {cfg : Cfg} {t : Table K V} (hi : t.Inv) (env : Env) (e : ExOp K V) :
    (runX may mv cfg t env e).Sat (fun _ _ => True) (fun _ t' => Kept t t' ∧ (¬ Losing may mv → t'.contents = t.contents)) := by
  cases e with
  | rehash n =>
    exact (rehashX_sat may mv cfg hi n env).imp (fun _ _ _ => trivial)
      (fun _ t' h => ⟨h.1, fun hn => by rw [h.2.2 (not_losing hn)]⟩)
  | reserve n =>
    exact (reserveX_sat may mv cfg hi n env).imp (fun _ _ _ => trivial)
      (fun _ t' h => ⟨h.1, fun hn => by rw [h.2.2 (not_losing hn)]⟩)
  | clear => trivial
  | emplace x =>
    have h := emplaceImplX_sat may mv cfg hi x env
    simp only [runX]
    cases hq : t.emplaceImplX may mv cfg x env with
    | bad => rw [hq] at h; exact h
    | done e r => trivial
    | threw e t' => rw [hq] at h; exact ⟨h.1, fun hn => h.2.2 (.inr (not_losing hn))⟩
  | eraseKey k =>
    have h := eraseKeyX_sat may hi k env
    simp only [runX]
    cases hq : t.eraseKeyX may k env with
    | bad => rw [hq] at h; exact h
    | done e r => trivial
    | threw e t' =>
      rw [hq] at h
      have := h.1
      subst this
      exact ⟨Kept.refl hi, fun _ => rfl⟩

/-- What an exclusive section that throws leaves. -/
theorem ThrowAlone.kept {may : Call → Bool} {mv : Bool} {cfg : Cfg} {m m' : Mem K V} {p p' : Pc K V}
    (h : ThrowAlone may mv cfg m p m' p') (hi : m.tab.Inv) : p' = .done 0 ∧ Kept m.tab m'.tab ∧
      (¬ Losing may mv → m'.tab.contents = m.tab.contents) := by
  cases h with
  | ex e t' env env' h =>
    have := runX_spec (may := may) (mv := mv) (cfg := cfg) hi env e
    rw [h] at this
    exact ⟨rfl, this⟩
  | exBad e env h =>
    have := runX_spec (may := may) (mv := mv) (cfg := cfg) hi env e
    rw [h] at this
    exact this.elim
  | grow o t' env env' h =>
    have := rehashIfFullX_spec (may := may) (mv := mv) (cfg := cfg) hi env
    rw [h] at this
    exact ⟨rfl, this⟩
  | growBad o env h =>
    have := rehashIfFullX_spec (may := may) (mv := mv) (cfg := cfg) hi env
    rw [h] at this
    exact this.elim

theorem inv_throwAlone {may : Call → Bool} {mv : Bool} {cfg : Cfg} {s : State K V} (hi : SInv s)
    (ho : ∀ u, (s.pc u).inside = false) {t : Nat} {m' : Mem K V} {p' : Pc K V}
    (h : ThrowAlone may mv cfg s.mem (s.pc t) m' p') : SInv (s.set t m' p') := by
  obtain ⟨rfl, hk, _⟩ := h.kept (hi.quiescent ho)
  refine SInv.of_inv hk.inv ?_ ?_
  · intro u
    rw [State.set_pc]
    by_cases hut : u = t
    · subst hut; rw [upd_self]; rfl
    · rw [upd_of_ne _ hut]; exact ho u
  · intro u
    rw [State.set_pc, State.set_mem]
    by_cases hut : u = t
    · subst hut; rw [upd_self]; trivial
    · rw [upd_of_ne _ hut]; exact PcOk.of_outside (ho u) (hi.pcs u)

/-- An exception leaves a shared section without changing the function objects. -/
theorem Throw.fns {may : Call → Bool} {m m' : Mem K V} {p p' : Pc K V} (h : Throw may m p m' p') : m'.tab.fns = m.tab.fns := by
  have hc : ∀ (md : Mode) g j y v, (m.call md g j y v).tab.fns = m.tab.fns := by
    intro md g j y v; cases md <;> rfl
  cases h with
  | visit md k f pb j y v _ hy => exact hc ..
  | found md x f2 f1 pb j y v _ hy => exact hc ..
  | erase k p pb j y v _ hy => exact hc ..
  | pass md act g j js r y v _ hy => exact hc ..
  | _ => rfl

/-! ### the invariant -/

/-- Where a thread can be while an exception passes, and after. -/
def unwinding : Pc K V → Bool
  | .rollReset _ _ _ | .rollUnlock _ _ | .rollSize _ | .counter _ | .unlock _ _ _ | .leave _ | .done _ => true
  | _ => false

structure XInv (x : XState K V) : Prop where
  inv : SInv x.st
  exc : ∀ t, x.exc t = true → unwinding (x.st.pc t) = true

theorem Throw.unwinding {may : Call → Bool} {m m' : Mem K V} {p p' : Pc K V} (h : Throw may m p m' p') :
    Exc.unwinding p' = true ∧ Exc.unwinding p = false := by
  cases h <;> exact ⟨rfl, rfl⟩

/-- The steps of an unwinding thread. -/
theorem unwinding_step {cfg : Cfg} {s s' : State K V} (hi : SInv s) (hw : NoWrap s) {t : Nat} (h : StepBy cfg t s s')
    (hu : unwinding (s.pc t) = true) (hc : ∀ o, s.pc t ≠ .counter o) (hr : resting (s.pc t) = false) :
    unwinding (s'.pc t) = true ∧ Same s.mem.elems s'.mem.elems ∧
      (∀ o, (s.pc t).pending = some o → (s'.pc t).pending = some o) ∧
      (∀ r, (s.pc t).result = some r → (s'.pc t).result = some r) := by
  have hi' := hi.step hw h
  have hb := pcOk_not_bad (hi'.pcs t)
  cases h with
  | @quiet pc' h =>
    rw [State.set_pc, upd_self] at hb ⊢
    rw [State.set_mem]
    generalize s.pc t = p at h hu hc hr
    cases h <;> first | (cases hu; done) | (cases hr; done) | exact absurd rfl (hc _) | exact absurd rfl hb |
      exact ⟨rfl, Same.rfl' _, fun _ h => h, fun _ h => h⟩ 
  | @eff m' pc' h =>
    rw [State.set_pc, upd_self] at hb ⊢
    rw [State.set_mem]
    generalize s.pc t = p at h hu hc hr
    cases h <;> first | (cases hu; done) | (cases hr; done) | exact absurd rfl hb |
      exact ⟨rfl, fun _ => Iff.rfl, fun _ h => h, fun _ h => h⟩ 
  | @alone m' pc' hout h =>
    generalize s.pc t = p at h hu hc hr
    cases h <;> cases hu

theorem XInv.step {may : Call → Bool} {mv : Bool} {cfg : Cfg} {x x' : XState K V} (hi : XInv x) (hw : NoWrap x.st) {t : Nat}
    (h : XStepBy may mv cfg t x x') : XInv x' := by
  have hoth : ∀ {m' : Mem K V} {p' : Pc K V}, Exc.unwinding p' = true → ∀ u, (if u = t then true else x.exc u) = true →
      Exc.unwinding ((x.st.set t m' p').pc u) = true := by
    intro m' p' hp u hu
    rw [State.set_pc]
    by_cases hut : u = t
    · subst hut; rw [upd_self]; exact hp
    · rw [upd_of_ne _ hut]
      rw [if_neg hut] at hu
      exact hi.exc u hu
  cases h with
  | @base s' h hc =>
    refine ⟨hi.inv.step hw h, fun u hu => ?_⟩
    dsimp only at hu
    by_cases hut : u = t
    · subst hut
      by_cases hr : resting (x.st.pc u) = true
      · simp [hr] at hu
      · rw [if_neg (by rintro ⟨_, h⟩; exact hr h)] at hu
        exact (unwinding_step hi.inv hw h (hi.exc u hu) (hc hu) (by simpa using hr)).1
    · rw [if_neg (by rintro ⟨h, _⟩; exact hut h)] at hu
      show Exc.unwinding (s'.pc u) = true
      rw [h.other hut]
      exact hi.exc u hu
  | throw h => exact ⟨inv_throw hi.inv hw h, hoth h.unwinding.1⟩
  | alone ho h =>
    refine ⟨inv_throwAlone hi.inv ho h, hoth ?_⟩
    rw [(h.kept (hi.inv.quiescent ho)).1]; rfl
  | @unwound o h1 h2 =>
    refine ⟨inv_drop hi.inv (.inl rfl) (by rw [h2]; rfl) (by rw [h2]; rfl) (by rw [h2]; rfl) rfl rfl rfl trivial, fun u hu => ?_⟩
    refine hoth rfl u ?_
    have hu : x.exc u = true := hu
    split
    · rfl
    · exact hu

theorem XStepBy.fns {may : Call → Bool} {mv : Bool} {cfg : Cfg} {x x' : XState K V} (hi : XInv x) {t : Nat}
    (h : XStepBy may mv cfg t x x') : x'.st.mem.tab.fns = x.st.mem.tab.fns := by
  cases h with
  | base h _ => exact h.fns hi.inv
  | throw h => exact h.fns
  | alone ho h => exact (h.kept (hi.inv.quiescent ho)).2.1.fns
  | unwound _ _ => rfl

theorem XStepBy.other {may : Call → Bool} {mv : Bool} {cfg : Cfg} {x x' : XState K V} {t u : Nat}
    (h : XStepBy may mv cfg u x x') (hu : t ≠ u) : x'.st.pc t = x.st.pc t ∧ x'.exc t = x.exc t := by
  cases h with
  | base h _ => exact ⟨h.other hu, if_neg (by rintro ⟨h, _⟩; exact hu h)⟩
  | throw h => exact ⟨upd_of_ne _ hu _, if_neg hu⟩
  | alone ho h => exact ⟨upd_of_ne _ hu _, if_neg hu⟩
  | unwound _ _ => exact ⟨upd_of_ne _ hu _, rfl⟩

theorem XInv.init (cfg : Cfg) {f : Fns K} (hf : f.Lawful) (al n : Nat) : XInv (init cfg f al n : XState K V) :=
  ⟨SInv.init cfg hf al n, fun _ h => by cases h⟩

theorem XReach.inv {may : Call → Bool} {mv : Bool} {cfg : Cfg} {f : Fns K} (hf : f.Lawful) {al n : Nat} {x : XState K V}
    (h : XReach may mv cfg f al n x) : XInv x ∧ x.st.mem.tab.fns = f := by
  induction h with
  | init => exact ⟨XInv.init cfg hf al n, rfl⟩
  | step _ hw hs ih => exact ⟨ih.1.step hw hs, (hs.fns ih.1).trans ih.2⟩

theorem XRun.inv {may : Call → Bool} {mv : Bool} {cfg : Cfg} {σ : Nat → XState K V} {who : Nat → Nat} {n : Nat}
    (h : XRun may mv cfg σ who n) (h0 : XInv (σ 0)) : ∀ i ≤ n, XInv (σ i) ∧ (σ i).st.mem.tab.fns = (σ 0).st.mem.tab.fns := by
  intro i
  induction i with
  | zero => intro _; exact ⟨h0, rfl⟩
  | succ i ih =>
    intro hi
    obtain ⟨h1, h2⟩ := ih (by omega)
    exact ⟨h1.step (h.nowrap i (by omega)) (h.step i (by omega)), ((h.step i (by omega)).fns h1).trans h2⟩

/-! ### effect on the contents -/

/-- What an operation with a key may have done when an exception leaves it. -/
def Threw (eq : K → K → Bool) : KOp K V → Con K V → Con K V → Prop
  | .visit m k _ => CallbackThrew eq (Mode.wr m) k
  | .insert m x _ _ => fun A A' => CallbackThrew eq (Mode.wr m) x.1 A A' ∨ InsertedThrew eq x.1 A A'
  | .erase k _ => CallbackThrew eq true k

theorem same_cnt (m : Mem K V) (g : Nat) : Same m.elems (m.incCnt g).elems := fun _ => Iff.rfl

/-- The step of an operation with a key that throws. -/
theorem Throw.pending {may : Call → Bool} {s : State K V} (hi : SInv s) (hw : NoWrap s) {t : Nat} {m' : Mem K V} {p' : Pc K V}
    (h : Throw may s.mem (s.pc t) m' p') {o : KOp K V} (ho : (s.pc t).pending = some o) :
    (p'.pending = some o ∧ Same s.mem.elems m'.elems) ∨ (∃ r, p'.result = some r) ∧
      (Same s.mem.elems m'.elems ∨ (may .pred = true ∧ Threw s.mem.tab.fns.eq o s.mem.elems m'.elems)) := by
  generalize hq : s.pc t = p at h ho
  have hp := hi.pcs t
  rw [hq] at hp
  have hhit : ∀ {md : Mode} {o' : KOp K V} {pb : Prober} {j : Nat} {y : K × V} {v : V}, p = .hit o' pb j →
      s.mem.slot pb.pos j = some y →
      CallbackThrew s.mem.tab.fns.eq (Mode.wr md) o'.key s.mem.elems (s.mem.call md pb.pos j y v).elems := by
    intro md o' pb j y v hpp hy
    rw [hpp] at hp
    obtain ⟨_, z, hz, he⟩ := hp
    rw [hy] at hz; cases hz
    exact ⟨y, v, ⟨_, _, hy⟩, he, elems_call hi.shape hi.law hy⟩
  cases h with
  | hash o' _ => exact .inr ⟨⟨0, rfl⟩, .inl (Same.rfl' _)⟩
  | early o' _ _ => exact .inr ⟨⟨0, rfl⟩, .inl (Same.rfl' _)⟩
  | eq o' c pb j ms _ _ => exact .inr ⟨⟨0, rfl⟩, .inl (Same.rfl' _)⟩
  | visit md k f pb j y v hm hy => cases ho; exact .inr ⟨⟨0, rfl⟩, .inr ⟨hm, hhit rfl hy⟩⟩
  | found md x f2 f1 pb j y v hm hy => cases ho; exact .inr ⟨⟨0, rfl⟩, .inr ⟨hm, .inl (hhit rfl hy)⟩⟩
  | erase k p pb j y v hm hy => cases ho; exact .inr ⟨⟨0, rfl⟩, .inr ⟨hm, hhit (md := .excl) rfl hy⟩⟩
  | construct o' c pb j _ hc hs => exact .inl ⟨ho, same_cnt _ _⟩
  | inserted md x f2 f1 c pb j v hm hc hs =>
    cases ho
    refine .inr ⟨⟨0, rfl⟩, .inr ⟨hm, .inr ⟨noKey_iff.1 (hi.noKey hw hq hc), v, ?_⟩⟩⟩
    exact elems_put (m := s.mem.incCnt (s.mem.pos0 x.1)) hs
  | pass md act g j js r y v _ hy => cases ho

theorem Throw.not_result {may : Call → Bool} {m m' : Mem K V} {p p' : Pc K V} (h : Throw may m p m' p') : p.result = none := by
  cases h <;> rfl

theorem Throw.result {may : Call → Bool} {m m' : Mem K V} {p p' : Pc K V} (h : Throw may m p m' p') :
    (∃ r, p'.result = some r) ∨ ∃ o pb j, p' = .rollReset o pb j := by
  cases h <;> first | exact .inl ⟨_, rfl⟩ | exact .inr ⟨_, _, _, rfl⟩

theorem Throw.frame {may : Call → Bool} {m m' : Mem K V} {p p' : Pc K V} (h : Throw may m p m' p') :
    ∃ gx, Frame gx m m' := by
  have hc : ∀ (md : Mode) g j y v, ∃ gx, Frame gx m (m.call md g j y v) := by
    intro md g j y v
    exact ⟨some g, frame_call m md g j y v (some g) (fun _ => rfl)⟩
  cases h with
  | visit md k f pb j y v _ hy => exact hc ..
  | found md x f2 f1 pb j y v _ hy => exact hc ..
  | erase k p pb j y v _ hy => exact hc ..
  | pass md act g j js r y v _ hy => exact hc ..
  | construct o c pb j _ _ _ => exact ⟨none, (Frame.refl none m).then_cnt _⟩
  | inserted md x f2 f1 c pb j v _ _ _ =>
    refine ⟨some pb.pos, ?_⟩
    exact (frame_setSlot m pb.pos j (some (x.1, v))).then_cnt (m.pos0 x.1)
  | _ => exact ⟨none, Frame.refl none m⟩

end Conc.Exc

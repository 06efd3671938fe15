/-
The invariant of a concurrent table and its preservation by every step of every thread.
Lemmas only; the model is `Verif.Conc.Table`.
-/
import Verif.Conc.TabStep

namespace Conc.Tab
open Foa
open Conc.Locking (Mode)

variable {K V : Type}

/-- Slots being filled or emptied. -/
def own (pc : Nat → Pc K V) (g j : Nat) : Prop := ∃ u, (pc u).owns = some (g, j)

/-- What does not depend on what searches have seen. -/
structure SBase (s : State K V) : Prop where
  law : s.mem.tab.fns.Lawful
  excl : ∀ t u g m, t ≠ u → (s.pc t).locks = some (g, .excl) → (s.pc u).locks ≠ some (g, m)
  shape : Shape s.mem (own s.pc)
  al : s.mem.tab.arr.hasElems = true → s.mem.tab.arr.al = s.mem.tab.al
  pcs : ∀ t, PcOk s.mem (s.pc t)
  acct : ∃ L, Acct s.mem s.pc L

structure SInv (s : State K V) : Prop extends SBase s where
  ins : ∀ t, InsOk s.mem (s.pc t)

theorem owns_locks {p : Pc K V} {g j : Nat} (h : p.owns = some (g, j)) : p.locks = some (g, .excl) := by
  cases p <;> simp only [Pc.owns] at h <;> cases h <;> rfl

theorem State.set_pc (s : State K V) (t : Nat) (m : Mem K V) (p : Pc K V) : (s.set t m p).pc = upd s.pc t p := rfl
theorem State.set_mem (s : State K V) (t : Nat) (m : Mem K V) (p : Pc K V) : (s.set t m p).mem = m := rfl

/-- Locks change by acquiring one that is free, or by releasing. -/
theorem Quiet.locks {m : Mem K V} {canS canX : Nat → Prop} {p p' : Pc K V} (h : Quiet m canS canX p p') :
    p'.locks = none ∨ p'.locks = p.locks ∨ ∃ g md, p'.locks = some (g, md) ∧ (md = .shared → canS g) ∧ (md = .excl → canX g) := by
  have hmiss : ∀ (o : KOp K V) c, (missPc o c).locks = none := by
    intro o c
    simp only [missPc]
    split <;> rfl
  cases h with
  | enter o => left; simp only [enterPc]; split <;> rfl
  | overEnd o c pb h => exact .inl (hmiss o c)
  | overNext o c pb h =>
    left
    split
    · rfl
    · exact hmiss o c
  | swEnd md act g r => left; split <;> rfl
  | lockS o c pb ms h1 h2 => exact .inr (.inr ⟨_, _, rfl, fun _ => h2, fun h => by rw [h1] at h; cases h⟩)
  | lockX o c pb ms h1 h2 => exact .inr (.inr ⟨_, _, rfl, (fun h => by rw [h1] at h; cases h), fun _ => h2⟩)
  | insLock o c pb h => exact .inr (.inr ⟨_, _, rfl, fun h => by (cases h), fun _ => h⟩)
  | swLockS act g r h => exact .inr (.inr ⟨_, _, rfl, fun _ => h, fun h => by (cases h)⟩)
  | swLockX act g r h => exact .inr (.inr ⟨_, _, rfl, fun h => by (cases h), fun _ => h⟩)
  | checkEmpty o c pb j ms hm => exact .inr (.inl rfl)
  | checkHit o c pb j ms y _ _ _ => exact .inr (.inl rfl)
  | checkMiss o c pb j ms z hm hz hne => exact .inr (.inl rfl)
  | _ => exact .inl rfl

theorem Eff.locks {m m' : Mem K V} {p p' : Pc K V} (h : Eff m p m' p') : p'.locks = none ∨ p'.locks = p.locks := by
  cases h <;> first | exact .inl rfl | exact .inr rfl

theorem excl_step {s : State K V} (hi : SBase s) (t : Nat) (p' : Pc K V)
    (h : p'.locks = none ∨ p'.locks = (s.pc t).locks ∨
      ∃ g md, p'.locks = some (g, md) ∧ (md = .shared → s.canS t g) ∧ (md = .excl → s.canX t g)) :
    ∀ a b g m, a ≠ b → (upd s.pc t p' a).locks = some (g, .excl) → (upd s.pc t p' b).locks ≠ some (g, m) := by
  intro a b g m hab ha hb
  by_cases h1 : a = t
  · subst h1
    have h2 : b ≠ a := fun h => hab h.symm
    rw [upd_self] at ha
    rw [upd_of_ne _ h2] at hb
    rcases h with h | h | ⟨g', md, h, _, hx⟩
    · rw [h] at ha; cases ha
    · rw [h] at ha; exact hi.excl a b g m hab ha hb
    · rw [h] at ha; cases ha; exact hx rfl b h2 m hb
  · rw [upd_of_ne _ h1] at ha
    by_cases h2 : b = t
    · subst h2
      rw [upd_self] at hb
      rcases h with h | h | ⟨g', md, h, hsd, hx⟩
      · rw [h] at hb; cases hb
      · rw [h] at hb; exact hi.excl a b g m hab ha hb
      · rw [h] at hb
        cases hb
        cases m with
        | shared => exact hsd rfl a h1 ha
        | excl => exact hx rfl a h1 _ ha
    · rw [upd_of_ne _ h2] at hb
      exact hi.excl a b g m hab ha hb

/-- Quiet steps do not change what is counted. -/
theorem Quiet.acct {m : Mem K V} {canS canX : Nat → Prop} {p p' : Pc K V} (h : Quiet m canS canX p p') (hbad : p' ≠ .bad) :
    p'.hasRes = p.hasRes ∧ p'.er = p.er ∧ (p'.hasRes = true → ∀ b, m.tab.ml ≤ b → ∀ n', p'.resBound b = some n' →
      ∃ n, p.resBound b = some n ∧ n ≤ n') := by
  have hmiss : ∀ (o : KOp K V) c, (missPc o c).hasRes = false ∧ (missPc o c).er = none := by
    intro o c
    simp only [missPc]
    split <;> exact ⟨rfl, rfl⟩
  have hno : ∀ {q q' : Pc K V}, q'.hasRes = false → q.hasRes = false → q'.er = none → q.er = none →
      q'.hasRes = q.hasRes ∧ q'.er = q.er ∧ (q'.hasRes = true → ∀ b, m.tab.ml ≤ b → ∀ n', q'.resBound b = some n' →
        ∃ n, q.resBound b = some n ∧ n ≤ n') := by
    intro q q' h1 h2 h3 h4
    exact ⟨h1.trans h2.symm, h3.trans h4.symm, fun h => by rw [h1] at h; cases h⟩
  cases h with
  | enter o => simp only [enterPc]; split <;> exact hno rfl rfl rfl rfl
  | overEnd o c pb h => exact hno (hmiss o c).1 rfl (hmiss o c).2 rfl
  | overNext o c pb h =>
    split
    · exact hno rfl rfl rfl rfl
    · exact hno (hmiss o c).1 rfl (hmiss o c).2 rfl
  | swEnd md act g r => split <;> exact hno rfl rfl rfl rfl
  | testOk o c n hn =>
    refine ⟨rfl, rfl, fun _ b hb n' hn' => ⟨n, rfl, ?_⟩⟩
    simp only [Pc.resBound] at hn'
    cases hn'
    omega
  | testFail o c n hn => exact ⟨rfl, rfl, fun _ b _ n' hn' => by cases hn'⟩
  | insLock o c pb h => exact ⟨rfl, rfl, fun _ b _ n' hn' => ⟨n', hn', le_rfl⟩⟩
  | insNext o c pb => exact ⟨rfl, rfl, fun _ b _ n' hn' => ⟨n', hn', le_rfl⟩⟩
  | rollUnlock o pb => exact ⟨rfl, rfl, fun _ b _ n' hn' => ⟨n', hn', le_rfl⟩⟩
  | insFindBad o c pb h => exact absurd rfl hbad
  | insFindTaken o c pb j js h1 h2 => exact absurd rfl hbad
  | _ => exact hno rfl rfl rfl rfl

theorem call_ctrl {m : Mem K V} {md : Mode} {g j : Nat} {y : K × V} {v : V} :
    (m.call md g j y v).tab.size = m.tab.size ∧ (m.call md g j y v).tab.ml = m.tab.ml ∧
    (m.call md g j y v).tab.capacity = m.tab.capacity := by
  cases md <;> exact ⟨rfl, rfl, rfl⟩

theorem slot_take {m : Mem K V} {g j n : Nat} (i l : Nat) :
    (∃ x, ((m.setSlot g j none).setMl n).slot i l = some x) ↔ ¬ (i = g ∧ l = j) ∧ ∃ x, m.slot i l = some x := by
  simp only [Mem.setSlot, Mem.setMl, Mem.slot, Arrays.setSlot]
  by_cases hc : i = g ∧ l = j
  · simp [hc]
  · simp [hc]

theorem slot_put {m : Mem K V} {g j : Nat} {z : K × V} (i l : Nat) :
    (∃ x, (m.setSlot g j (some z)).slot i l = some x) ↔ (i = g ∧ l = j) ∨ ∃ x, m.slot i l = some x := by
  simp only [Mem.setSlot, Mem.slot, Arrays.setSlot]
  by_cases hc : i = g ∧ l = j
  · simp [hc]
  · simp [hc]

/-- Accounting after a step that changes memory. -/
theorem Eff.acct {m m' : Mem K V} {pc : Nat → Pc K V} {t : Nat} {p' : Pc K V} (h : Eff m (pc t) m' p') (hp : PcOk m (pc t))
    (hbad : p' ≠ .bad) {L : List Item} (ha : Acct m pc L) : ∃ L', Acct m' (upd pc t p') L' := by
  generalize hq : pc t = p at h hp
  have hcall : ∀ {md : Mode} {g j : Nat} {y : K × V} {v : V} {q' : Pc K V}, m.slot g j = some y → p.hasRes = false →
      q'.hasRes = false → p.er = none → q'.er = none → ∃ L', Acct (m.call md g j y v) (upd pc t q') L' := by
    intro md g j y v q' hy h1 h2 h3 h4
    refine ⟨L, ha.same (slot_call hy) call_ctrl.1 call_ctrl.2.1 call_ctrl.2.2 ?_ ?_ ?_⟩
    · rw [hq, h1, h2]
    · rw [hq, h3, h4]
    · intro h; rw [h2] at h; cases h
  have hsame : ∀ {m'' : Mem K V} {q' : Pc K V}, (∀ i l, m''.slot i l = m.slot i l) → m''.tab.size = m.tab.size →
      m''.tab.ml = m.tab.ml → m''.tab.capacity = m.tab.capacity → q'.hasRes = p.hasRes → q'.er = p.er →
      (q'.hasRes = true → ∀ b n', q'.resBound b = some n' → p.resBound b = some n') → ∃ L', Acct m'' (upd pc t q') L' := by
    intro m'' q' h1 h2 h3 h4 h5 h6 h7
    refine ⟨L, ha.same (fun i l => by rw [h1]) h2 h3 h4 (by rw [hq, h5]) (by rw [hq, h6]) ?_⟩
    intro h b _ n' hn'
    exact ⟨n', by rw [hq]; exact h7 h b n' hn', le_rfl⟩
  cases h with
  | visit md k f pb j y hy => exact hcall hy rfl rfl rfl rfl
  | found md x f2 f1 pb j y hy => exact hcall hy rfl rfl rfl rfl
  | eraseNot k p pb j y v hy _ => exact hcall hy rfl rfl rfl rfl
  | swGo md act g j js r y v add hy _ => exact hcall hy rfl rfl rfl rfl
  | swStop md act g j js r y v _ hy _ => exact hcall hy rfl rfl rfl rfl
  | erase k p pb j y hy _ hd =>
    exact ha.take hy slot_take rfl rfl hd rfl (by rw [hq]; rfl) (by rw [hq]; rfl) (by rw [hq]; rfl) rfl
  | swErase act g j js r y hy _ hd =>
    exact ha.take hy slot_take rfl rfl hd rfl (by rw [hq]; rfl) (by rw [hq]; rfl) (by rw [hq]; rfl) rfl
  | eraseReset g j d cont => exact hsame (fun _ _ => rfl) rfl rfl rfl rfl rfl (fun h => by cases h)
  | eraseSize g d _ =>
    exact ha.uner (fun _ _ => Iff.rfl) rfl rfl rfl (by rw [hq]; rfl) (by rw [hq]; rfl) (by rw [hq]; rfl) hp.1 rfl
  | eraseSizeMore g d act js r _ =>
    exact ha.uner (fun _ _ => Iff.rfl) rfl rfl rfl (by rw [hq]; rfl) (by rw [hq]; rfl) (by rw [hq]; rfl) hp.1 rfl
  | reserve o c =>
    exact ⟨_, ha.add (fun _ _ => Iff.rfl) rfl rfl rfl (by rw [hq]; rfl) rfl (by rw [hq]; rfl) (fun _ => rfl)⟩
  | failSize o _ => exact ha.unres (fun _ _ => Iff.rfl) rfl rfl rfl (by rw [hq]; rfl) rfl (by rw [hq]; rfl)
  | rollSize o _ => exact ha.unres (fun _ _ => Iff.rfl) rfl rfl rfl (by rw [hq]; rfl) rfl (by rw [hq]; rfl)
  | insSet o c pb j js h1 h2 h3 => exact hsame (fun _ _ => rfl) rfl rfl rfl rfl rfl (fun _ _ _ h => h)
  | insFull o c pb h1 h2 => exact hsame (fun _ _ => rfl) rfl rfl rfl rfl rfl (fun _ _ _ h => h)
  | startOver o c pb j h1 => exact hsame (fun _ _ => rfl) rfl rfl rfl rfl rfl (fun _ _ _ h => h)
  | rollReset o pb j => exact hsame (fun _ _ => rfl) rfl rfl rfl rfl rfl (fun _ _ _ h => h)
  | insert md x f2 f1 c pb j h1 h2 =>
    exact ha.commit (g := pb.pos) (j := j) h2 slot_put rfl rfl rfl (by rw [hq]; rfl) (by rw [hq]; exact fun _ => rfl) rfl (by rw [hq]; rfl)
  | _ => exact absurd rfl hbad

theorem pcOk_not_bad {m : Mem K V} {p : Pc K V} (h : PcOk m p) : p ≠ .bad := by rintro rfl; exact h

theorem er_le_one {m : Mem K V} {p : Pc K V} (h : PcOk m p) : ∀ d, p.er = some d → d ≤ 1 := by
  intro d hd
  cases p <;> simp only [Pc.er] at hd <;> cases hd
  · exact h.2.1
  · exact h.1

theorem SBase.quiet {s : State K V} (hi : SBase s) {t : Nat} {p' : Pc K V}
    (h : Quiet s.mem (s.canS t) (s.canX t) (s.pc t) p') : SBase (s.set t s.mem p') := by
  obtain ⟨L, ha⟩ := hi.acct
  have hother : ∀ g u j, u ≠ t → (s.pc u).owns = some (g, j) → (∀ m, (s.pc t).locks ≠ some (g, m)) ∧
      ¬ s.canS t g ∧ ¬ s.canX t g := by
    intro g u j hu ho
    have hl := owns_locks ho
    exact ⟨fun m => hi.excl u t g m hu hl, fun hc => hc u hu hl, fun hc => hc u hu _ hl⟩
  have hok : PcOk s.mem p' := by
    refine h.ok hi.shape hi.law (hi.pcs t) ?_ ?_ ?_
    · rintro g hc j ⟨u, hu⟩
      by_cases hut : u = t
      · subst hut; exact hu
      · have := hother g u j hut hu
        exact absurd hc (by simp [this.2.1, this.2.2])
    · rintro g md hl j ⟨u, hu⟩
      by_cases hut : u = t
      · subst hut; exact hu
      · exact absurd hl ((hother g u j hut hu).1 md)
    · intro he
      have := ha.capLe
      simp only [Table.capacity, Arrays.capacity, he] at this
      simp at this
      omega
  have hbad := pcOk_not_bad hok
  have hac := h.acct hbad
  refine ⟨hi.law, excl_step hi t p' h.locks, ?_, hi.al, ?_, L, ?_⟩
  · refine hi.shape.mono ?_
    rintro g j ⟨u, hu⟩
    by_cases hut : u = t
    · subst hut
      refine ⟨u, ?_⟩
      rw [State.set_pc, upd_self]
      generalize hq : s.pc u = p at h hu
      cases h <;> (simp only [Pc.owns] at hu; cases hu)
    · exact ⟨u, by rw [State.set_pc, upd_of_ne _ hut]; exact hu⟩
  · intro u
    rw [State.set_pc]
    by_cases hut : u = t
    · subst hut; rw [upd_self]; exact hok
    · rw [upd_of_ne _ hut]; exact hi.pcs u
  · exact ha.same (fun _ _ => Iff.rfl) rfl rfl rfl hac.1 hac.2.1 hac.2.2

theorem SInv.quiet {s : State K V} (hi : SInv s) {t : Nat} {p' : Pc K V}
    (h : Quiet s.mem (s.canS t) (s.canX t) (s.pc t) p') : SInv (s.set t s.mem p') := by
  refine ⟨hi.toSBase.quiet h, ?_⟩
  intro u
  rw [State.set_pc]
  by_cases hut : u = t
  · subst hut; rw [upd_self]; exact h.insOk hi.shape hi.law (hi.pcs u) (hi.ins u)
  · rw [upd_of_ne _ hut]; exact hi.ins u

/-- At the point of insertion there is no equivalent element. -/
theorem SInv.noKey {s : State K V} (hi : SInv s) (hw : NoWrap s) {t : Nat} {o : KOp K V} {c : Nat} {pb : Prober} {j : Nat}
    (hq : s.pc t = .insInc o c pb j) (hc : s.mem.cnt (s.mem.pos0 o.key) % 2 ^ 32 = c % 2 ^ 32) : NoKey s.mem o.key := by
  have h1 := hi.ins t o.key c (by rw [hq]; rfl)
  have h2 := hw t o c pb j hq
  have : s.mem.cnt (s.mem.pos0 o.key) = c := by omega
  have h3 := h1.2 this
  rw [hq] at h3
  exact h3

theorem SBase.eff {s : State K V} (hi : SBase s) {t : Nat} {m' : Mem K V} {p' : Pc K V}
    (h : Eff s.mem (s.pc t) m' p')
    (hno : ∀ md x f2 f1 c pb j, s.pc t = .insInc (.insert md x f2 f1) c pb j →
      s.mem.cnt (s.mem.pos0 x.1) % 2 ^ 32 = c % 2 ^ 32 → NoKey s.mem x.1) : SBase (s.set t m' p') := by
  obtain ⟨L, ha⟩ := hi.acct
  have hfr := h.frame
  have hok : PcOk m' p' := by
    refine h.ok hi.shape (hi.pcs t) ?_ ?_
    · rintro (hr | ⟨d, hd⟩)
      · exact ha.size_pos_res hr
      · exact ha.size_pos_er hd
    · intro g j y hy
      exact ha.room hy (fun u => er_le_one (hi.pcs u))
  have hbad := pcOk_not_bad hok
  refine ⟨by rw [State.set_mem, hfr.fns]; exact hi.law, excl_step hi t p' (h.locks.imp id .inl), ?_, ?_, ?_, ?_⟩
  · refine h.shape hi.shape hi.law (hi.pcs t) ?_ ?_ ?_
    · rintro g j ⟨u, hu⟩
      by_cases hut : u = t
      · subst hut; exact .inl hu
      · exact .inr ⟨u, by rw [State.set_pc, upd_of_ne _ hut]; exact hu⟩
    · intro g j hg
      exact ⟨t, by rw [State.set_pc, upd_self]; exact hg⟩
    · intro md x f2 f1 c pb j hq hc
      exact hno md x f2 f1 c pb j hq hc
  · rw [State.set_mem, hfr.hasElems, hfr.al, hfr.aal]; exact hi.al
  · intro u
    rw [State.set_pc, State.set_mem]
    by_cases hut : u = t
    · subst hut; rw [upd_self]; exact hok
    · rw [upd_of_ne _ hut]
      refine (hi.pcs u).frame hfr fun g md hl hx => ?_
      exact hi.excl t u g md (fun h => hut h.symm) (xgrp_iff.1 hx) hl
  · exact h.acct (hi.pcs t) hbad ha

theorem SInv.eff {s : State K V} (hi : SInv s) (hw : NoWrap s) {t : Nat} {m' : Mem K V} {p' : Pc K V}
    (h : Eff s.mem (s.pc t) m' p') : SInv (s.set t m' p') := by
  refine ⟨hi.toSBase.eff h fun md x f2 f1 c pb j hq hc => hi.noKey hw hq hc, ?_⟩
  intro u
  rw [State.set_pc, State.set_mem]
  by_cases hut : u = t
  · subst hut; rw [upd_self]; exact h.insOk (hi.ins u)
  · rw [upd_of_ne _ hut]; exact h.insOk_other hi.law (hi.ins u)

/-! ### exclusive access -/

theorem outside {p : Pc K V} (h : p.inside = false) : p.locks = none ∧ p.owns = none ∧ p.hasRes = false ∧ p.er = none ∧
    p.stamp = none := by
  cases p <;> first | (cases h; done) | exact ⟨rfl, rfl, rfl, rfl, rfl⟩

/-- When nobody is inside, the sequential invariant holds. -/
theorem SBase.quiescent {s : State K V} (hi : SBase s) (ho : ∀ u, (s.pc u).inside = false) : s.mem.tab.Inv := by
  obtain ⟨L, ha⟩ := hi.acct
  have hno : ∀ g j, ¬ own s.pc g j := by
    rintro g j ⟨u, hu⟩
    rw [(outside (ho u)).2.1] at hu
    cases hu
  have harr : s.mem.tab.arr.Inv s.mem.tab.fns := by
    rcases hi.shape with ⟨h1, h2⟩ | ⟨h1, h2⟩
    · exact .inl ⟨h1, h2.live hi.law hno⟩
    · exact .inr ⟨h1, h2⟩
  have hmemL : ∀ x, x ∈ L → ∃ g j y, x = .elem g j ∧ s.mem.slot g j = some y := by
    intro x hx
    cases x with
    | elem g j => obtain ⟨y, hy⟩ := (ha.elem g j).1 hx; exact ⟨g, j, y, rfl, hy⟩
    | res u => have := (ha.res u).1 hx; rw [(outside (ho u)).2.2.1] at this; cases this
    | er u d => have := (ha.er u d).1 hx; rw [(outside (ho u)).2.2.2.1] at this; cases this
  have hpend : pend L = 0 := by
    have key : ∀ l : List Item, (∀ x ∈ l, x.one = 0) → pend l = 0 := by
      intro l
      induction l with
      | nil => intro _; rfl
      | cons x l ih =>
        intro h
        have h1 := h x List.mem_cons_self
        have h2 := ih (fun y hy => h y (List.mem_cons_of_mem _ hy))
        simp only [pend, List.map_cons, List.sum_cons] at h2 ⊢
        omega
    refine key L fun x hx => ?_
    obtain ⟨g, j, y, rfl, _⟩ := hmemL x hx
    rfl
  have hslot : ∀ g j, (∃ y, s.mem.slot g j = some y) ↔ (g, j) ∈ s.mem.tab.arr.occ := by
    intro g j
    rcases harr with ⟨h1, h2⟩ | ⟨h1, h2⟩
    · exact (h2.mem_occ h1).symm
    · simp [Mem.slot, h2.slot, Arrays.occ, h1]
  have hlen : L.length = s.mem.tab.arr.occ.length := by
    have h1 : L.Perm (s.mem.tab.arr.occ.map fun p => Item.elem p.1 p.2) := by
      refine (List.perm_ext_iff_of_nodup ha.nodup ?_).2 fun x => ?_
      · refine (nodup_occ _).map ?_
        rintro ⟨a, b⟩ ⟨c, d⟩ h
        cases h
        rfl
      · constructor
        · intro hx
          obtain ⟨g, j, y, rfl, hy⟩ := hmemL x hx
          exact List.mem_map.2 ⟨(g, j), (hslot g j).1 ⟨y, hy⟩, rfl⟩
        · intro hx
          obtain ⟨⟨g, j⟩, hm, rfl⟩ := List.mem_map.1 hx
          exact (ha.elem g j).2 ((hslot g j).2 hm)
    simpa using h1.length_eq
  refine ⟨hi.law, harr, hi.al, ?_, ?_, ?_⟩
  · rw [ha.size, hlen, Table.contents, Inv.length_contents harr]
  · rw [ha.size]
    have h1 := ha.rank.length_le (n := s.mem.tab.ml) (p := fun _ => true) fun x hx _ => by
      obtain ⟨g, j, y, rfl, _⟩ := hmemL x hx
      exact ⟨_, rfl, by rw [hpend]; exact le_rfl⟩
    simpa using h1
  · have := ha.cap
    omega

/-- The sequential invariant gives the concurrent one when nobody is inside. -/
theorem SBase.of_inv {s : State K V} (ht : s.mem.tab.Inv) (ho : ∀ u, (s.pc u).inside = false) (hb : ∀ u, PcOk s.mem (s.pc u)) :
    SBase s := by
  have hslot : ∀ g j, (∃ y, s.mem.slot g j = some y) ↔ (g, j) ∈ s.mem.tab.arr.occ := by
    intro g j
    rcases ht.arr with ⟨h1, h2⟩ | ⟨h1, h2⟩
    · exact (h2.mem_occ h1).symm
    · simp [Mem.slot, h2.slot, Arrays.occ, h1]
  have hone : ∀ l : List Pos, pend (l.map fun p => Item.elem p.1 p.2) = 0 := by
    intro l
    induction l with
    | nil => rfl
    | cons x l ih =>
      simp only [pend, List.map_cons, List.sum_cons] at ih ⊢
      rw [ih]
      rfl
  have hsize : s.mem.tab.size = s.mem.tab.arr.occ.length := by
    rw [ht.size, Table.contents, Inv.length_contents ht.arr]
  refine ⟨ht.law, ?_, ?_, ht.al, hb, s.mem.tab.arr.occ.map fun p => .elem p.1 p.2, ?_, ?_, ?_, ?_, ?_, ?_, ?_⟩
  · intro t u g m _ hl
    rw [(outside (ho t)).1] at hl
    cases hl
  · rcases ht.arr with ⟨h1, h2⟩ | ⟨h1, h2⟩
    · exact .inl ⟨h1, CLive.of_live ht.law _ h2⟩
    · exact .inr ⟨h1, h2⟩
  · refine (nodup_occ _).map ?_
    rintro ⟨a, b⟩ ⟨c, d⟩ h
    cases h
    rfl
  · intro g j
    rw [hslot]
    simp
  · intro t
    simp [(outside (ho t)).2.2.1]
  · intro t d
    simp [(outside (ho t)).2.2.2.1]
  · rw [hsize]; simp
  · have hle : s.mem.tab.arr.occ.length ≤ s.mem.tab.ml := by rw [← hsize]; exact ht.size_le
    rw [hone]
    have key : ∀ l : List Pos, l.length ≤ s.mem.tab.ml →
        Ranked (bound (s.mem.tab.ml + 0) s.pc) (l.map fun p => Item.elem p.1 p.2) := by
      intro l
      induction l with
      | nil => intro _; trivial
      | cons x l ih =>
        intro h
        simp only [List.length_cons] at h
        refine ⟨fun n hn => ?_, ih (by omega)⟩
        simp only [bound] at hn
        cases hn
        simp only [List.length_map]
        omega
    exact key _ hle
  · rw [hone]; exact ht.ml_init

theorem SInv.of_inv {s : State K V} (ht : s.mem.tab.Inv) (ho : ∀ u, (s.pc u).inside = false) (hb : ∀ u, PcOk s.mem (s.pc u)) :
    SInv s := by
  refine ⟨SBase.of_inv ht ho hb, ?_⟩
  intro t x c hx
  rw [(outside (ho t)).2.2.2.2] at hx
  cases hx

/-! ### whole-container operations -/

theorem growTo_spec (cfg : Cfg) {t : Table K V} (hi : t.Inv) (n : Nat) (hn : 0 < n) (hle : t.size ≤ initialMaxLoad (capacityFor n)) :
    ∃ t', t.uncheckedRehash (Arrays.new_ cfg t.al n) = some t' ∧ t'.Inv ∧ t'.fns = t.fns ∧ t'.al = t.al ∧
      t'.contents.Perm t.contents ∧ t'.ml = initialMaxLoad (capacityFor n) ∧ t'.size = t.size := by
  have hcap := new_capacity (K := K) (V := V) cfg t.al n hn
  have hml : Table.initMl (Arrays.new_ cfg t.al n : Arrays K V) = initialMaxLoad (capacityFor n) := by
    unfold Table.initMl; rw [hcap]
  have hpw : (t.contents ++ (Arrays.new_ cfg t.al n : Arrays K V).contents).Pairwise (Ineq t.fns) := by
    rw [new_contents, List.append_nil]; exact contents_pairwise hi
  obtain ⟨t', f1, f2, f3, f4, f5, f6, f7, f7', f8, f10, f9⟩ := uncheckedRehash_spec hi _ (new_inv cfg t.fns t.al n)
    (fun _ => new_al cfg t.al n) hpw (by rw [new_contents, hml]; simpa using hle)
  rw [new_contents, List.append_nil] at f9
  have hcap' : t'.arr.capacity = (Arrays.new_ cfg t.al n : Arrays K V).capacity := by unfold Arrays.capacity; rw [f7, f7']
  refine ⟨t', f1, ⟨?_, ?_, ?_, ?_, ?_, ?_⟩, f2, f3, f9, f8.trans hml, f4⟩
  · rw [f2]; exact hi.law
  · rw [f2]; exact f5
  · rw [f3]; exact f6
  · rw [f4, f9.length_eq, hi.size]
  · rw [f4, f8, hml]; exact hle
  · show t'.ml ≤ Table.initMl t'.arr
    rw [f8, initMl_congr hcap']

theorem rehashIfFull_spec (cfg : Cfg) {t : Table K V} (hi : t.Inv) :
    ∃ t', rehashIfFull cfg t = some t' ∧ t'.Inv ∧ t'.fns = t.fns ∧ t'.al = t.al ∧ t'.contents.Perm t.contents ∧
      t'.size < t'.ml := by
  by_cases h : t.size = t.ml
  · have hl := lt_maxLoad_growth t.size
    have hg : 0 < growthRequest t.size := slotsFor_pos (by omega)
    obtain ⟨t', h1, h2, h3, h4, h5, h6, h7⟩ := growTo_spec cfg hi (growthRequest t.size) hg hl.le
    refine ⟨t', ?_, h2, h3, h4, h5, by rw [h6, h7]; exact hl⟩
    unfold rehashIfFull
    rw [if_pos h]; exact h1
  · refine ⟨t, by rw [rehashIfFull, if_neg h], hi, rfl, rfl, List.Perm.refl _, ?_⟩
    have := hi.size_le
    omega

theorem ExOp.run_spec (cfg : Cfg) {t : Table K V} (hi : t.Inv) (e : ExOp K V) :
    ∃ t' r, e.run cfg t = some (t', r) ∧ t'.Inv ∧ t'.fns = t.fns ∧ t'.al = t.al := by
  cases e with
  | rehash n =>
    obtain ⟨t', h1, h2, h3, h4, _⟩ := rehash_spec cfg hi n
    exact ⟨t', 0, by simp [ExOp.run, h1], h2, h3, h4⟩
  | reserve n =>
    obtain ⟨t', h1, h2, h3, h4, _⟩ := reserve_spec cfg hi n
    exact ⟨t', 0, by simp [ExOp.run, h1], h2, h3, h4⟩
  | clear => exact ⟨_, 0, rfl, (clear_spec hi).1, (clear_spec hi).2.2.1, (clear_spec hi).2.2.2.1⟩
  | emplace x =>
    rcases emplaceImpl_spec cfg hi x with ⟨g, j, y, h1, _⟩ | ⟨t', g, j, h1, h2, h3, h4, _⟩
    · exact ⟨t, _, by simp only [ExOp.run, h1, Option.map_some]; rfl, hi, rfl, rfl⟩
    · exact ⟨t', _, by simp only [ExOp.run, h1, Option.map_some]; rfl, h2, h3, h4⟩
  | eraseKey k =>
    rcases hi.find_spec k with ⟨g, j, y, h1, h2, _⟩ | ⟨h1, _⟩
    · obtain ⟨t', e1, e2, e3, e4, _⟩ := eraseAt_spec hi h2
      exact ⟨t', 1, by simp [ExOp.run, Table.eraseKey, h1, e1], e2, e3, e4⟩
    · exact ⟨t, 0, by simp [ExOp.run, Table.eraseKey, h1], hi, rfl, rfl⟩

theorem PcOk.of_outside {m m' : Mem K V} {p : Pc K V} (h : p.inside = false) (hp : PcOk m p) : PcOk m' p := by
  cases p <;> first | (cases h; done) | exact hp

theorem SBase.alone_inv {cfg : Cfg} {s : State K V} (hi : SBase s) (ho : ∀ u, (s.pc u).inside = false) {t : Nat} {m' : Mem K V}
    {p' : Pc K V} (h : Alone cfg s.mem (s.pc t) m' p') : m'.tab.Inv ∧ p'.inside = false ∧ PcOk m' p' := by
  have ht := hi.quiescent ho
  have key : m'.tab.Inv ∧ p'.inside = false ∧ PcOk m' p' := by
    generalize hq : s.pc t = p at h
    have hp := hi.pcs t
    rw [hq] at hp
    cases h with
    | ex e t' r cnt' h1 h2 =>
      obtain ⟨t2, r2, e1, e2, _⟩ := e.run_spec cfg ht
      rw [h1] at e1
      cases e1
      exact ⟨e2, rfl, trivial⟩
    | exBad e h1 =>
      obtain ⟨t2, r2, e1, e2, _⟩ := e.run_spec cfg ht
      rw [h1] at e1
      cases e1
    | grow o t' cnt' h1 h2 =>
      obtain ⟨t2, e1, e2, _⟩ := rehashIfFull_spec cfg ht
      rw [h1] at e1
      cases e1
      exact ⟨e2, rfl, trivial⟩
    | growBad o h1 =>
      obtain ⟨t2, e1, e2, _⟩ := rehashIfFull_spec cfg ht
      rw [h1] at e1
      cases e1
  exact key

theorem SInv.alone {cfg : Cfg} {s : State K V} (hi : SInv s) (ho : ∀ u, (s.pc u).inside = false) {t : Nat} {m' : Mem K V}
    {p' : Pc K V} (h : Alone cfg s.mem (s.pc t) m' p') : SInv (s.set t m' p') := by
  have key := hi.alone_inv ho h
  refine SInv.of_inv key.1 ?_ ?_
  · intro u
    rw [State.set_pc]
    by_cases hut : u = t
    · subst hut; rw [upd_self]; exact key.2.1
    · rw [upd_of_ne _ hut]; exact ho u
  · intro u
    rw [State.set_pc, State.set_mem]
    by_cases hut : u = t
    · subst hut; rw [upd_self]; exact key.2.2
    · rw [upd_of_ne _ hut]; exact PcOk.of_outside (ho u) (hi.pcs u)

theorem SInv.step {cfg : Cfg} {s s' : State K V} (hi : SInv s) (hw : NoWrap s) {t : Nat} (h : StepBy cfg t s s') : SInv s' := by
  cases h with
  | quiet h => exact hi.quiet h
  | eff h => exact hi.eff hw h
  | alone ho h => exact hi.alone ho h

theorem SInv.init (cfg : Cfg) {f : Fns K} (hf : f.Lawful) (al n : Nat) : SInv (init cfg f al n : State K V) :=
  SInv.of_inv (mk_inv cfg hf al n) (fun _ => rfl) (fun _ => trivial)

theorem Reach.inv {cfg : Cfg} {f : Fns K} (hf : f.Lawful) {al n : Nat} {s : State K V} (h : Reach cfg f al n s) : SInv s := by
  induction h with
  | init => exact SInv.init cfg hf al n
  | step _ hw hs ih => obtain ⟨t, ht⟩ := hs; exact ih.step hw ht

/-- The function objects do not change. -/
theorem StepBy.fns {cfg : Cfg} {s s' : State K V} (hi : SInv s) {t : Nat} (h : StepBy cfg t s s') :
    s'.mem.tab.fns = s.mem.tab.fns := by
  cases h with
  | quiet h => rfl
  | eff h => exact h.frame.fns
  | alone ho h =>
    have ht := hi.quiescent ho
    generalize s.pc t = p at h
    cases h with
    | ex e t' r cnt' h1 h2 =>
      obtain ⟨t2, r2, e1, e2, e3, _⟩ := e.run_spec cfg ht
      rw [h1] at e1
      cases e1
      exact e3
    | exBad e h1 => rfl
    | grow o t' cnt' h1 h2 =>
      obtain ⟨t2, e1, e2, e3, _⟩ := rehashIfFull_spec cfg ht
      rw [h1] at e1
      cases e1
      exact e3
    | growBad o h1 => rfl

theorem Reach.fns {cfg : Cfg} {f : Fns K} (hf : f.Lawful) {al n : Nat} {s : State K V} (h : Reach cfg f al n s) :
    s.mem.tab.fns = f := by
  induction h with
  | init => rfl
  | step hr _ hs ih => obtain ⟨t, ht⟩ := hs; rw [ht.fns (hr.inv hf)]; exact ih

end Conc.Tab

/-
Linearization points under weak memory, and that sequentially consistent executions are among those of the weak model.
Lemmas only; the model is `Verif.Conc.Weak`.
-/
import Verif.Conc.WeakInv
import Verif.Conc.TabLin

namespace Conc.Weak
open Foa Conc.Tab SpecT
open Conc.Locking (Mode)
variable {K V : Type}

/-- A run of `n` steps: `who i` makes step `i`. -/
structure WRun (cfg : Cfg) (σ : Nat → WState K V) (who : Nat → Nat) (n : Nat) : Prop where
  step : ∀ i < n, WStepBy cfg (who i) (σ i) (σ (i + 1))
  nowrap : ∀ i < n, NoWrap (σ i).sc

theorem WRun.inv {cfg : Cfg} {σ : Nat → WState K V} {who : Nat → Nat} {n : Nat} (h : WRun cfg σ who n) (h0 : WInv (σ 0)) :
    ∀ i ≤ n, WInv (σ i) := by
  intro i
  induction i with
  | zero => intro _; exact h0
  | succ i ih => intro hi; exact (ih (by omega)).step (h.nowrap i (by omega)) (h.step i (by omega))

theorem WRun.fns {cfg : Cfg} {σ : Nat → WState K V} {who : Nat → Nat} {n : Nat} (h : WRun cfg σ who n) (h0 : WInv (σ 0)) :
    ∀ i ≤ n, (σ i).mem.tab.fns = (σ 0).mem.tab.fns := by
  intro i
  induction i with
  | zero => intro _; rfl
  | succ i ih => intro hi; rw [(h.step i (by omega)).fns (h.inv h0 i (by omega))]; exact ih (by omega)

theorem eff_kn {w : WState K V} (hb : WBase w) {t : Nat} {m' : Mem K V} {p' : Pc K V} {g j : Nat} {y : K × V}
    (hy : w.mem.slot g j = some y) (u : Nat) : (w.eff t m' p').kn u g j ↔ w.kn u g j := by
  by_cases hq : ∃ o c pb l, w.pc t = .insInc o c pb l
  · obtain ⟨o, c, pb, l, hq⟩ := hq
    have hne : ¬ (g = pb.pos ∧ j = l) := by
      rintro ⟨rfl, rfl⟩
      have := hb.pcs t
      rw [hq] at this
      rw [this.2.1.2.2.1] at hy
      cases hy
    rw [(eff_ins (m' := m') (p' := p') hq).2.2, if_neg hne]
  · rw [(eff_other (not_insInc hq)).2.2]

theorem WStepBy.other {cfg : Cfg} {w w' : WState K V} {t u : Nat} (h : WStepBy cfg u w w') (hu : t ≠ u) : w'.pc t = w.pc t := by
  cases h with
  | sync x => rfl
  | _ => exact upd_of_ne _ hu _

/-- Coming to know of an element. -/
theorem ahead_grow {w : WState K V} (hb : WBase w) {P P' : Nat → Nat → Prop} {p : Pc K V} {o : KOp K V}
    (hk : ∀ x, p.key? = some x → x = o.key) (hPP : ∀ g j, P g j → P' g j) (ha : AheadP w.mem P p) :
    AheadP w.mem P' p ∨ NoKeyW w.mem P o.key := by
  by_cases h : NoKeyW w.mem P o.key
  · exact .inr h
  · left
    simp only [NoKeyW, not_forall, not_not] at h
    obtain ⟨g, j, y, hy, he, hP⟩ := h
    refine ha.keep (Frame.refl none _) ?_
    intro x hx g' j' y' hy' he' _
    have := hk x hx
    subst this
    have hlaw := hb.base.law
    have hee := hlaw.trans _ _ _ (hlaw.symm _ _ he) he'
    obtain ⟨rfl, rfl⟩ := (hb.base.shape.live hy).2.uniq _ _ _ _ _ _ hy hy' hee
    exact ⟨hP, y', hy', rfl⟩

/-- Steps of other threads. -/
theorem ahead_otherW {cfg : Cfg} {w w' : WState K V} (hi : WInv w) {t u : Nat} (h : WStepBy cfg u w w') (hu : t ≠ u)
    (ha : AheadP w.mem (w.kn t) (w.pc t)) : AheadP w'.mem (w'.kn t) (w.pc t) := by
  cases h with
  | @eff m' p' h =>
    refine ha.keep h.frame ?_
    intro x hx g j y' hy' he hP
    rcases h.slots hy' with ⟨y, hy, hyy⟩ | ⟨md, z, f2, f1, c, pb, hq, rfl, hyz, hcc⟩
    · exact ⟨(eff_kn hi.b hy t).1 hP, y, hy, hyy⟩
    · rw [(eff_ins (m' := m') (p' := p') hq).2.2, if_pos ⟨rfl, rfl⟩] at hP
      exact absurd hP hu
  | alone ho h =>
    have h1 := ho t
    revert h1
    cases w.pc t <;> intro h1 <;> first | trivial | cases h1
  | sync x =>
    show AheadP w.mem (fun g j => if t = u then _ else w.kn t g j) (w.pc t)
    simp only [if_neg hu]
    exact ha
  | _ => exact ha

/-- One step of the thread itself. -/
theorem WStepBy.pending_self {cfg : Cfg} {w w' : WState K V} (hi : WInv w) (hw : NoWrap w.sc) {t : Nat} (h : WStepBy cfg t w w')
    {o : KOp K V} (ho : (w.pc t).pending = some o) :
    ((w'.pc t).pending = some o ∧ Same w.mem.elems w'.mem.elems ∧
      (AheadP w.mem (w.kn t) (w.pc t) → AheadP w'.mem (w'.kn t) (w'.pc t) ∨ NoKeyW w.mem (w.kn t) o.key)) ∨
    (∃ r, (w'.pc t).result = some r ∧ o.Spec w.mem.tab.fns.eq w.mem.elems w'.mem.elems r) ∨
    (o.isInsert = false ∧ (w'.pc t).result = some 0 ∧ Same w.mem.elems w'.mem.elems ∧
      (AheadP w.mem (w.kn t) (w.pc t) → NoKeyW w.mem (w.kn t) o.key)) := by
  have hi' := hi.step hw h
  have hbad := pcOk_not_bad (hi'.b.pcs t)
  obtain ⟨hb, hv⟩ := hi
  have hkn : ∀ o : KOp K V, Sees w (w.view t) (w.kn t) o.key := by
    intro o g j y hy he hP
    exact (hv.kn t g j y hP hy).congr (hb.base.law.compat _ _ he)
  have hmv : ∀ p' vw, (w.move t p' vw).pc t = p' := by
    intro p' vw; show (w.sc.set t w.mem p').pc t = _; rw [State.set_pc, upd_self]
  have hmiss : ∀ (o' : KOp K V) c vw, o' = o → (AheadP w.mem (w.kn t) (w.pc t) → NoKeyW w.mem (w.kn t) o.key) →
      (((w.move t (missPc o' c) vw).pc t).pending = some o ∧ Same w.mem.elems w.mem.elems ∧
        (AheadP w.mem (w.kn t) (w.pc t) → AheadP w.mem (w.kn t) ((w.move t (missPc o' c) vw).pc t) ∨ NoKeyW w.mem (w.kn t) o.key)) ∨
      (o.isInsert = false ∧ ((w.move t (missPc o' c) vw).pc t).result = some 0 ∧ Same w.mem.elems w.mem.elems ∧
        (AheadP w.mem (w.kn t) (w.pc t) → NoKeyW w.mem (w.kn t) o.key)) := by
    intro o' c vw hoo hno
    subst hoo
    rw [hmv]
    rcases pending_miss o' c with h' | h'
    · exact .inl ⟨h'.2, Same.rfl' _, fun ha => .inr (hno ha)⟩
    · exact .inr ⟨h'.1, by rw [h'.2]; rfl, Same.rfl' _, hno⟩
  cases h with
  | @quiet p' hr h =>
    rw [hmv] at hbad ⊢
    rcases h.pending hbad hb.base.shape hb.base.law (hb.pcs t) ho with h1 | ⟨h1, h2, h3⟩
    · exact .inl ⟨h1, Same.rfl' _, fun ha => .inl (ha.quiet h hr hb.base.shape hb.base.law (hb.pcs t))⟩
    · exfalso
      generalize w.pc t = p at h hr ho
      rw [h2] at h
      generalize hp' : (Pc.leave 0 : Pc K V) = p' at h
      cases h with
      | overEnd o c pb h => cases hr
      | overNext o c pb h => cases hr
      | enter o =>
        simp only [enterPc] at hp'
        split at hp' <;> cases hp'
      | swEnd md act g r => cases ho
      | sweepNone md act h => cases ho
      | unlock g md r => cases ho
      | _ => cases hp'
  | counter o' c hq hc =>
    rw [hmv]
    rw [hq] at ho
    exact .inl ⟨ho, Same.rfl' _, fun _ => .inl (AheadP.start hb.base.shape _ o' c)⟩
  | scanMatch o' c pb todo acc j v hq hj hr hm =>
    rw [hmv]
    rw [hq] at ho
    exact .inl ⟨ho, Same.rfl' _, fun ha => .inl (by rw [hq] at ha; exact ha.scanMatch)⟩
  | scanMiss o' c pb todo acc j v hq hj hr hm =>
    have hok := hb.pcs t
    rw [hq] at ho hok
    rw [hmv]
    exact .inl ⟨ho, Same.rfl' _, fun ha => .inl (by rw [hq] at ha; exact AheadP.scanMiss (w := w) (t := t) (hkn o') hok.1 ha hr hm)⟩
  | overEnd o' c pb v hq hr hm =>
    have hok := hb.pcs t
    rw [hq] at ho hok
    obtain rfl : o' = o := by cases ho; rfl
    rcases hmiss o' c (w.view t) rfl (fun ha => by rw [hq] at ha; exact AheadP.overEnd (hkn o') hok ha hr (.inl hm)) with h | h
    · exact .inl h
    · exact .inr (.inr h)
  | overNext o' c pb v hq hr hm =>
    have hok := hb.pcs t
    rw [hq] at ho hok
    obtain rfl : o' = o := by cases ho; rfl
    by_cases hn : (pb.next w.mem.tab.arr.mask).2 = true
    · rw [if_pos hn, hmv]
      exact .inl ⟨rfl, Same.rfl' _, fun ha => .inl (by rw [hq] at ha; exact ha.overNext hb.base.shape)⟩
    · rw [if_neg hn]
      rcases hmiss o' c (w.view t) rfl
        (fun ha => by rw [hq] at ha; exact AheadP.overEnd (hkn o') hok ha hr (.inr (by simpa using hn))) with h | h
      · exact .inl h
      · exact .inr (.inr h)
  | test o' c n v hq h1 h2 =>
    rw [hmv]
    rw [hq] at ho
    cases ho
    refine .inl ⟨by split <;> rfl, Same.rfl' _, fun ha => .inl ?_⟩
    rw [hq] at ha
    split
    · exact ha
    · trivial
  | @eff m' p' h =>
    have hpt : (w.eff t m' p').pc t = p' := by show (w.sc.set t m' p').pc t = _; rw [State.set_pc, upd_self]
    rw [hpt] at hbad ⊢
    rcases h.pending hbad hb.base.shape hb.base.law (hb.pcs t) ho
      (fun md x f2 f1 c pb j hq hc => hv.noKey hb.base.law hw hq hc) with ⟨h1, h2⟩ | h1
    · refine .inl ⟨h1, h2, fun ha => .inl ?_⟩
      refine (ha.eff h).keep h.frame ?_
      intro x hx g j y' hy' he hP
      rcases h.slots hy' with ⟨y, hy, hyy⟩ | ⟨md, z, f2, f1, c, pb, hq, rfl, hyz, hcc⟩
      · exact ⟨(eff_kn hb hy t).1 hP, y, hy, hyy⟩
      · exfalso
        rw [hq] at h
        cases h <;> cases hx
    · exact .inr (.inl h1)
  | @alone m' p' hout h =>
    have hpt : (WState.fresh (w.sc.set t m' p')).pc t = p' := by show (w.sc.set t m' p').pc t = _; rw [State.set_pc, upd_self]
    rw [hpt]
    obtain ⟨h1, h2⟩ := h.pending (hb.base.quiescent (fake_inside hout)) ho
    refine .inl ⟨h1, h2, fun _ => .inl ?_⟩
    generalize w.pc t = p at h
    cases h <;> trivial
  | sync u =>
    refine .inl ⟨ho, Same.rfl' _, fun ha => ?_⟩
    refine ahead_grow hb (pending_key ho) ?_ ha
    intro g j hP
    show if t = t then _ else _
    rw [if_pos rfl]
    exact .inl hP

theorem WStepBy.result_self {cfg : Cfg} {w w' : WState K V} (hi : WInv w) (hw : NoWrap w.sc) {t : Nat} (h : WStepBy cfg t w w')
    {r : Nat} (hr : (w.pc t).result = some r) (hd : ∀ r', w.pc t ≠ .done r') :
    (w'.pc t).result = some r ∧ Same w.mem.elems w'.mem.elems := by
  have hi' := hi.step hw h
  have hbad := pcOk_not_bad (hi'.b.pcs t)
  cases h with
  | @quiet p' hr' h =>
    have hpt : (w.move t p' (w.lockView t p')).pc t = p' := by show (w.sc.set t w.mem p').pc t = _; rw [State.set_pc, upd_self]
    rw [hpt]
    exact ⟨h.result hr hd, Same.rfl' _⟩
  | counter o' c hq hc => rw [hq] at hr; cases hr
  | scanMatch o' c pb todo acc j v hq hj hr' hm => rw [hq] at hr; cases hr
  | scanMiss o' c pb todo acc j v hq hj hr' hm => rw [hq] at hr; cases hr
  | overEnd o' c pb v hq hr' hm => rw [hq] at hr; cases hr
  | overNext o' c pb v hq hr' hm => rw [hq] at hr; cases hr
  | test o' c n v hq h1 h2 => rw [hq] at hr; cases hr
  | @eff m' p' h =>
    have hpt : (w.eff t m' p').pc t = p' := by show (w.sc.set t m' p').pc t = _; rw [State.set_pc, upd_self]
    rw [hpt] at hbad ⊢
    exact h.result hbad hr
  | alone hout h => rw [h.not_result] at hr; cases hr
  | sync u => exact ⟨hr, Same.rfl' _⟩

/-- The state of one operation of thread `t` along a run: pending, or done with a point where it took effect. -/
theorem lin_pointsW {cfg : Cfg} {σ : Nat → WState K V} {who : Nat → Nat} {n : Nat} (hr : WRun cfg σ who n) (h0 : WInv (σ 0))
    {t : Nat} {o : KOp K V} (hs : (σ 0).pc t = .start (.key o)) (hd : ∀ i < n, ∀ r, (σ i).pc t ≠ .done r) :
    ∀ i ≤ n,
      (((σ i).pc t).pending = some o ∧ (∀ l < i, who l = t → Same (σ l).mem.elems (σ (l + 1)).mem.elems) ∧
        (AheadP (σ i).mem ((σ i).kn t) ((σ i).pc t) ∨ ∃ l ≤ i, NoKeyW (σ l).mem ((σ l).kn t) o.key)) ∨
      (∃ r, ((σ i).pc t).result = some r ∧
        ((∃ l < i, who l = t ∧ o.Spec (σ 0).mem.tab.fns.eq (σ l).mem.elems (σ (l + 1)).mem.elems r ∧
            ∀ l' < i, who l' = t → l' ≠ l → Same (σ l').mem.elems (σ (l' + 1)).mem.elems) ∨
         (o.isInsert = false ∧ r = 0 ∧ (∃ l ≤ i, NoKeyW (σ l).mem ((σ l).kn t) o.key) ∧
            ∀ l' < i, who l' = t → Same (σ l').mem.elems (σ (l' + 1)).mem.elems))) := by
  intro i
  induction i with
  | zero =>
    intro _
    left
    rw [hs]
    exact ⟨rfl, fun l hl => absurd hl (Nat.not_lt_zero _), .inl trivial⟩
  | succ i ih =>
    intro hi
    have hin : i < n := by omega
    have hstep := hr.step i hin
    have hinv := hr.inv h0 i (by omega)
    have hw := hr.nowrap i hin
    by_cases hu : who i = t
    · rcases ih (by omega) with ⟨h1, h2, h3⟩ | ⟨r, h1, h2⟩
      · rw [hu] at hstep
        rcases hstep.pending_self hinv hw h1 with ⟨e1, e2, e3⟩ | ⟨r, e1, e2⟩ | ⟨e1, e2, e3, e4⟩
        · left
          refine ⟨e1, fun l hl hlt => ?_, ?_⟩
          · rcases Nat.lt_succ_iff_lt_or_eq.1 hl with hl | rfl
            · exact h2 l hl hlt
            · exact e2
          · rcases h3 with h3 | ⟨l, hl, hl'⟩
            · rcases e3 h3 with h4 | h4
              · exact .inl h4
              · exact .inr ⟨i, by omega, h4⟩
            · exact .inr ⟨l, by omega, hl'⟩
        · right
          refine ⟨r, e1, .inl ⟨i, by omega, hu, ?_, fun l hl hlt hne => h2 l (by omega) hlt⟩⟩
          rw [← hr.fns h0 i (by omega)]
          exact e2
        · right
          refine ⟨0, e2, .inr ⟨e1, rfl, ?_, fun l hl hlt => ?_⟩⟩
          · rcases h3 with h3 | ⟨l, hl, hl'⟩
            · exact ⟨i, by omega, e4 h3⟩
            · exact ⟨l, by omega, hl'⟩
          · rcases Nat.lt_succ_iff_lt_or_eq.1 hl with hl | rfl
            · exact h2 l hl hlt
            · exact e3
      · rw [hu] at hstep
        obtain ⟨e1, e2⟩ := hstep.result_self hinv hw h1 (hd i hin)
        right
        refine ⟨r, e1, ?_⟩
        rcases h2 with ⟨l, hl, hlt, hsp, hsame⟩ | ⟨q1, q2, ⟨l, hl, hl'⟩, q4⟩
        · refine .inl ⟨l, by omega, hlt, hsp, fun l' hl' hlt' hne => ?_⟩
          rcases Nat.lt_succ_iff_lt_or_eq.1 hl' with hl' | rfl
          · exact hsame l' hl' hlt' hne
          · exact e2
        · refine .inr ⟨q1, q2, ⟨l, by omega, hl'⟩, fun l' hl' hlt' => ?_⟩
          rcases Nat.lt_succ_iff_lt_or_eq.1 hl' with hl' | rfl
          · exact q4 l' hl' hlt'
          · exact e2
    · have hpc : (σ (i + 1)).pc t = (σ i).pc t := hstep.other (fun h => hu h.symm)
      rw [hpc]
      rcases ih (by omega) with ⟨h1, h2, h3⟩ | ⟨r, h1, h2⟩
      · left
        refine ⟨h1, fun l hl hlt => ?_, ?_⟩
        · rcases Nat.lt_succ_iff_lt_or_eq.1 hl with hl | rfl
          · exact h2 l hl hlt
          · exact absurd hlt hu
        · rcases h3 with h3 | ⟨l, hl, hl'⟩
          · exact .inl (ahead_otherW hinv hstep (fun h => hu h.symm) h3)
          · exact .inr ⟨l, by omega, hl'⟩
      · right
        refine ⟨r, h1, ?_⟩
        rcases h2 with ⟨l, hl, hlt, hsp, hsame⟩ | ⟨q1, q2, ⟨l, hl, hl'⟩, q4⟩
        · refine .inl ⟨l, by omega, hlt, hsp, fun l' hl' hlt' hne => ?_⟩
          rcases Nat.lt_succ_iff_lt_or_eq.1 hl' with hl' | rfl
          · exact hsame l' hl' hlt' hne
          · exact absurd hlt' hu
        · refine .inr ⟨q1, q2, ⟨l, by omega, hl'⟩, fun l' hl' hlt' => ?_⟩
          rcases Nat.lt_succ_iff_lt_or_eq.1 hl' with hl' | rfl
          · exact q4 l' hl' hlt'
          · exact absurd hlt' hu

/-! ### sequentially consistent executions -/

/-- About to take the container exclusively. -/
def _root_.Conc.Tab.Pc.wantsAll : Pc K V → Bool
  | .start (.ex _) | .full _ => true
  | _ => false

/-- A step that reads the newest values. -/
theorem WInv.newest {cfg : Cfg} {w : WState K V} (hi : WInv w) {t : Nat} {s' : State K V} (h : StepBy cfg t w.sc s') :
    ∃ w', WStepBy cfg t w w' ∧ w'.sc = s' ∧ (((w.pc t).wantsAll = false) → (∀ u, u ≠ t → w'.view u = w.view u) ∧
      (∀ g v, v ≤ w.top g → w'.ver g v = w.ver g v) ∧ (∀ g, w.top g ≤ w'.top g) ∧
      ∀ u g j y, w.mem.slot g j = some y → (w'.kn u g j ↔ w.kn u g j)) := by
  obtain ⟨hb, hv⟩ := hi
  have hre : ∀ g, w.Readable t g (w.top g) := fun g => ⟨hv.vle t g, le_rfl⟩
  have hcur : ∀ g, w.ver g (w.top g) = w.mem.grp g := hv.cur
  have hmv : ∀ p' vw, (∀ u, u ≠ t → (w.move t p' vw).view u = w.view u) ∧
      (∀ g v, v ≤ w.top g → (w.move t p' vw).ver g v = w.ver g v) ∧ (∀ g, w.top g ≤ (w.move t p' vw).top g) ∧
      ∀ u g j y, w.mem.slot g j = some y → ((w.move t p' vw).kn u g j ↔ w.kn u g j) :=
    fun p' vw => ⟨fun u hu => by simp only [WState.move, if_neg hu], fun _ _ _ => rfl, fun _ => le_rfl, fun _ _ _ _ _ => Iff.rfl⟩
  cases h with
  | @quiet p' h =>
    by_cases hr : Racy (w.pc t) = false
    · exact ⟨_, .quiet hr h, rfl, fun _ => hmv _ _⟩
    · have hr : Racy (w.pc t) = true := by simpa using hr
      generalize hq : w.pc t = p at hr
      have h : Quiet w.mem (w.sc.canS t) (w.sc.canX t) p p' := by rw [← hq]; exact h
      cases h with
      | counter o => exact ⟨_, .counter o _ hq le_rfl, rfl, fun _ => hmv _ _⟩
      | scanMatch o c pb todo acc j hj hm =>
        exact ⟨_, .scanMatch o c pb todo acc j _ hq hj (hre _) (by rw [hcur]; exact hm), rfl, fun _ => hmv _ _⟩
      | scanMiss o c pb todo acc j hj hm =>
        exact ⟨_, .scanMiss o c pb todo acc j _ hq hj (hre _) (by rw [hcur]; exact hm), rfl, fun _ => hmv _ _⟩
      | overEnd o c pb hm => exact ⟨_, .overEnd o c pb _ hq (hre _) (by rw [hcur]; exact hm), rfl, fun _ => hmv _ _⟩
      | overNext o c pb hm => exact ⟨_, .overNext o c pb _ hq (hre _) (by rw [hcur]; exact hm), rfl, fun _ => hmv _ _⟩
      | testOk o c n hn =>
        refine ⟨_, .test o c n _ hq le_rfl (hb.lo t), ?_, fun _ => hmv _ _⟩
        rw [if_pos (show n ≤ w.mem.tab.ml from hn)]; rfl
      | testFail o c n hn =>
        refine ⟨_, .test o c n _ hq le_rfl (hb.lo t), ?_, fun _ => hmv _ _⟩
        rw [if_neg (show ¬ n ≤ w.mem.tab.ml from hn)]; rfl
      | _ => cases hr
  | @eff m' p' h =>
    exact ⟨_, .eff h, rfl, fun _ => ⟨fun u hu => by simp only [WState.eff, if_neg hu], (eff_ext h).old, (eff_ext h).top,
      fun u g j y hy => eff_kn hb hy u⟩⟩
  | @alone m' p' ho h =>
    refine ⟨_, .alone ho h, rfl, fun ha => ?_⟩
    exfalso
    have h : Alone cfg w.mem (w.pc t) m' p' := h
    generalize w.pc t = p at h ha
    cases h <;> cases ha

theorem Run.weak {cfg : Cfg} {σ : Nat → State K V} {who : Nat → Nat} {n : Nat} (h : Run cfg σ who n) {w : WState K V}
    (hi : WInv w) (hw : w.sc = σ 0) : ∃ ω : Nat → WState K V, ω 0 = w ∧ WRun cfg ω who n ∧ (∀ i ≤ n, (ω i).sc = σ i) ∧
      (∀ u g j, (∀ i < n, (∃ y, (σ i).mem.slot g j = some y) ∧ ((σ i).pc (who i)).wantsAll = false) →
        ∀ i ≤ n, (ω i).kn u g j ↔ w.kn u g j) ∧
      ∀ u, (∀ i < n, who i ≠ u ∧ ((σ i).pc (who i)).wantsAll = false) → ∀ i ≤ n, (ω i).view u = w.view u ∧
        (∀ g v, v ≤ w.top g → (ω i).ver g v = w.ver g v) ∧ ∀ g, w.top g ≤ (ω i).top g := by
  induction n with
  | zero =>
    refine ⟨fun _ => w, rfl, ⟨fun i hi => absurd hi (Nat.not_lt_zero _), fun i hi => absurd hi (Nat.not_lt_zero _)⟩, ?_, ?_, ?_⟩
    · intro i hi
      obtain rfl : i = 0 := by omega
      exact hw
    · intro u g j _ i _
      exact Iff.rfl
    · intro u _ i _
      exact ⟨rfl, fun _ _ _ => rfl, fun _ => le_rfl⟩
  | succ n ih =>
    obtain ⟨ω, h0, hr, hs, hkn, hk⟩ := ih ⟨fun i hi => h.step i (by omega), fun i hi => h.nowrap i (by omega)⟩
    have hin := hr.inv (h0 ▸ hi) n le_rfl
    have hstep : StepBy cfg (who n) (ω n).sc (σ (n + 1)) := by rw [hs n le_rfl]; exact h.step n (by omega)
    obtain ⟨w', h1, h2, h3⟩ := hin.newest hstep
    refine ⟨fun i => if i ≤ n then ω i else w', by simp [h0], ⟨fun i hi' => ?_, fun i hi' => ?_⟩, fun i hi' => ?_, fun u g j hu i hi' => ?_, fun u hu i hi' => ?_⟩
    · by_cases hin' : i = n
      · subst hin'
        simpa using h1
      · simp only [if_pos (show i ≤ n by omega), if_pos (show i + 1 ≤ n by omega)]
        exact hr.step i (by omega)
    · simp only [if_pos (show i ≤ n by omega)]
      rw [hs i (by omega)]
      exact h.nowrap i hi'
    · by_cases hin' : i ≤ n
      · simp only [if_pos hin']; exact hs i hin'
      · simp only [if_neg hin']
        obtain rfl : i = n + 1 := by omega
        exact h2
    · have hold := hkn u g j (fun i hi => hu i (by omega))
      by_cases hin' : i ≤ n
      · simp only [if_pos hin']; exact hold i hin'
      · simp only [if_neg hin']
        obtain ⟨⟨y, hu1⟩, hu2⟩ := hu n (by omega)
        rw [← hs n le_rfl] at hu1 hu2
        exact ((h3 hu2).2.2.2 u g j y hu1).trans (hold n le_rfl)
    · have hold := hk u (fun i hi => hu i (by omega))
      by_cases hin' : i ≤ n
      · simp only [if_pos hin']; exact hold i hin'
      · simp only [if_neg hin']
        obtain ⟨e1, e2, e3⟩ := hold n le_rfl
        obtain ⟨hu1, hu2⟩ := hu n (by omega)
        obtain ⟨f1, f2, f3, _⟩ := h3 (by show (((ω n).sc).pc (who n)).wantsAll = false; rw [hs n le_rfl]; exact hu2)
        exact ⟨(f1 u (Ne.symm hu1)).trans e1, fun g v hv => (f2 g v (hv.trans (e3 g))).trans (e2 g v hv),
          fun g => (e3 g).trans (f3 g)⟩

theorem Reach.weak {cfg : Cfg} {f : Fns K} (hf : f.Lawful) {al n : Nat} {s : State K V} (h : Reach cfg f al n s) :
    ∃ w : WState K V, WReach cfg f al n w ∧ w.sc = s := by
  induction h with
  | init => exact ⟨_, .init, rfl⟩
  | step _ hw hs ih =>
    obtain ⟨w, h1, rfl⟩ := ih
    obtain ⟨t, ht⟩ := hs
    obtain ⟨w', h2, h3, _⟩ := (h1.inv hf).newest ht
    exact ⟨w', .step h1 hw h2, h3⟩

end Conc.Weak

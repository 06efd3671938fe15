/-
Accounting of size and `ml` under weak memory. Lemmas only; the model is `Verif.Conc.Weak`.

The idea: a thread between `++size` and the comparison with `ml` is treated as if the comparison had been made with the greatest
value of `ml` it may still read.
-/
import Verif.Conc.Weak
import Verif.Conc.TabCount

namespace Conc.Tab
open Foa
open Conc.Locking (Mode)
variable {K V : Type}

/-- Moving within the code without changing memory. -/
theorem SBase.move {s : State K V} (hi : SBase s) {t : Nat} {p' : Pc K V} (hl : p'.locks = none)
    (ho : (s.pc t).owns = none) (hr : p'.hasRes = (s.pc t).hasRes) (he : p'.er = (s.pc t).er)
    (hb : p'.hasRes = true → ∀ b n', p'.resBound b = some n' → ∃ n, (s.pc t).resBound b = some n ∧ n ≤ n')
    (hok : PcOk s.mem p') : SBase (s.set t s.mem p') := by
  obtain ⟨L, ha⟩ := hi.acct
  refine ⟨hi.law, excl_step hi t p' (.inl hl), ?_, hi.al, ?_, L, ?_⟩
  · refine hi.shape.mono ?_
    rintro g j ⟨u, hu⟩
    by_cases hut : u = t
    · subst hut; rw [ho] at hu; cases hu
    · exact ⟨u, by rw [State.set_pc, upd_of_ne _ hut]; exact hu⟩
  · intro u
    rw [State.set_pc]
    by_cases hut : u = t
    · subst hut; rw [upd_self]; exact hok
    · rw [upd_of_ne _ hut]; exact hi.pcs u
  · exact ha.same (fun _ _ => Iff.rfl) rfl rfl rfl hr he (fun h b _ => hb h b)

/-- `++size` with the comparison already decided. -/
theorem Acct.addGranted {m m' : Mem K V} {pc : Nat → Pc K V} {L : List Item} {t : Nat} {p : Pc K V} (h : Acct m pc L)
    (hs : ∀ g j, (∃ x, m'.slot g j = some x) ↔ ∃ x, m.slot g j = some x)
    (hz : m'.tab.size = m.tab.size + 1) (hm : m'.tab.ml = m.tab.ml) (hc : m'.tab.capacity = m.tab.capacity)
    (hr0 : (pc t).hasRes = false) (hr : p.hasRes = true) (he : p.er = (pc t).er)
    (hb : ∀ b n, p.resBound b = some n → n = b ∧ m.tab.size + 1 ≤ m.tab.ml + pend L) :
    Acct m' (upd pc t p) (.res t :: L) := by
  have hn : Item.res t ∉ L := fun hn => by rw [h.res, hr0] at hn; cases hn
  have hp : pend (.res t :: L) = pend L := by simp [pend, Item.one]
  refine ⟨List.nodup_cons.2 ⟨hn, h.nodup⟩, ?_, ?_, ?_, ?_, ?_, ?_⟩
  · intro g j; rw [hs, ← h.elem]; simp
  · intro u
    by_cases hu : u = t
    · subst hu; simp [upd, hr]
    · rw [upd_of_ne pc hu, ← h.res]; simp [hu]
  · intro u d
    by_cases hu : u = t
    · subst hu; rw [upd_self, he, ← h.er]; simp
    · rw [upd_of_ne pc hu, ← h.er]; simp
  · rw [hz, h.size]; simp
  · rw [hm, hp]
    refine ⟨fun n hn' => ?_, h.rank.weaken fun x hx n' hn' => ?_⟩
    · simp only [bound, upd_self] at hn'
      obtain ⟨rfl, h2⟩ := hb _ _ hn'
      rw [h.size] at h2; exact h2
    · cases x with
      | elem g j => exact ⟨n', hn', le_rfl⟩
      | er u d => exact ⟨n', hn', le_rfl⟩
      | res u =>
        have hu : u ≠ t := by rintro rfl; exact hn hx
        simp only [bound, upd_of_ne pc hu] at hn' ⊢
        exact ⟨n', hn', le_rfl⟩
  · rw [hm, initMl_congr hc, hp]; exact h.cap

/-- What thread `t` has subtracted from `ml` and not yet from `size`. -/
def erd (pc : Nat → Pc K V) (t : Nat) : Nat := ((pc t).er).getD 0

def Item.erOf (t : Nat) : Item → Bool
  | .er u _ => u == t
  | _ => false

theorem pend_perm {a b : List Item} (h : a.Perm b) : pend a = pend b := by
  induction h with
  | nil => rfl
  | cons x _ ih => simp only [pend, List.map_cons, List.sum_cons] at ih ⊢; omega
  | swap x y l => simp only [pend, List.map_cons, List.sum_cons]; omega
  | trans _ _ h1 h2 => exact h1.trans h2

theorem pend_split (t : Nat) : ∀ L : List Item, pend L =
    pend (L.filter fun x => x.isEr && !x.erOf t) + pend (L.filter fun x => x.erOf t)
  | [] => rfl
  | x :: L => by
    have ih := pend_split t L
    cases x with
    | elem g j => simpa [pend, Item.one, Item.isEr, Item.erOf, List.filter_cons] using ih
    | res u => simpa [pend, Item.one, Item.isEr, Item.erOf, List.filter_cons] using ih
    | er u d =>
      by_cases hu : u = t
      · subst hu; simp [pend, Item.one, Item.isEr, Item.erOf] at ih ⊢; omega
      · simp [pend, Item.one, Item.isEr, Item.erOf, hu] at ih ⊢; omega

theorem pend_erOf {m : Mem K V} {pc : Nat → Pc K V} {L : List Item} (h : Acct m pc L) (t : Nat) :
    pend (L.filter fun x => x.erOf t) = erd pc t := by
  have hmem : ∀ x, x ∈ L.filter (fun x => x.erOf t) ↔ ∃ d, x = .er t d ∧ (pc t).er = some d := by
    intro x
    rw [List.mem_filter]
    constructor
    · rintro ⟨h1, h2⟩
      cases x with
      | er u d =>
        have : u = t := by simpa [Item.erOf] using h2
        subst this
        exact ⟨d, rfl, (h.er _ _).1 h1⟩
      | _ => cases h2
    · rintro ⟨d, rfl, h2⟩
      exact ⟨(h.er _ _).2 h2, by simp [Item.erOf]⟩
  cases hd : (pc t).er with
  | none =>
    have : L.filter (fun x => x.erOf t) = [] := by
      rw [List.eq_nil_iff_forall_not_mem]
      intro x hx
      obtain ⟨d, _, h2⟩ := (hmem x).1 hx
      rw [hd] at h2; cases h2
    rw [this, erd, hd]; rfl
  | some d =>
    have : (L.filter (fun x => x.erOf t)).Perm [.er t d] := by
      refine (List.perm_ext_iff_of_nodup (h.nodup.filter _) (List.nodup_singleton _)).2 fun x => ?_
      rw [hmem, List.mem_singleton, hd]
      constructor
      · rintro ⟨d', rfl, h2⟩; cases h2; rfl
      · rintro rfl; exact ⟨d, rfl, rfl⟩
    rw [List.perm_singleton.1 this, erd, hd]
    simp [pend, Item.one]

/-- How the pending amount changes when one thread moves. -/
theorem pend_step {m m' : Mem K V} {pc pc' : Nat → Pc K V} {L L' : List Item} (h : Acct m pc L) (h' : Acct m' pc' L') (t : Nat)
    (hu : ∀ u, u ≠ t → (pc' u).er = (pc u).er) : pend L' + erd pc t = pend L + erd pc' t := by
  rw [pend_split t L, pend_split t L', pend_erOf h, pend_erOf h']
  have : (L.filter fun x => x.isEr && !x.erOf t).Perm (L'.filter fun x => x.isEr && !x.erOf t) := by
    refine (List.perm_ext_iff_of_nodup (h.nodup.filter _) (h'.nodup.filter _)).2 fun x => ?_
    rw [List.mem_filter, List.mem_filter]
    cases x with
    | elem g j => simp [Item.isEr]
    | res u => simp [Item.isEr]
    | er u d =>
      by_cases hut : u = t
      · subst hut; simp [Item.erOf]
      · rw [h.er, h'.er, hu u hut]
  have h2 : pend (L.filter fun x => x.isEr && !x.erOf t) = pend (L'.filter fun x => x.isEr && !x.erOf t) :=
    pend_perm this
  omega

theorem sum_erd_le {m : Mem K V} {pc : Nat → Pc K V} {L : List Item} (h : Acct m pc L) {S : List Nat} (hn : S.Nodup)
    (hs : ∀ u ∈ S, ∃ d, (pc u).er = some d) : (S.map (erd pc)).sum ≤ pend L := by
  have hsub : (S.map fun u => Item.er u (erd pc u)).Subperm L := by
    refine List.subperm_of_subset ?_ ?_
    · refine (List.nodup_map_iff_inj_on hn).2 ?_
      intro a _ b _ hab; cases hab; rfl
    · intro x hx
      obtain ⟨u, hu, rfl⟩ := List.mem_map.1 hx
      obtain ⟨d, hd⟩ := hs u hu
      rw [h.er, erd, hd]; rfl
  obtain ⟨l, h1, h2⟩ := hsub
  have h3 : ∀ {a b : List Item}, a.Sublist b → pend a ≤ pend b := by
    intro a b hab
    induction hab with
    | slnil => exact le_rfl
    | cons x _ ih => simp only [pend, List.map_cons, List.sum_cons] at ih ⊢; omega
    | cons_cons x _ ih => simp only [pend, List.map_cons, List.sum_cons] at ih ⊢; omega
  have h4 : pend l = (S.map (erd pc)).sum := by
    have := pend_perm h1
    rw [pend, pend, List.map_map] at this
    exact this
  rw [← h4]; exact h3 h2

end Conc.Tab

namespace Conc.Weak
open Foa Conc.Tab
open Conc.Locking (Mode)
variable {K V : Type}

/-- The comparison of `size` and `ml` decided in advance with value `v`. -/
def grant (v : Nat) : Pc K V → Pc K V
  | .test o _ n => if n ≤ v then .rollSize o else .failSize o
  | p => p

def gpc (w : WState K V) : Nat → Pc K V := fun t => grant (w.mlv t) (w.pc t)

def NotTest : Pc K V → Prop
  | .test _ _ _ => False
  | _ => True

theorem grant_of {p : Pc K V} (h : NotTest p) (v : Nat) : grant v p = p := by
  cases p <;> first | rfl | exact absurd h (by simp [NotTest])

theorem grant_facts (v : Nat) (p : Pc K V) : (grant v p).locks = p.locks ∧ (grant v p).owns = p.owns ∧
    (grant v p).hasRes = p.hasRes ∧ (grant v p).er = p.er ∧ (grant v p).inside = p.inside := by
  cases p with
  | test o c n => simp only [grant]; split <;> exact ⟨rfl, rfl, rfl, rfl, rfl⟩
  | _ => exact ⟨rfl, rfl, rfl, rfl, rfl⟩

/-- The newest values with the comparisons decided. -/
def WState.fake (w : WState K V) : State K V := ⟨w.mem, gpc w⟩

theorem fake_canS (w : WState K V) (t : Nat) : w.fake.canS t = w.sc.canS t := by
  funext g
  simp only [State.canS, WState.fake, gpc, (grant_facts _ _).1, WState.pc]

theorem fake_canX (w : WState K V) (t : Nat) : w.fake.canX t = w.sc.canX t := by
  funext g
  simp only [State.canX, WState.fake, gpc, (grant_facts _ _).1, WState.pc]

/-- Subset condition on what is known of `ml`. -/
def MlSub (w : WState K V) : Prop := ∀ L, Acct w.mem (gpc w) L → ∀ S : List Nat, S.Nodup → (∀ u ∈ S, ∃ d, (w.pc u).er = some d) →
  ∀ v ≤ w.smsg, (∀ u ∈ S, v ≤ w.mlv u) → v + (S.map (erd w.sc.pc)).sum ≤ w.mem.tab.ml + pend L

structure WBase (w : WState K V) : Prop where
  base : SBase w.fake
  pcs : ∀ t, PcOk w.mem (w.pc t)
  lo : ∀ t, w.mem.tab.ml ≤ w.mlv t
  los : w.mem.tab.ml ≤ w.smsg
  dummy : w.mem.tab.arr.hasElems = false → ∀ t, w.mlv t = 0
  sub : MlSub w

theorem erd_gpc (w : WState K V) (u : Nat) : erd (gpc w) u = erd w.sc.pc u := by
  simp only [erd, gpc, (grant_facts _ _).2.2.2.1, WState.pc]

theorem Quiet.notTest {m : Mem K V} {canS canX : Nat → Prop} {p p' : Pc K V} (h : Quiet m canS canX p p') : NotTest p' := by
  have hmiss : ∀ (o : KOp K V) c, NotTest (missPc o c) := by
    intro o c
    simp only [missPc]
    split <;> trivial
  cases h with
  | enter o => simp only [enterPc]; split <;> trivial
  | overEnd o c pb h => exact hmiss o c
  | overNext o c pb h =>
    split
    · trivial
    · exact hmiss o c
  | swEnd md act g r => split <;> trivial
  | _ => trivial

theorem notTest_of_racy {p : Pc K V} (h : Racy p = false) : NotTest p := by
  cases p <;> first | trivial | cases h

theorem Eff.notTest {m m' : Mem K V} {p p' : Pc K V} (h : Eff m p m' p') : NotTest p ∧ (NotTest p' ∨ ∃ o c, p = .reserve o c) := by
  cases h <;> first | exact ⟨trivial, .inl trivial⟩ | exact ⟨trivial, .inr ⟨_, _, rfl⟩⟩

/-- A step that does not raise what is known of `ml`, nor changes `ml` or a pending erasure. -/
theorem MlSub.same {w w' : WState K V} (h : MlSub w) (hb : SBase w.fake) (t : Nat) (hml : w'.mem.tab.ml = w.mem.tab.ml)
    (her : ∀ u, (w'.pc u).er = (w.pc u).er) (hs : w'.smsg ≤ w.smsg) (hv : ∀ u, w'.mlv u ≤ w.mlv u) : MlSub w' := by
  intro L' hL' S hn hS v hvs hvm
  obtain ⟨L, hL⟩ := hb.acct
  have her' : ∀ u, (gpc w' u).er = (gpc w u).er := by
    intro u
    simp only [gpc, (grant_facts _ _).2.2.2.1, her]
  have h1 := pend_step (t := t) hL hL' (fun u _ => her' u)
  have h2 : erd (gpc w') t = erd w.fake.pc t := by
    show erd (gpc w') t = erd (gpc w) t
    simp only [erd, her']
  have h3 : S.map (erd w'.sc.pc) = S.map (erd w.sc.pc) := by
    refine List.map_congr_left fun u _ => ?_
    have := her u
    simp only [erd, WState.pc] at this ⊢
    rw [this]
  have h4 := h L hL S hn (fun u hu => by obtain ⟨d, hd⟩ := hS u hu; exact ⟨d, by rw [← her]; exact hd⟩) v (hvs.trans hs)
    (fun u hu => (hvm u hu).trans (hv u))
  rw [h3, hml]
  rw [h2] at h1
  omega

theorem WBase.move_of {w : WState K V} (hw : WBase w) {t : Nat} {p' : Pc K V} {vw : Nat → Nat} (hn : NotTest p')
    (hb : SBase (w.fake.set t w.mem p')) (her : p'.er = (w.pc t).er) : WBase (w.move t p' vw) := by
  have hg : (w.move t p' vw).fake = w.fake.set t w.mem p' := by
    have : gpc (w.move t p' vw) = (w.fake.set t w.mem p').pc := by
      funext u
      show grant (w.mlv u) ((w.sc.set t w.mem p').pc u) = _
      rw [State.set_pc, State.set_pc]
      by_cases hu : u = t
      · subst hu; rw [upd_self, upd_self, grant_of hn]
      · rw [upd_of_ne _ hu, upd_of_ne _ hu]; rfl
    show State.mk _ _ = State.mk _ _
    rw [this]; rfl
  refine ⟨by rw [hg]; exact hb, ?_, hw.lo, hw.los, hw.dummy, ?_⟩
  · intro u
    by_cases hu : u = t
    · subst hu
      have := hb.pcs u
      rw [State.set_pc, upd_self] at this
      show PcOk w.mem ((w.sc.set u w.mem p').pc u)
      rw [State.set_pc, upd_self]
      exact this
    · show PcOk w.mem ((w.sc.set t w.mem p').pc u)
      rw [State.set_pc, upd_of_ne _ hu]
      exact hw.pcs u
  · refine hw.sub.same hw.base t rfl ?_ le_rfl (fun _ => le_rfl)
    intro u
    show ((w.sc.set t w.mem p').pc u).er = _
    rw [State.set_pc]
    by_cases hu : u = t
    · subst hu; rw [upd_self, her]
    · rw [upd_of_ne _ hu]

theorem Eff.ml_le {m m' : Mem K V} {p p' : Pc K V} (h : Eff m p m' p') : m'.tab.ml ≤ m.tab.ml := by
  cases h <;> first | exact Nat.le_refl _ | exact Nat.sub_le _ _ | exact (call_ctrl.2.1).le

theorem Eff.er {m m' : Mem K V} {p p' : Pc K V} (h : Eff m p m' p') (hbad : p' ≠ .bad) :
    (p'.er = p.er ∧ m'.tab.ml = m.tab.ml) ∨
    (p.er = none ∧ sizeRmw p = false ∧ ∃ d, p'.er = some d ∧ m'.tab.ml + d = m.tab.ml) ∨
    (∃ d, p.er = some d ∧ p'.er = none ∧ m'.tab.ml = m.tab.ml ∧ sizeRmw p = true) := by
  cases h with
  | erase k p pb j y h1 h2 h3 => exact .inr (.inl ⟨rfl, rfl, _, rfl, Nat.sub_add_cancel h3⟩)
  | swErase act g j js r y h1 h2 h3 => exact .inr (.inl ⟨rfl, rfl, _, rfl, Nat.sub_add_cancel h3⟩)
  | eraseSize g d h => exact .inr (.inr ⟨d, rfl, rfl, rfl, rfl⟩)
  | eraseSizeMore g d act js r h => exact .inr (.inr ⟨d, rfl, rfl, rfl, rfl⟩)
  | _ => first | exact absurd rfl hbad | exact .inl ⟨rfl, rfl⟩ | exact .inl ⟨rfl, call_ctrl.2.1⟩

theorem fake_pc {w : WState K V} {t : Nat} (h : NotTest (w.pc t)) : w.fake.pc t = w.pc t := grant_of h _

theorem WBase.quiet {w : WState K V} (hw : WBase w) {t : Nat} {p' : Pc K V} {vw : Nat → Nat} (hr : Racy (w.pc t) = false)
    (h : Quiet w.mem (w.sc.canS t) (w.sc.canX t) (w.pc t) p') : WBase (w.move t p' vw) := by
  have hp : w.fake.pc t = w.pc t := fake_pc (notTest_of_racy hr)
  have h' : Quiet w.fake.mem (w.fake.canS t) (w.fake.canX t) (w.fake.pc t) p' := by
    rw [fake_canS, fake_canX, hp]; exact h
  have hb := hw.base.quiet h'
  have hok := hb.pcs t
  rw [State.set_pc, upd_self] at hok
  exact hw.move_of (Quiet.notTest h) hb (h.acct (pcOk_not_bad hok)).2.1

/-- Steps of a search. -/
theorem WBase.search {w : WState K V} (hw : WBase w) {t : Nat} {p' : Pc K V} {vw : Nat → Nat}
    (h0 : (w.pc t).owns = none ∧ (w.pc t).hasRes = false ∧ (w.pc t).er = none ∧ NotTest (w.pc t))
    (h1 : p'.locks = none ∧ p'.hasRes = false ∧ p'.er = none ∧ NotTest p') (hok : PcOk w.mem p') : WBase (w.move t p' vw) := by
  have hp : w.fake.pc t = w.pc t := fake_pc h0.2.2.2
  refine hw.move_of h1.2.2.2 (hw.base.move h1.1 ?_ ?_ ?_ ?_ hok) (by rw [h1.2.2.1, h0.2.2.1])
  · rw [hp]; exact h0.1
  · rw [hp, h0.2.1]; exact h1.2.1
  · rw [hp, h0.2.2.1]; exact h1.2.2.1
  · intro hh; rw [h1.2.1] at hh; cases hh

theorem missPc_search (o : KOp K V) (c : Nat) : (missPc o c).locks = none ∧ (missPc o c).hasRes = false ∧
    (missPc o c).er = none ∧ NotTest (missPc o c) := by
  simp only [missPc]; split <;> exact ⟨rfl, rfl, rfl, trivial⟩

theorem WBase.test {w : WState K V} (hw : WBase w) {t : Nat} {o : KOp K V} {c n v : Nat} (hp : w.pc t = .test o c n)
    (hv : v ≤ w.mlv t) : WBase (w.move t (if n ≤ v then .insLock o c (probe0 w.mem o) else .failSize o) (w.view t)) := by
  have hok := hw.pcs t
  rw [hp] at hok
  have hf : w.fake.pc t = if n ≤ w.mlv t then .rollSize o else .failSize o := by
    show grant (w.mlv t) (w.pc t) = _
    rw [hp]; rfl
  by_cases hn : n ≤ v
  · rw [if_pos hn]
    rw [if_pos (hn.trans hv)] at hf
    refine hw.move_of trivial (hw.base.move rfl ?_ ?_ ?_ ?_ ?_) (by rw [hp]; rfl)
    · rw [hf]; rfl
    · rw [hf]; rfl
    · rw [hf]; rfl
    · intro _ b n' hb; rw [hf]; exact ⟨n', hb, le_rfl⟩
    · have hpb := PbS.init hw.base.law o
      refine ⟨hok.1, ?_, hpb.1, fun i hi => absurd hi (Nat.not_lt_zero i)⟩
      cases he : w.mem.tab.arr.hasElems with
      | true => exact he
      | false =>
        have := hw.dummy he t
        have := hok.2
        omega
  · rw [if_neg hn]
    refine hw.move_of trivial (hw.base.move rfl ?_ ?_ ?_ ?_ hok.1) (by rw [hp]; rfl)
    · rw [hf]; split <;> rfl
    · rw [hf]; split <;> rfl
    · rw [hf]; split <;> rfl
    · intro _ b n' hb; cases hb

/-- What a step that changes memory does to what is known of `ml`. -/
theorem MlSub.eff {w : WState K V} (hw : WBase w) {t : Nat} {m' : Mem K V} {p' : Pc K V} (h : Eff w.mem (w.pc t) m' p')
    (hbad : p' ≠ .bad) : MlSub (w.eff t m' p') := by
  have hpt : ((w.eff t m' p').pc t) = p' := by show (w.sc.set t m' p').pc t = _; rw [State.set_pc, upd_self]
  have hpu : ∀ u, u ≠ t → (w.eff t m' p').pc u = w.pc u := by
    intro u hu; show (w.sc.set t m' p').pc u = _; rw [State.set_pc, upd_of_ne _ hu]
  have hml : (w.eff t m' p').mem = m' := rfl
  have hmlu : ∀ u, u ≠ t → (w.eff t m' p').mlv u = w.mlv u := fun u hu => by simp only [WState.eff, if_neg hu]
  have hmlt : (w.eff t m' p').mlv t = w.effMl t m' := by simp only [WState.eff, if_true]
  have hsm : (w.eff t m' p').smsg ≤ w.smsg := by
    simp only [WState.eff]; split
    · exact Nat.min_le_right _ _
    · exact le_rfl
  have hlo := hw.lo t
  obtain ⟨L, hL⟩ := hw.base.acct
  have hg : ∀ u, u ≠ t → (gpc (w.eff t m' p') u).er = (gpc w u).er := by
    intro u hu
    simp only [gpc, (grant_facts _ _).2.2.2.1, hpu u hu]
  have hsum : ∀ S : List Nat, t ∉ S → S.map (erd (w.eff t m' p').sc.pc) = S.map (erd w.sc.pc) := by
    intro S hS
    refine List.map_congr_left fun u hu => ?_
    have := hpu u (fun h => hS (h ▸ hu))
    simp only [erd, WState.pc] at this ⊢
    rw [this]
  have het : erd (w.eff t m' p').sc.pc t = (p'.er).getD 0 := by
    have := hpt
    simp only [erd, WState.pc] at this ⊢
    rw [this]
  have het0 : erd w.fake.pc t = ((w.pc t).er).getD 0 := erd_gpc w t
  have het1 : erd (gpc (w.eff t m' p')) t = (p'.er).getD 0 := by rw [erd_gpc, het]
  rcases Eff.er h hbad with ⟨h1, h2⟩ | ⟨h1, h2, d, h3, h4⟩ | ⟨d, h1, h2, h3, h4⟩
  · refine hw.sub.same hw.base t (by rw [hml]; exact h2) ?_ hsm ?_
    · intro u
      by_cases hu : u = t
      · subst hu; rw [hpt]; exact h1
      · rw [hpu u hu]
    · intro u
      by_cases hu : u = t
      · subst hu
        rw [hmlt]
        simp only [WState.effMl]
        split
        · exact Nat.min_le_left _ _
        · exact le_rfl
      · rw [hmlu u hu]
  · -- `ml` lowered
    intro L' hL' S hn hS v hvs hvm
    rw [hml] at hL' ⊢
    have hps := pend_step (t := t) hL hL' hg
    rw [het0, het1, h1, h3] at hps
    simp only [Option.getD] at hps
    by_cases ht : t ∈ S
    · by_cases hd : d = 0
      · -- nothing lowered
        subst hd
        have hS' : ∀ u ∈ S.erase t, u ≠ t ∧ u ∈ S := fun u hu => ⟨fun h => (hn.not_mem_erase (h ▸ hu)).elim, List.mem_of_mem_erase hu⟩
        have h5 := hw.sub L hL (S.erase t) (hn.erase t)
          (fun u hu => by
            obtain ⟨d, hd⟩ := hS u (hS' u hu).2
            rw [hpu u (hS' u hu).1] at hd
            exact ⟨d, hd⟩)
          v (hvs.trans hsm) (fun u hu => by rw [← hmlu u (hS' u hu).1]; exact hvm u (hS' u hu).2)
        have h6 : (S.map (erd (w.eff t m' p').sc.pc)).sum = ((S.erase t).map (erd w.sc.pc)).sum := by
          rw [← hsum _ hn.not_mem_erase]
          have hp := List.perm_cons_erase ht
          have key : ∀ {a b : List Nat} (f : Nat → Nat), a.Perm b → (a.map f).sum = (b.map f).sum := by
            intro a b f hab
            induction hab with
            | nil => rfl
            | cons x _ ih => simp only [List.map_cons, List.sum_cons, ih]
            | swap x y l => simp only [List.map_cons, List.sum_cons]; omega
            | trans _ _ h1 h2 => exact h1.trans h2
          rw [key _ hp, List.map_cons, List.sum_cons, het, h3]
          simp
        rw [h6]
        omega
      · have h5 := hvm t ht
        rw [hmlt] at h5
        simp only [WState.effMl, h2, Bool.false_eq_true, if_false] at h5
        rw [if_neg (by omega)] at h5
        have h6 := sum_erd_le hL' hn (fun u hu => by
          obtain ⟨d, hd⟩ := hS u hu
          exact ⟨d, by simp only [gpc, (grant_facts _ _).2.2.2.1]; exact hd⟩)
        have h7 : S.map (erd (gpc (w.eff t m' p'))) = S.map (erd (w.eff t m' p').sc.pc) :=
          List.map_congr_left fun u _ => erd_gpc _ u
        rw [h7] at h6
        omega
    · rw [hsum S ht]
      have hne : ∀ u ∈ S, u ≠ t := fun u hu h => ht (h ▸ hu)
      have h5 := hw.sub L hL S hn (fun u hu => by
          obtain ⟨d, hd⟩ := hS u hu
          rw [hpu u (hne u hu)] at hd
          exact ⟨d, hd⟩)
        v (hvs.trans hsm) (fun u hu => by rw [← hmlu u (hne u hu)]; exact hvm u hu)
      omega
  · -- the size lowered
    intro L' hL' S hn hS v hvs hvm
    rw [hml] at hL' ⊢
    have hps := pend_step (t := t) hL hL' hg
    rw [het0, het1, h1, h2] at hps
    simp only [Option.getD] at hps
    have ht : t ∉ S := by
      intro ht
      obtain ⟨d, hd⟩ := hS t ht
      rw [hpt, h2] at hd
      cases hd
    have hne : ∀ u ∈ S, u ≠ t := fun u hu h => ht (h ▸ hu)
    simp only [WState.eff, h4, if_true] at hvs
    have h5 := hw.sub L hL (t :: S) (List.nodup_cons.2 ⟨ht, hn⟩) (fun u hu => by
          rcases List.mem_cons.1 hu with rfl | hu
          · exact ⟨d, h1⟩
          · obtain ⟨d, hd⟩ := hS u hu
            rw [hpu u (hne u hu)] at hd
            exact ⟨d, hd⟩)
        v (by omega) (fun u hu => by
          rcases List.mem_cons.1 hu with rfl | hu
          · omega
          · rw [← hmlu u (hne u hu)]; exact hvm u hu)
    rw [List.map_cons, List.sum_cons] at h5
    have h6 : erd w.sc.pc t = d := by
      have := h1
      simp only [erd, WState.pc] at this ⊢
      rw [this]; rfl
    rw [hsum S ht]
    omega

theorem WBase.eff {w : WState K V} (hw : WBase w) {t : Nat} {m' : Mem K V} {p' : Pc K V} (h : Eff w.mem (w.pc t) m' p')
    (hno : ∀ md x f2 f1 c pb j, w.pc t = .insInc (.insert md x f2 f1) c pb j →
      w.mem.cnt (w.mem.pos0 x.1) % 2 ^ 32 = c % 2 ^ 32 → NoKey w.mem x.1) : WBase (w.eff t m' p') := by
  have hp : w.fake.pc t = w.pc t := fake_pc (Eff.notTest h).1
  have h' : Eff w.fake.mem (w.fake.pc t) m' p' := by rw [hp]; exact h
  have hb := hw.base.eff h' (by rw [hp]; exact hno)
  have hok := hb.pcs t
  rw [State.set_pc, upd_self, State.set_mem] at hok
  have hbad := pcOk_not_bad hok
  have hfr := h.frame
  have hg : (w.eff t m' p').fake = w.fake.set t m' (grant (w.effMl t m') p') := by
    have : gpc (w.eff t m' p') = (w.fake.set t m' (grant (w.effMl t m') p')).pc := by
      funext u
      show grant (if u = t then w.effMl t m' else w.mlv u) ((w.sc.set t m' p').pc u) = _
      rw [State.set_pc, State.set_pc]
      by_cases hu : u = t
      · subst hu; rw [upd_self, upd_self, if_pos rfl]
      · rw [upd_of_ne _ hu, upd_of_ne _ hu, if_neg hu]; rfl
    show State.mk _ _ = State.mk _ _
    rw [this]; rfl
  refine ⟨?_, ?_, ?_, ?_, ?_, MlSub.eff hw h hbad⟩
  · rw [hg]
    rcases (Eff.notTest h).2 with hn | ⟨o, c, hq⟩
    · rw [grant_of hn]; exact hb
    · rw [hq] at h
      have hq' : w.fake.pc t = .reserve o c := hp.trans hq
      obtain ⟨L, hL⟩ := hw.base.acct
      have hsub := hw.sub L hL [] List.nodup_nil (fun u hu => by cases hu) w.smsg le_rfl (fun u hu => by cases hu)
      cases h with
      | reserve o c =>
        have hgr : grant (w.effMl t (w.mem.setSize (w.mem.tab.size + 1))) (.test o c (w.mem.tab.size + 1) : Pc K V) =
          if w.mem.tab.size + 1 ≤ min (w.mlv t) w.smsg then .rollSize o else .failSize o := by
          simp only [grant, WState.effMl, hq, sizeRmw, if_true]
        obtain ⟨g1, g2, g3, g4, g5⟩ := grant_facts (w.effMl t (w.mem.setSize (w.mem.tab.size + 1)))
          (.test o c (w.mem.tab.size + 1) : Pc K V)
        refine ⟨hb.law, excl_step hw.base t _ (.inl g1), ?_, hb.al, ?_, .res t :: L, ?_⟩
        · refine hb.shape.mono ?_
          rintro g j ⟨u, hu⟩
          refine ⟨u, ?_⟩
          rw [State.set_pc] at hu ⊢
          by_cases hut : u = t
          · subst hut; rw [upd_self] at hu ⊢; rw [g2]; exact hu
          · rw [upd_of_ne _ hut] at hu ⊢; exact hu
        · intro u
          have := hb.pcs u
          rw [State.set_pc, State.set_mem] at this ⊢
          by_cases hut : u = t
          · subst hut; rw [upd_self] at this ⊢; rw [hgr]; split <;> exact this.1
          · rw [upd_of_ne _ hut] at this ⊢; exact this
        · refine hL.addGranted (fun _ _ => Iff.rfl) rfl rfl rfl ?_ ?_ ?_ ?_
          · rw [hq']; rfl
          · rw [g3]; rfl
          · rw [g4, hq']; rfl
          · intro b n hn
            rw [hgr] at hn
            split at hn
            · rename_i hle
              cases hn
              refine ⟨rfl, ?_⟩
              have hsz : w.fake.mem.tab.size = w.mem.tab.size := rfl
              have hml : w.fake.mem.tab.ml = w.mem.tab.ml := rfl
              rw [hsz, hml]
              simp only [List.map_nil, List.sum_nil] at hsub
              omega
            · cases hn
  · intro u
    show PcOk m' ((w.sc.set t m' p').pc u)
    rw [State.set_pc]
    by_cases hu : u = t
    · subst hu; rw [upd_self]; exact hok
    · rw [upd_of_ne _ hu]
      refine (hw.pcs u).frame hfr fun g md hl hx => ?_
      refine hw.base.excl t u g md (fun h => hu h.symm) ?_ ?_
      · rw [hp]; exact xgrp_iff.1 hx
      · show (grant _ (w.pc u)).locks = _
        rw [(grant_facts _ _).1]; exact hl
  · intro u
    have h1 := Eff.ml_le h
    show m'.tab.ml ≤ if u = t then w.effMl t m' else w.mlv u
    have h2 := hw.lo u
    have h3 := hw.lo t
    have h4 := hw.los
    split
    · simp only [WState.effMl]
      split
      · omega
      · split <;> omega
    · omega
  · have h1 := Eff.ml_le h
    have h3 := hw.lo t
    have h4 := hw.los
    simp only [WState.eff]
    show m'.tab.ml ≤ _
    split <;> omega
  · intro he u
    have he' : w.mem.tab.arr.hasElems = false := by rw [← hfr.hasElems]; exact he
    have h1 := Eff.ml_le h
    have h2 := hw.dummy he' t
    have h3 := hw.lo t
    show (if u = t then w.effMl t m' else w.mlv u) = 0
    split
    · simp only [WState.effMl]
      split
      · omega
      · split <;> omega
    · exact hw.dummy he' u

/-- When nobody is inside. -/
theorem WBase.fresh {s : State K V} (hs : SBase s) (ho : ∀ u, (s.pc u).inside = false) : WBase (WState.fresh s) := by
  have hn : ∀ u, NotTest (s.pc u) := by
    intro u
    have := ho u
    cases hq : s.pc u <;> first | trivial | (rw [hq] at this; cases this)
  have hf : (WState.fresh s).fake = s := by
    have : gpc (WState.fresh s) = s.pc := by
      funext u
      exact grant_of (hn u) _
    show State.mk _ _ = _
    rw [this]; rfl
  refine ⟨by rw [hf]; exact hs, hs.pcs, fun _ => le_rfl, le_rfl, ?_, ?_⟩
  · intro he t
    obtain ⟨L, ha⟩ := hs.acct
    have := ha.capLe
    have he' : s.mem.tab.arr.hasElems = false := he
    simp only [Table.capacity, Arrays.capacity, he'] at this
    simp at this
    show s.mem.tab.ml = 0
    omega
  · intro L hL S hnd hS v hv hvm
    have : S = [] := by
      rw [List.eq_nil_iff_forall_not_mem]
      intro u hu
      obtain ⟨d, hd⟩ := hS u hu
      have h1 := (outside (ho u)).2.2.2.1
      have h2 : (s.pc u).er = some d := hd
      rw [h1] at h2
      cases h2
    subst this
    have hv' : v ≤ s.mem.tab.ml := hv
    show v + 0 ≤ s.mem.tab.ml + pend L
    omega

theorem fake_inside {w : WState K V} (ho : ∀ u, (w.pc u).inside = false) (u : Nat) : (w.fake.pc u).inside = false := by
  show (grant _ (w.pc u)).inside = false
  rw [(grant_facts _ _).2.2.2.2]; exact ho u

theorem WBase.alone {cfg : Cfg} {w : WState K V} (hw : WBase w) {t : Nat} {m' : Mem K V} {p' : Pc K V}
    (ho : ∀ u, (w.pc u).inside = false) (h : Alone cfg w.mem (w.pc t) m' p') : WBase (WState.fresh (w.sc.set t m' p')) := by
  have hn : NotTest (w.pc t) := by
    have := ho t
    cases hq : w.pc t <;> first | trivial | (rw [hq] at this; cases this)
  have h' : Alone cfg w.fake.mem (w.fake.pc t) m' p' := by rw [fake_pc hn]; exact h
  obtain ⟨h1, h2, h3⟩ := hw.base.alone_inv (fake_inside ho) h'
  have ho' : ∀ u, ((w.sc.set t m' p').pc u).inside = false := by
    intro u
    rw [State.set_pc]
    by_cases hu : u = t
    · subst hu; rw [upd_self]; exact h2
    · rw [upd_of_ne _ hu]; exact ho u
  refine WBase.fresh (SBase.of_inv h1 ho' ?_) ho'
  intro u
  rw [State.set_pc, State.set_mem]
  by_cases hu : u = t
  · subst hu; rw [upd_self]; exact h3
  · rw [upd_of_ne _ hu]; exact (hw.pcs u).of_outside (ho u)

theorem WBase.sync {w : WState K V} (hw : WBase w) (t u : Nat) {vw : Nat → Nat → Nat} {kn : Nat → Nat → Nat → Prop} :
    WBase { w with view := vw, mlv := fun x => if x = t then min (w.mlv t) (w.mlv u) else w.mlv x, kn := kn } := by
  have hle : ∀ x, (if x = t then min (w.mlv t) (w.mlv u) else w.mlv x) ≤ w.mlv x := by
    intro x
    split
    · rename_i h; subst h; exact Nat.min_le_left _ _
    · exact le_rfl
  refine ⟨?_, hw.pcs, ?_, hw.los, ?_, ?_⟩
  · have hf : WState.fake { w with view := vw, mlv := fun x => if x = t then min (w.mlv t) (w.mlv u) else w.mlv x, kn := kn } =
        w.fake.set t w.mem (grant (min (w.mlv t) (w.mlv u)) (w.pc t)) := by
      have : gpc { w with view := vw, mlv := fun x => if x = t then min (w.mlv t) (w.mlv u) else w.mlv x, kn := kn } =
          (w.fake.set t w.mem (grant (min (w.mlv t) (w.mlv u)) (w.pc t))).pc := by
        funext x
        show grant (if x = t then min (w.mlv t) (w.mlv u) else w.mlv x) (w.pc x) = _
        rw [State.set_pc]
        by_cases hx : x = t
        · subst hx; rw [upd_self, if_pos rfl]
        · rw [upd_of_ne _ hx, if_neg hx]; rfl
      show State.mk _ _ = State.mk _ _
      rw [this]; rfl
    rw [hf]
    by_cases hn : NotTest (w.pc t)
    · have : w.fake.set t w.mem (grant (min (w.mlv t) (w.mlv u)) (w.pc t)) = w.fake := by
        rw [grant_of hn]
        show State.mk _ _ = _
        have : (fun x => if x = t then w.pc t else w.fake.pc x) = w.fake.pc := by
          funext x
          split
          · rename_i h; subst h; exact (fake_pc hn).symm
          · rfl
        rw [this]; rfl
      rw [this]; exact hw.base
    · have hok := hw.pcs t
      cases hq : w.pc t with
      | test o c n =>
        rw [hq] at hok
        have hg : w.fake.pc t = grant (w.mlv t) (.test o c n) := by show grant _ (w.pc t) = _; rw [hq]
        obtain ⟨g1, g2, g3, g4, g5⟩ := grant_facts (w.mlv t) (.test o c n : Pc K V)
        obtain ⟨k1, k2, k3, k4, k5⟩ := grant_facts (min (w.mlv t) (w.mlv u)) (.test o c n : Pc K V)
        refine hw.base.move k1 ?_ ?_ ?_ ?_ ?_
        · rw [hg, g2]; rfl
        · rw [hg, g3, k3]
        · rw [hg, g4, k4]
        · intro _ b n' hb
          rw [hg]
          simp only [grant] at hb ⊢
          split at hb
          · rename_i h
            rw [if_pos (by omega)]
            exact ⟨n', hb, le_rfl⟩
          · cases hb
        · simp only [grant]; split <;> exact hok.1
      | _ => rw [hq] at hn; exact absurd trivial hn
  · intro x
    show w.mem.tab.ml ≤ if x = t then min (w.mlv t) (w.mlv u) else w.mlv x
    have := hw.lo x; have := hw.lo t; have := hw.lo u
    split <;> omega
  · intro he x
    have h1 := hw.dummy he x
    have h2 := hle x
    show (if x = t then min (w.mlv t) (w.mlv u) else w.mlv x) = 0
    omega
  · exact hw.sub.same hw.base t rfl (fun _ => rfl) le_rfl hle

theorem WBase.init (cfg : Cfg) {f : Fns K} (hf : f.Lawful) (al n : Nat) :
    WBase (WState.fresh (Conc.Tab.init cfg f al n : State K V)) :=
  WBase.fresh (SInv.init cfg hf al n).toSBase (fun _ => rfl)

end Conc.Weak

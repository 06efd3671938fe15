/-
`visit_while` on a concurrent table. Lemmas only; the model is `Verif.Conc.Table`.
-/
import Verif.Conc.TabSweep

namespace Conc.Tab
open Foa SpecT
open Conc.Locking (Mode)

variable {K V : Type}

/-- The pass is over but for unlocking. -/
def Pc.closing : Pc K V → Bool
  | .unlock _ _ _ | .leave _ | .done _ => true
  | _ => false

theorem StepBy.closing {cfg : Cfg} {s s' : State K V} {t : Nat} (h : StepBy cfg t s s') (hd : ∀ r, s.pc t ≠ .done r)
    (hc : (s.pc t).closing = true) : (s'.pc t).closing = true ∧ (s'.pc t).sofar = (s.pc t).sofar ∧ ∀ y, ¬ Passes s t y := by
  have hnp : ∀ y, ¬ Passes s t y := by
    rintro y ⟨_, _, _, _, _, _, hq, _⟩
    rw [hq] at hc; cases hc
  refine ⟨?_, ?_, hnp⟩
  all_goals
    cases h with
    | @quiet pc' h =>
      rw [State.set_pc, upd_self]
      generalize hq : s.pc t = p at h hc hd
      cases h with
      | unlock _ _ _ => rfl
      | leave r => rfl
      | callAgain r o => exact absurd rfl (hd r)
      | _ => cases hc
    | @eff m' pc' h => generalize hq : s.pc t = p at h hc hd; cases h <;> cases hc
    | @alone m' pc' hout h => generalize hq : s.pc t = p at h hc hd; cases h <;> cases hc

/-- The step in which the callback says to stop. -/
theorem StepBy.stops {cfg : Cfg} {s s' : State K V} (hi : SInv s) (hw : NoWrap s) {t : Nat} (h : StepBy cfg t s s')
    {act : K × V → Verdict V} {md : Mode} (hp : (s.pc t).sweeping act md) {y : K × V} {v : V} {a : Nat} (hy : Passes s t y)
    (ha : act y = .stop v a) : (s'.pc t).closing = true := by
  have hb := pcOk_not_bad ((hi.step hw h).pcs t)
  obtain ⟨m', act', g, j, js, r, hq, hs⟩ := hy
  rw [hq] at hp
  obtain ⟨rfl, rfl⟩ := hp
  cases h with
  | @quiet pc' h =>
    rw [State.set_pc, upd_self] at hb ⊢
    rw [hq] at h
    cases h with
    | swBad _ _ _ _ _ _ hn => exact absurd rfl hb
  | @eff m' pc' h =>
    rw [State.set_pc, upd_self] at hb ⊢
    rw [hq] at h
    cases h with
    | swGo _ _ _ _ _ _ z w e hz hv => rw [hs] at hz; cases hz; rw [ha] at hv; cases hv
    | swStop => rfl
    | swErase _ _ _ _ _ z hz hv => rw [hs] at hz; cases hz; rw [ha] at hv; cases hv
    | swEraseWrap => exact absurd rfl hb
  | @alone m' pc' hout h => rw [hq] at h; cases h

theorem adds_of {s : State K V} {t : Nat} {act : K × V → Verdict V} {md : Mode} (hp : (s.pc t).sweeping act md) {y : K × V}
    (hy : Passes s t y) : adds s t = match act y with | .go _ n => n | .stop _ n => n | .erase => 1 := by
  obtain ⟨m', act', g, j, js, r, hq, hs⟩ := hy
  rw [hq] at hp
  obtain ⟨rfl, rfl⟩ := hp
  simp only [adds, hq, hs]
  cases act' y <;> rfl

theorem adds_none {s : State K V} {t : Nat} (h : ∀ y, ¬ Passes s t y) : adds s t = 0 := by
  unfold adds
  split
  · rename_i hq
    split
    · rename_i y hy; exact absurd ⟨_, _, _, _, _, _, hq, hy⟩ (h y)
    · rfl
  · rfl

/-- The course of `visit_while`: nothing has said `false` so far, or one call has, it was the last, and the answer is 1. -/
theorem while_run {cfg : Cfg} {σ : Nat → State K V} {who : Nat → Nat} {n : Nat} (hr : Run cfg σ who n) (h0 : SInv (σ 0))
    {t : Nat} {md : Mode} {p : K × V → Bool} {w : K × V → V} (hs : (σ 0).pc t = .start (visitWhile md p w))
    (hd : ∀ i < n, ∀ r, (σ i).pc t ≠ .done r) : ∀ i ≤ n,
    (((σ i).pc t).sofar = 0 ∧ ∀ l < i, who l = t → ∀ y, Passes (σ l) t y → p y = true) ∨
    (((σ i).pc t).closing = true ∧ ((σ i).pc t).sofar = 1 ∧ ∃ l < i, who l = t ∧ (∃ y, Passes (σ l) t y ∧ p y = false) ∧
      (∀ l' < l, who l' = t → ∀ y, Passes (σ l') t y → p y = true) ∧
      ∀ l', l < l' → l' < i → who l' = t → ∀ y, ¬ Passes (σ l') t y) := by
  intro i
  induction i with
  | zero => intro _; rw [hs]; exact .inl ⟨rfl, fun l hl => absurd hl (Nat.not_lt_zero _)⟩
  | succ i ih =>
    intro hi
    have hin : i < n := by omega
    have hsw := hr.sweeping h0 hs hd i (by omega)
    by_cases hu : who i = t
    · have hstep := hr.step i hin
      rw [hu] at hstep
      have hinv := hr.inv h0 i (by omega)
      have hw := hr.nowrap i hin
      rcases ih (by omega) with ⟨h1, h2⟩ | ⟨h1, h2, l, hl, h3, h4, h4', h5⟩
      · have hso := hstep.sofar hinv hw (hd i hin) hsw
        by_cases hy : ∃ y, Passes (σ i) t y
        · obtain ⟨y, hy⟩ := hy
          have huniq : ∀ z, Passes (σ i) t z → z = y := by
            rintro z ⟨_, _, _, _, _, _, hq, hz⟩
            obtain ⟨_, _, _, _, _, _, hq', hz'⟩ := hy
            rw [hq] at hq'; cases hq'; rw [hz] at hz'; cases hz'; rfl
          rw [adds_of hsw hy] at hso
          cases hp : p y with
          | true =>
            simp only [hp, if_true] at hso
            refine .inl ⟨by omega, fun l hl hw' z hz => ?_⟩
            rcases Nat.lt_succ_iff_lt_or_eq.1 hl with hl | rfl
            · exact h2 l hl hw' z hz
            · rw [huniq z hz, hp]
          | false =>
            simp only [hp] at hso
            refine .inr ⟨hstep.stops hinv hw hsw hy (v := w y) (a := 1) (by simp [hp]), by simp at hso; omega, i, by omega, hu,
              ⟨y, hy, hp⟩, h2, fun l' h6 h7 => by omega⟩
        · rw [adds_none (fun y h => hy ⟨y, h⟩)] at hso
          refine .inl ⟨by omega, fun l hl hw' z hz => ?_⟩
          rcases Nat.lt_succ_iff_lt_or_eq.1 hl with hl | rfl
          · exact h2 l hl hw' z hz
          · exact absurd ⟨z, hz⟩ hy
      · obtain ⟨c1, c2, c3⟩ := hstep.closing (hd i hin) h1
        refine .inr ⟨c1, by rw [c2, h2], l, by omega, h3, h4, h4', fun l' h6 h7 hw' => ?_⟩
        rcases Nat.lt_succ_iff_lt_or_eq.1 h7 with h7 | rfl
        · exact h5 l' h6 h7 hw'
        · exact c3
    · rw [(hr.step i hin).other (fun h => hu h.symm)]
      rcases ih (by omega) with ⟨h1, h2⟩ | ⟨h1, h2, l, hl, h3, h4, h4', h5⟩
      · refine .inl ⟨h1, fun l hl hw' => ?_⟩
        rcases Nat.lt_succ_iff_lt_or_eq.1 hl with hl | rfl
        · exact h2 l hl hw'
        · exact absurd hw' hu
      · refine .inr ⟨h1, h2, l, by omega, h3, h4, h4', fun l' h6 h7 hw' => ?_⟩
        rcases Nat.lt_succ_iff_lt_or_eq.1 h7 with h7 | rfl
        · exact h5 l' h6 h7 hw'
        · exact absurd hw' hu

/-- A pass that has not been stopped before step `n` has passed a key at most once by then. -/
theorem while_once {cfg : Cfg} {σ : Nat → State K V} {who : Nat → Nat} {n : Nat} (hr : Run cfg σ who n) (h0 : SInv (σ 0))
    {t : Nat} {md : Mode} {act : K × V → Verdict V} (hs : (σ 0).pc t = .start (.sweep md act))
    (hd : ∀ i < n, ∀ r, (σ i).pc t ≠ .done r) {k : K}
    (hx : ∀ i ≤ n, Present (σ 0).mem.tab.fns.eq (σ i).mem.elems k)
    (hns : ∀ i < n, who i = t → ∀ y v a, Passes (σ i) t y → act y ≠ .stop v a) {y : K × V} (hy : Passes (σ n) t y)
    (he : (σ 0).mem.tab.fns.eq k y.1 = true) : ∀ l < n, ¬ Vis σ who t k l := by
  rcases sweep_run hr h0 hns hs hd hx n le_rfl with ⟨h1, h2⟩ | ⟨_, g0, j0, z, b, h2, h3, h4, h5, _⟩
  · exact h2
  · obtain ⟨m', act', g, j, js, r, hq, hz⟩ := hy
    have hinv := hr.inv h0 n le_rfl
    have hfn := hr.fns h0 n le_rfl
    have heq : (σ n).mem.tab.fns.eq y.1 z.1 = true := by
      have := hinv.law
      rw [hfn] at this ⊢
      exact this.trans _ _ _ (this.symm _ _ he) h3
    obtain ⟨rfl, rfl⟩ := (hinv.shape.live h2).2.uniq _ _ _ _ _ _ hz h2 heq
    rw [hq] at h4
    refine h5 ?_
    rw [← Bool.not_eq_true, h4.2.2]
    simp

end Conc.Tab

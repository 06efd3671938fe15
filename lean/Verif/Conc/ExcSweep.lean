/-
Whole-table passes over a concurrent table when operations throw. Lemmas only; the model is `Verif.Conc.Exc`.
-/
import Verif.Conc.ExcLin
import Verif.Conc.TabSweep

namespace Conc.Exc
open Foa SpecT Conc.Tab
open Conc.Locking (Mode)

variable {K V : Type}

theorem xstays {may : Call → Bool} {mv : Bool} {cfg : Cfg} {x x' : XState K V} (hi : XInv x) (hw : NoWrap x.st) {u t : Nat}
    (h : XStepBy may mv cfg u x x') (ht : (x.st.pc t).inside = true) {k : K} {g j : Nat} {y : K × V}
    (hy : x.st.mem.slot g j = some y) (he : x.st.mem.tab.fns.eq k y.1 = true)
    (hp : Present x.st.mem.tab.fns.eq x'.st.mem.elems k) : ∃ y', x'.st.mem.slot g j = some y' ∧ y'.1 = y.1 := by
  cases h with
  | base h _ => exact stays hi.inv hw h ht hy he hp
  | unwound _ _ => exact ⟨y, hy, rfl⟩
  | alone ho h => rw [ho t] at ht; cases ht
  | @throw m' p' h =>
    obtain ⟨z, ⟨i, l, hz⟩, hez⟩ := hp
    change m'.slot i l = some z at hz
    rcases h.keys k with hk | ⟨md, w, f2, f1, c, pb, l', hq, hew, hc⟩
    · obtain ⟨w, hw1, hw2⟩ := hk i l z hz hez
      have hyz : x.st.mem.tab.fns.eq w.1 y.1 = true := by
        rw [hw2]
        exact hi.inv.law.trans _ _ _ (hi.inv.law.symm _ _ hez) he
      obtain ⟨rfl, rfl⟩ := (hi.inv.shape.live hy).2.uniq _ _ _ _ _ _ hw1 hy hyz
      have hwy : w = y := by
        have : x.st.mem.slot i l = some w := hw1
        rw [hy] at this; cases this; rfl
      subst hwy
      exact ⟨z, hz, hw2.symm⟩
    · have h1 := hi.inv.noKey hw hq hc g j y hy
      have h2 := hi.inv.law.trans _ _ _ (hi.inv.law.symm _ _ hew) he
      change x.st.mem.tab.fns.eq w.1 y.1 = false at h1
      rw [h1] at h2
      cases h2

/-- A step of a thread that is not left by an exception is a step of the model without exceptions. -/
theorem XStepBy.base_of {may : Call → Bool} {mv : Bool} {cfg : Cfg} {x x' : XState K V} {t : Nat}
    (h : XStepBy may mv cfg t x x') (he : x'.exc t = false) : StepBy cfg t x.st x'.st := by
  cases h with
  | base h _ => exact h
  | throw h => simp at he
  | alone ho h => simp at he
  | unwound h1 h2 => simp only at he; rw [h1] at he; cases he

/-- An exception stays until the thread returns. -/
theorem XStepBy.exc_mono {may : Call → Bool} {mv : Bool} {cfg : Cfg} {x x' : XState K V} {t u : Nat}
    (h : XStepBy may mv cfg u x x') (he : x.exc t = true) (hr : resting (x.st.pc t) = false) : x'.exc t = true := by
  cases h with
  | base h _ =>
    simp only
    split
    · rename_i hc; obtain ⟨rfl, hc⟩ := hc; rw [hr] at hc; cases hc
    · exact he
  | throw h => simp only; split <;> simp [he]
  | alone ho h => simp only; split <;> simp [he]
  | unwound h1 h2 => exact he

theorem resting_false {p : Pc K V} (hi : p ≠ .idle) (hd : ∀ r, p ≠ .done r) : resting p = false := by
  cases p <;> first | rfl | exact absurd rfl hi | exact absurd rfl (hd _)

theorem unwinding_not_idle {p : Pc K V} (h : unwinding p = true) : p ≠ .idle := by rintro rfl; cases h

/-- While an operation goes on, an exception that has been thrown has been thrown. -/
theorem XRun.exc_mono {may : Call → Bool} {mv : Bool} {cfg : Cfg} {σ : Nat → XState K V} {who : Nat → Nat} {n : Nat}
    (hr : XRun may mv cfg σ who n) (h0 : XInv (σ 0)) {t : Nat} (hd : ∀ i < n, ∀ r, (σ i).st.pc t ≠ .done r) {i : Nat}
    (he : (σ i).exc t = true) : ∀ {l : Nat}, i ≤ l → l ≤ n → (σ l).exc t = true := by
  intro l
  induction l with
  | zero => intro h1 _; obtain rfl : i = 0 := by omega
            exact he
  | succ l ih =>
    intro h1 h2
    by_cases h : i = l + 1
    · rw [← h]; exact he
    · have hl := ih (by omega) (by omega)
      exact (hr.step l (by omega)).exc_mono hl
        (resting_false (unwinding_not_idle ((hr.inv h0 l (by omega)).1.exc t hl)) (hd l (by omega)))

theorem start_no_exc {x : XState K V} (hi : XInv x) {t : Nat} {o : Op K V} (hs : x.st.pc t = .start o) : x.exc t = false := by
  by_contra h
  have := hi.exc t (by simpa using h)
  rw [hs] at this; cases this

/-- A pass that has not been left by an exception. -/
theorem sweep_runX {may : Call → Bool} {mv : Bool} {cfg : Cfg} {σ : Nat → XState K V} {who : Nat → Nat} {n : Nat}
    (hr : XRun may mv cfg σ who n) (h0 : XInv (σ 0)) {t : Nat} {md : Mode} {act : K × V → Verdict V}
    (hns : ∀ i < n, who i = t → ∀ y v a, Passes (σ i).st t y → act y ≠ .stop v a) (hs : (σ 0).st.pc t = .start (.sweep md act))
    (hd : ∀ i < n, ∀ r, (σ i).st.pc t ≠ .done r) (he : (σ n).exc t = false) {k : K}
    (hx : ∀ i ≤ n, Present (σ 0).st.mem.tab.fns.eq (σ i).st.mem.elems k) :
    ∀ i ≤ n,
      ((σ i).st.pc t = .start (.sweep md act) ∧ ∀ l < i, ¬ Vis (fun i => (σ i).st) who t k l) ∨
      ((∀ o, (σ i).st.pc t ≠ .start o) ∧ ∃ g0 j0 y b, (σ i).st.mem.slot g0 j0 = some y ∧
        (σ 0).st.mem.tab.fns.eq k y.1 = true ∧ SwPos act md g0 j0 ((σ i).st.pc t) b ∧
        (b = false → ∀ l < i, ¬ Vis (fun i => (σ i).st) who t k l) ∧
        (b = true → ∃ l < i, Vis (fun i => (σ i).st) who t k l ∧
          ∀ l' < i, Vis (fun i => (σ i).st) who t k l' → l' = l)) := by
  have hex : ∀ i ≤ n, (σ i).exc t = false := by
    intro i hi
    by_contra h
    rw [XRun.exc_mono hr h0 hd (by simpa using h) hi le_rfl] at he
    cases he
  exact sweep_gen (cfg := cfg) (σ := fun i => (σ i).st) (fun i hi => (hr.inv h0 i hi).1.inv) (fun i hi => (hr.inv h0 i hi).2)
    hr.nowrap (fun i hi hu => by have := hr.step i hi; rw [hu] at this; exact this.base_of (hex _ hi))
    (fun i hi hu => ((hr.step i hi).other (fun h => hu h.symm)).1)
    (fun i hi _ hins _ _ _ _ hy he' hp => xstays (hr.inv h0 i (by omega)).1 (hr.nowrap i hi) (hr.step i hi) hins hy he' hp)
    hns hs hd hx

/-- A pass, whether or not it is left by an exception, passes a key at most once. -/
theorem sweep_once {may : Call → Bool} {mv : Bool} {cfg : Cfg} {σ : Nat → XState K V} {who : Nat → Nat} {n : Nat}
    (hr : XRun may mv cfg σ who n) (h0 : XInv (σ 0)) {t : Nat} {md : Mode} {act : K × V → Verdict V}
    (hns : ∀ i < n, who i = t → ∀ y v a, Passes (σ i).st t y → act y ≠ .stop v a) (hs : (σ 0).st.pc t = .start (.sweep md act))
    (hd : ∀ i < n, ∀ r, (σ i).st.pc t ≠ .done r) {k : K}
    (hx : ∀ i ≤ n, Present (σ 0).st.mem.tab.fns.eq (σ i).st.mem.elems k) {l l' : Nat} (hl : l < n) (hl' : l' < n)
    (hv : Vis (fun i => (σ i).st) who t k l) (hv' : Vis (fun i => (σ i).st) who t k l') : l = l' := by
  have hno : ∀ l, l ≤ n → Vis (fun i => (σ i).st) who t k l → (σ l).exc t = false := by
    rintro l hl ⟨_, y, ⟨m', act', g, j, js, r, hq, hy⟩, _⟩
    by_contra h
    have := (hr.inv h0 l hl).1.exc t (by simpa using h)
    change (σ l).st.pc t = _ at hq
    rw [hq] at this; cases this
  have key : ∀ {a b : Nat}, a < b → b < n → Vis (fun i => (σ i).st) who t k a → Vis (fun i => (σ i).st) who t k b → False := by
    intro a b hab hb ha hbv
    have hsub : XRun may mv cfg σ who b := ⟨fun i hi => hr.step i (by omega), fun i hi => hr.nowrap i (by omega)⟩
    have := sweep_runX hsub h0 (fun i hi => hns i (by omega)) hs (fun i hi => hd i (by omega)) (hno b (by omega) hbv) (fun i hi => hx i (by omega)) b le_rfl
    rcases this with ⟨h1, h2⟩ | ⟨h1, g0, j0, y, b', h2, h3, h4, h5, h6⟩
    · exact h2 a hab ha
    · obtain ⟨_, z, ⟨m', act', g, j, js, r, hq, hz⟩, he⟩ := hbv
      have hinv := hr.inv h0 b (by omega)
      have heq : (σ b).st.mem.tab.fns.eq z.1 y.1 = true := by
        have := hinv.1.inv.law
        rw [hinv.2] at this ⊢
        exact this.trans _ _ _ (this.symm _ _ he) h3
      obtain ⟨rfl, rfl⟩ := (hinv.1.inv.shape.live h2).2.uniq _ _ _ _ _ _ hz h2 heq
      change (σ b).st.pc t = _ at hq
      rw [hq] at h4
      have hb' : b' = false := by
        rw [← Bool.not_eq_true, h4.2.2]
        simp
      exact h5 hb' a hab ha
  rcases Nat.lt_trichotomy l l' with h | h | h
  · exact absurd (key h hl' hv hv') id
  · exact h
  · exact absurd (key h hl hv' hv) id

/-! ### the effect of one step of a pass -/

theorem XStepBy.sweeping {may : Call → Bool} {mv : Bool} {cfg : Cfg} {x x' : XState K V} (hi : XInv x) (hw : NoWrap x.st) {t : Nat}
    (h : XStepBy may mv cfg t x x') {act : K × V → Verdict V} {md : Mode} (hd : ∀ r, x.st.pc t ≠ .done r)
    (hp : (x.st.pc t).sweeping act md) :
    (x'.st.pc t).sweeping act md ∧
    ((Same x.st.mem.elems x'.st.mem.elems ∧ ∀ y, ¬ Passes x.st t y) ∨
     ∃ y, Passes x.st t y ∧ ((∃ v a, act y = .go v a ∧
        Replaced x.st.mem.elems x'.st.mem.elems y (y.1, if Mode.wr md then v else y.2)) ∨
       (∃ v a, act y = .stop v a ∧ Replaced x.st.mem.elems x'.st.mem.elems y (y.1, if Mode.wr md then v else y.2)) ∨
       (act y = .erase ∧ Removed x.st.mem.elems x'.st.mem.elems y) ∨
       (may .pred = true ∧ x.exc t = false ∧ x'.exc t = true ∧
        ∃ v, Replaced x.st.mem.elems x'.st.mem.elems y (y.1, if Mode.wr md then v else y.2)))) := by
  have hexc : ∀ {md' act' g j js r}, x.st.pc t = .swAt md' act' g (j :: js) r → x.exc t = false := by
    intro md' act' g j js r hq
    by_contra h
    have := hi.exc t (by simpa using h)
    rw [hq] at this; cases this
  cases h with
  | base h _ =>
    obtain ⟨h1, h2 | ⟨y, h2, h3⟩⟩ := StepBy.sweeping hi.inv hw h hd hp
    · exact ⟨h1, .inl h2⟩
    · refine ⟨h1, .inr ⟨y, h2, ?_⟩⟩
      rcases h3 with h3 | h3 | h3
      · exact .inl h3
      · exact .inr (.inl h3)
      · exact .inr (.inr (.inl h3))
  | @throw m' p' h =>
    simp only [State.set_pc, upd_self, State.set_mem]
    generalize hq : x.st.pc t = p at h hp hd hexc
    cases h with
    | pass md' act' g j js r y v hm hy =>
      obtain ⟨rfl, rfl⟩ := hp
      exact ⟨trivial, .inr ⟨y, ⟨_, _, _, _, _, _, hq, hy⟩, .inr (.inr (.inr ⟨hm, hexc rfl, by simp, v,
        elems_call hi.inv.shape hi.inv.law hy⟩))⟩⟩
    | _ => exact absurd hp id
  | @alone m' p' ho h =>
    generalize hq : x.st.pc t = p at h hp
    cases h <;> exact absurd hp id
  | unwound h1 h2 => rw [h2] at hp; exact absurd hp id

theorem XRun.sweeping {may : Call → Bool} {mv : Bool} {cfg : Cfg} {σ : Nat → XState K V} {who : Nat → Nat} {n : Nat}
    (hr : XRun may mv cfg σ who n) (h0 : XInv (σ 0)) {t : Nat} {md : Mode} {act : K × V → Verdict V}
    (hs : (σ 0).st.pc t = .start (.sweep md act)) (hd : ∀ i < n, ∀ r, (σ i).st.pc t ≠ .done r) :
    ∀ i ≤ n, ((σ i).st.pc t).sweeping act md := by
  intro i
  induction i with
  | zero => intro _; rw [hs]; exact ⟨rfl, rfl⟩
  | succ i ih =>
    intro hi
    have hin : i < n := by omega
    by_cases hu : who i = t
    · have := hr.step i hin
      rw [hu] at this
      exact (this.sweeping (hr.inv h0 i (by omega)).1 (hr.nowrap i hin) (hd i hin) (ih (by omega))).1
    · rw [((hr.step i hin).other (fun h => hu h.symm)).1]
      exact ih (by omega)

end Conc.Exc

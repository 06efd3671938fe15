/-
Whole-table passes over a concurrent table while other threads work on it. Lemmas only; the model is `Verif.Conc.Table`.
-/
import Verif.Conc.TabLin

namespace Conc.Tab
open Foa SpecT
open Conc.Locking (Mode)

variable {K V : Type}

/-- At state `s`, the next step of thread `t` passes the element `y` to the callback of its whole-table pass. -/
def Passes (s : State K V) (t : Nat) (y : K × V) : Prop :=
  ∃ m act g j js r, s.pc t = .swAt m act g (j :: js) r ∧ s.mem.slot g j = some y

/-- A key that stays present stays in its slot while some thread is inside the shared section. -/
theorem stays {cfg : Cfg} {s s' : State K V} (hi : SInv s) (hw : NoWrap s) {u t : Nat} (h : StepBy cfg u s s')
    (ht : (s.pc t).inside = true) {x : K} {g j : Nat} {y : K × V} (hy : s.mem.slot g j = some y)
    (he : s.mem.tab.fns.eq x y.1 = true) (hp : Present s.mem.tab.fns.eq s'.mem.elems x) :
    ∃ y', s'.mem.slot g j = some y' ∧ y'.1 = y.1 := by
  cases h with
  | quiet h => exact ⟨y, hy, rfl⟩
  | alone ho h => rw [ho t] at ht; cases ht
  | @eff m' pc' h =>
    obtain ⟨z, ⟨i, l, hz⟩, hez⟩ := hp
    change m'.slot i l = some z at hz
    rcases h.keys x with hk | ⟨md, w, f2, f1, c, pb, l', hq, hew, hc, _⟩
    · obtain ⟨w, hw1, hw2⟩ := hk i l z hz hez
      have hyz : s.mem.tab.fns.eq w.1 y.1 = true := by
        rw [hw2]
        exact hi.law.trans _ _ _ (hi.law.symm _ _ hez) he
      obtain ⟨rfl, rfl⟩ := (hi.shape.live hy).2.uniq _ _ _ _ _ _ hw1 hy hyz
      have hwy : w = y := by
        have : s.mem.slot i l = some w := hw1
        rw [hy] at this; cases this; rfl
      subst hwy
      exact ⟨z, hz, hw2.symm⟩
    · have h1 := hi.noKey hw hq hc g j y hy
      have h2 := hi.law.trans _ _ _ (hi.law.symm _ _ hew) he
      change s.mem.tab.fns.eq w.1 y.1 = false at h1
      rw [h1] at h2
      cases h2

/-- Where a pass stands relative to slot `(g0,j0)`: `b` iff it has been passed. -/
def SwPos (act : K × V → Verdict V) (md : Mode) (g0 j0 : Nat) : Pc K V → Bool → Prop
  | .start (.sweep md' act'), b => md' = md ∧ act' = act ∧ b = false
  | .swLock md' act' g _, b => md' = md ∧ act' = act ∧ (b = true ↔ g0 < g)
  | .swAt md' act' g js _, b => md' = md ∧ act' = act ∧ (b = true ↔ g0 < g ∨ (g0 = g ∧ j0 ∉ js))
  | .eraseReset g _ _ (some (act', js, _)), b => md = .excl ∧ act' = act ∧ (b = true ↔ g0 < g ∨ (g0 = g ∧ j0 ∉ js))
  | .eraseSize g _ (some (act', js, _)), b => md = .excl ∧ act' = act ∧ (b = true ↔ g0 < g ∨ (g0 = g ∧ j0 ∉ js))
  | .leave _, b | .done _, b => b = true
  | _, _ => False

theorem mask_eq (a : Arrays K V) : a.mask = 2 ^ a.k - 1 := rfl

/-- One step of the pass itself. -/
theorem sw_step {cfg : Cfg} {s s' : State K V} (hi : SInv s) (hw : NoWrap s) {t : Nat} (h : StepBy cfg t s s')
    {act : K × V → Verdict V} {md : Mode} (hns : ∀ y v a, Passes s t y → act y ≠ .stop v a) {g0 j0 : Nat} {y : K × V}
    (hy : s.mem.slot g0 j0 = some y) (hd : ∀ r, s.pc t ≠ .done r) {b : Bool} (hp : SwPos act md g0 j0 (s.pc t) b) :
    (∃ m' act' js r, s.pc t = .swAt m' act' g0 (j0 :: js) r ∧ b = false ∧ SwPos act md g0 j0 (s'.pc t) true) ∨
    ((∀ m' act' js r, s.pc t ≠ .swAt m' act' g0 (j0 :: js) r) ∧ SwPos act md g0 j0 (s'.pc t) b) := by
  have hlive := hi.shape.live hy
  have hval := hlive.2.valid hy
  have hvk : g0 < 2 ^ s.mem.tab.arr.k := hval.1
  have hi' := hi.step hw h
  have hb := pcOk_not_bad (hi'.pcs t)
  have hocc : j0 ∈ reallyOcc s.mem g0 := by
    have hmd := hlive.2.md hy
    simp only [reallyOcc, List.mem_filter, List.mem_range, N]
    refine ⟨hval.2.1, ?_⟩
    have h2 := rhash_ge_two (s.mem.tab.fns.hash y.1)
    have h3 : (s.mem.grp g0).md j0 ≠ 0 := by
      show (s.mem.tab.arr.grp g0).md j0 ≠ 0
      omega
    have h4 := hval.2.2
    simp only [Bool.and_eq_true, bne_iff_ne, ne_eq, h3, not_false_eq_true, Bool.not_eq_true', Bool.and_eq_false_iff,
      decide_eq_false_iff_not, mask_eq, true_and]
    by_cases hg : g0 = 2 ^ s.mem.tab.arr.k - 1
    · exact .inr (fun hj => h4 ⟨hg, hj⟩)
    · exact .inl (decide_eq_false hg)
  cases h with
  | @quiet pc' h =>
    rw [State.set_pc, upd_self] at hb ⊢
    have hpc := hi.pcs t
    generalize hq : s.pc t = p at h hp hpc hd
    cases h with
    | sweepNone md' act' he => rw [hlive.1] at he; cases he
    | sweep md' act' he =>
      obtain ⟨rfl, rfl, rfl⟩ := hp
      exact .inr ⟨(fun _ _ _ _ h => by cases h), rfl, rfl, by simp⟩
    | swLockS act' g r hc =>
      obtain ⟨rfl, rfl, hb⟩ := hp
      refine .inr ⟨(fun _ _ _ _ h => by cases h), rfl, rfl, hb.trans ?_⟩
      constructor
      · exact .inl
      · rintro (h | ⟨rfl, h⟩)
        · exact h
        · exact absurd hocc h
    | swLockX act' g r hc =>
      obtain ⟨rfl, rfl, hb⟩ := hp
      refine .inr ⟨(fun _ _ _ _ h => by cases h), rfl, rfl, hb.trans ?_⟩
      constructor
      · exact .inl
      · rintro (h | ⟨rfl, h⟩)
        · exact h
        · exact absurd hocc h
    | swEnd md' act' g r =>
      obtain ⟨rfl, rfl, hb⟩ := hp
      refine .inr ⟨(fun _ _ _ _ h => by cases h), ?_⟩
      split
      · refine ⟨rfl, rfl, hb.trans ?_⟩
        simp only [List.not_mem_nil, not_false_eq_true, and_true]
        omega
      · rename_i hm
        rw [mask_eq] at hm
        show b = true
        rw [hb]
        simp only [List.not_mem_nil, not_false_eq_true, and_true]
        omega
    | leave r => exact .inr ⟨fun _ _ _ _ h => by (cases h), hp⟩
    | callAgain r o => exact absurd rfl (hd r)
    | swBad md' act' g j js r hn => exact absurd rfl hb
    | _ => exact absurd hp id
  | @eff m' pc' h =>
    rw [State.set_pc, upd_self] at hb ⊢
    have hpc := hi.pcs t
    generalize hq : s.pc t = p at h hp hpc hd
    have hat : ∀ {md' : Mode} {act' : K × V → Verdict V} {g j : Nat} {js : List Nat} {r : Nat},
        p = .swAt md' act' g (j :: js) r → ¬ (g = g0 ∧ j = j0) → (b = true ↔ g0 < g ∨ (g0 = g ∧ j0 ∉ j :: js)) →
        (b = true ↔ g0 < g ∨ (g0 = g ∧ j0 ∉ js)) := by
      intro md' act' g j js r _ hne hb
      rw [hb]
      simp only [List.mem_cons, not_or]
      constructor
      · rintro (h | ⟨h1, h2, h3⟩)
        · exact .inl h
        · exact .inr ⟨h1, h3⟩
      · rintro (h | ⟨h1, h2⟩)
        · exact .inl h
        · exact .inr ⟨h1, fun h => hne ⟨h1.symm, h.symm⟩, h2⟩
    have hat2 : ∀ {md' : Mode} {act' : K × V → Verdict V} {js : List Nat} {r : Nat},
        PcOk s.mem (Pc.swAt md' act' g0 (j0 :: js) r) → j0 ∉ js := by
      intro md' act' js r hpc
      exact (List.nodup_cons.1 hpc.2.2.1).1
    cases h with
    | swGo md' act' g j js r z v add hz hv =>
      obtain ⟨rfl, rfl, hb⟩ := hp
      by_cases hc : g = g0 ∧ j = j0
      · obtain ⟨rfl, rfl⟩ := hc
        refine .inl ⟨_, _, _, _, rfl, ?_, rfl, rfl, ?_⟩
        · rw [← Bool.not_eq_true, hb]; simp
        · simp [hat2 hpc]
      · refine .inr ⟨fun _ _ _ _ h => by (cases h; exact hc ⟨rfl, rfl⟩), rfl, rfl, hat rfl hc hb⟩
    | swStop md' act' g j js r z v ad hz hv =>
      obtain ⟨rfl, rfl, hb⟩ := hp
      exact absurd hv (hns _ _ _ ⟨_, _, _, _, _, _, hq, hz⟩)
    | swErase act' g j js r z hz hv hdr =>
      obtain ⟨rfl, rfl, hb⟩ := hp
      by_cases hc : g = g0 ∧ j = j0
      · obtain ⟨rfl, rfl⟩ := hc
        refine .inl ⟨_, _, _, _, rfl, ?_, rfl, rfl, ?_⟩
        · rw [← Bool.not_eq_true, hb]; simp
        · simp [hat2 hpc]
      · refine .inr ⟨fun _ _ _ _ h => by (cases h; exact hc ⟨rfl, rfl⟩), rfl, rfl, hat rfl hc hb⟩
    | swEraseWrap act' g j js r z hz hv hdr => exact absurd rfl hb
    | eraseReset g j d cont =>
      cases cont with
      | none => exact absurd hp id
      | some q => exact .inr ⟨fun _ _ _ _ h => by (cases h), hp⟩
    | eraseSizeMore g d act' js r h1 =>
      obtain ⟨rfl, rfl, hb⟩ := hp
      exact .inr ⟨fun _ _ _ _ h => by (cases h), rfl, rfl, hb⟩
    | eraseSizeWrap g d cont _ => exact absurd rfl hb
    | _ => exact absurd hp id
  | @alone m' pc' hout h =>
    generalize hq : s.pc t = p at h hp hd
    cases h <;> exact absurd hp id

theorem missPc_start {o : KOp K V} {c : Nat} {o' : Op K V} : missPc o c ≠ .start o' := by
  simp only [missPc]; split <;> exact fun h => by cases h

theorem Quiet.to_start {m : Mem K V} {S X : Nat → Prop} {p p' : Pc K V} (h : Quiet m S X p p') {o : Op K V}
    (hp : p' = .start o) : p = .idle ∨ ∃ r, p = .done r := by
  cases h with
  | call _ => exact .inl rfl
  | callAgain r _ => exact .inr ⟨r, rfl⟩
  | enter o => simp only [enterPc] at hp; split at hp <;> cases hp
  | overEnd o c pb h => exact absurd hp missPc_start
  | overNext o c pb h =>
    split at hp
    · cases hp
    · exact absurd hp missPc_start
  | swEnd md act g r => split at hp <;> cases hp
  | _ => cases hp

theorem Eff.to_start {m m' : Mem K V} {p p' : Pc K V} (h : Eff m p m' p') {o : Op K V} (hp : p' = .start o) : False := by
  cases h <;> cases hp

/-- Thread `t` passes an element with a key equivalent to `x` to its callback in step `l`. -/
def Vis (σ : Nat → State K V) (who : Nat → Nat) (t : Nat) (x : K) (l : Nat) : Prop :=
  who l = t ∧ ∃ y, Passes (σ l) t y ∧ (σ 0).mem.tab.fns.eq x y.1 = true

theorem swPos_inside {act : K × V → Verdict V} {md : Mode} {g0 j0 : Nat} {p : Pc K V} {b : Bool}
    (h : SwPos act md g0 j0 p b) (hs : ∀ o, p ≠ .start o) (hd : ∀ r, p ≠ .done r) : p.inside = true := by
  cases p with
  | start o => exact absurd rfl (hs o)
  | done r => exact absurd rfl (hd r)
  | _ => first | rfl | exact absurd h id

/-- A pass of thread `t` in any run in which the steps of `t` are steps of the model and the other threads do not move elements. -/
theorem sweep_gen {cfg : Cfg} {σ : Nat → State K V} {who : Nat → Nat} {n : Nat} {t : Nat}
    (hI : ∀ i ≤ n, SInv (σ i)) (hF : ∀ i ≤ n, (σ i).mem.tab.fns = (σ 0).mem.tab.fns) (hW : ∀ i < n, NoWrap (σ i))
    (hown : ∀ i < n, who i = t → StepBy cfg t (σ i) (σ (i + 1)))
    (hoth : ∀ i < n, who i ≠ t → (σ (i + 1)).pc t = (σ i).pc t)
    (hst : ∀ i < n, who i ≠ t → ((σ i).pc t).inside = true → ∀ {x : K} {g j : Nat} {y : K × V}, (σ i).mem.slot g j = some y →
      (σ i).mem.tab.fns.eq x y.1 = true → Present (σ i).mem.tab.fns.eq (σ (i + 1)).mem.elems x →
      ∃ y', (σ (i + 1)).mem.slot g j = some y' ∧ y'.1 = y.1)
    {md : Mode} {act : K × V → Verdict V} (hns : ∀ i < n, who i = t → ∀ y v a, Passes (σ i) t y → act y ≠ .stop v a)
    (hs : (σ 0).pc t = .start (.sweep md act)) (hd : ∀ i < n, ∀ r, (σ i).pc t ≠ .done r) {x : K}
    (hx : ∀ i ≤ n, Present (σ 0).mem.tab.fns.eq (σ i).mem.elems x) :
    ∀ i ≤ n,
      ((σ i).pc t = .start (.sweep md act) ∧ ∀ l < i, ¬ Vis σ who t x l) ∨
      ((∀ o, (σ i).pc t ≠ .start o) ∧ ∃ g0 j0 y b, (σ i).mem.slot g0 j0 = some y ∧ (σ 0).mem.tab.fns.eq x y.1 = true ∧
        SwPos act md g0 j0 ((σ i).pc t) b ∧ (b = false → ∀ l < i, ¬ Vis σ who t x l) ∧
        (b = true → ∃ l < i, Vis σ who t x l ∧ ∀ l' < i, Vis σ who t x l' → l' = l)) := by
  intro i
  induction i with
  | zero => intro _; exact .inl ⟨hs, fun l hl => absurd hl (Nat.not_lt_zero _)⟩
  | succ i ih =>
    intro hi
    have hin : i < n := by omega
    have hinv := hI i (by omega)
    have hw := hW i hin
    have hfn := hF i (by omega)
    have hfn' := hF (i + 1) (by omega)
    by_cases hu : who i = t
    · have hstep := hown i hin hu
      rcases ih (by omega) with ⟨h1, h2⟩ | ⟨h1, g0, j0, y, b, h2, h3, h4, h5, h6⟩
      · -- the pass begins
        right
        obtain ⟨y, ⟨g0, j0, hy⟩, he⟩ := hx i (by omega)
        have hnv : ¬ Vis σ who t x i := by
          rintro ⟨_, z, ⟨_, _, _, _, _, _, hq, _⟩, _⟩
          rw [h1] at hq; cases hq
        have hall : ∀ l < i + 1, ¬ Vis σ who t x l := by
          intro l hl
          rcases Nat.lt_succ_iff_lt_or_eq.1 hl with hl | rfl
          · exact h2 l hl
          · exact hnv
        rcases sw_step hinv hw hstep (hns i hin hu) hy (hd i hin) (b := false) (md := md) (by rw [h1]; exact ⟨rfl, rfl, rfl⟩) with
          ⟨_, _, _, _, hq, _⟩ | ⟨_, hpos⟩
        · rw [h1] at hq; cases hq
        · have hmem : (σ (i + 1)).mem = (σ i).mem ∧ ∀ o, (σ (i + 1)).pc t ≠ .start o := by
            generalize σ (i + 1) = s1 at hstep
            cases hstep with
            | @quiet pc' h =>
              rw [State.set_pc, upd_self, State.set_mem]
              rw [h1] at h
              refine ⟨rfl, fun o ho => ?_⟩
              cases h <;> cases ho
            | @eff m' pc' h => rw [h1] at h; cases h
            | @alone m' pc' ho h => rw [h1] at h; cases h
          refine ⟨hmem.2, g0, j0, y, false, by rw [hmem.1]; exact hy, he, hpos, fun _ => hall, fun h => by cases h⟩
      · right
        have hins := swPos_inside h4 h1 (hd i hin)
        obtain ⟨y', hy', hye⟩ := stays hinv hw hstep hins h2 (by rw [hfn]; exact h3) (by rw [hfn]; exact hx (i + 1) hi)
        have hns' : ∀ o, (σ (i + 1)).pc t ≠ .start o := by
          intro o ho
          generalize σ (i + 1) = s1 at hstep ho
          cases hstep with
          | @quiet pc' h =>
            rw [State.set_pc, upd_self] at ho
            rcases h.to_start ho with hq | ⟨r, hq⟩
            · rw [hq] at h4; exact absurd h4 id
            · exact hd i hin r hq
          | @eff m' pc' h =>
            rw [State.set_pc, upd_self] at ho
            exact h.to_start ho
          | @alone m' pc' hout h => rw [hout t] at hins; cases hins
        rcases sw_step hinv hw hstep (hns i hin hu) h2 (hd i hin) h4 with ⟨m', act', js, r, hq, hb, hpos⟩ | ⟨hno, hpos⟩
        · refine ⟨hns', g0, j0, y', true, hy', by rw [hye]; exact h3, hpos, (fun h => by cases h), fun _ => ?_⟩
          refine ⟨i, by omega, ⟨hu, y, ⟨_, _, _, _, _, _, hq, h2⟩, h3⟩, fun l' hl' hv => ?_⟩
          rcases Nat.lt_succ_iff_lt_or_eq.1 hl' with hl' | rfl
          · exact absurd hv (h5 hb l' hl')
          · rfl
        · have hnv : ¬ Vis σ who t x i := by
            rintro ⟨_, z, ⟨m', act', g, j, js, r, hq, hz⟩, he⟩
            have heq : (σ 0).mem.tab.fns.eq z.1 y.1 = true := by
              have := hinv.law
              rw [hfn] at this
              exact this.trans _ _ _ (this.symm _ _ he) h3
            obtain ⟨rfl, rfl⟩ := (hinv.shape.live h2).2.uniq _ _ _ _ _ _ hz h2 (by rw [hfn]; exact heq)
            exact hno _ _ _ _ hq
          refine ⟨hns', g0, j0, y', b, hy', by rw [hye]; exact h3, hpos, fun hb l hl => ?_, fun hb => ?_⟩
          · rcases Nat.lt_succ_iff_lt_or_eq.1 hl with hl | rfl
            · exact h5 hb l hl
            · exact hnv
          · obtain ⟨l, hl, hv, hun⟩ := h6 hb
            refine ⟨l, by omega, hv, fun l' hl' hv' => ?_⟩
            rcases Nat.lt_succ_iff_lt_or_eq.1 hl' with hl' | rfl
            · exact hun l' hl' hv'
            · exact absurd hv' hnv
    · have hpc : (σ (i + 1)).pc t = (σ i).pc t := hoth i hin hu
      have hnv : ¬ Vis σ who t x i := fun h => hu h.1
      rcases ih (by omega) with ⟨h1, h2⟩ | ⟨h1, g0, j0, y, b, h2, h3, h4, h5, h6⟩
      · left
        refine ⟨by rw [hpc]; exact h1, fun l hl => ?_⟩
        rcases Nat.lt_succ_iff_lt_or_eq.1 hl with hl | rfl
        · exact h2 l hl
        · exact hnv
      · right
        have hins := swPos_inside h4 h1 (hd i hin)
        obtain ⟨y', hy', hye⟩ := hst i hin hu hins h2 (by rw [hfn]; exact h3) (by rw [hfn]; exact hx (i + 1) hi)
        rw [hpc]
        refine ⟨h1, g0, j0, y', b, hy', by rw [hye]; exact h3, h4, fun hb l hl => ?_, fun hb => ?_⟩
        · rcases Nat.lt_succ_iff_lt_or_eq.1 hl with hl | rfl
          · exact h5 hb l hl
          · exact hnv
        · obtain ⟨l, hl, hv, hun⟩ := h6 hb
          refine ⟨l, by omega, hv, fun l' hl' hv' => ?_⟩
          rcases Nat.lt_succ_iff_lt_or_eq.1 hl' with hl' | rfl
          · exact hun l' hl' hv'
          · exact absurd hv' hnv

theorem sweep_run {cfg : Cfg} {σ : Nat → State K V} {who : Nat → Nat} {n : Nat} (hr : Run cfg σ who n) (h0 : SInv (σ 0))
    {t : Nat} {md : Mode} {act : K × V → Verdict V}
    (hns : ∀ i < n, who i = t → ∀ y v a, Passes (σ i) t y → act y ≠ .stop v a)
    (hs : (σ 0).pc t = .start (.sweep md act)) (hd : ∀ i < n, ∀ r, (σ i).pc t ≠ .done r) {x : K}
    (hx : ∀ i ≤ n, Present (σ 0).mem.tab.fns.eq (σ i).mem.elems x) :
    ∀ i ≤ n,
      ((σ i).pc t = .start (.sweep md act) ∧ ∀ l < i, ¬ Vis σ who t x l) ∨
      ((∀ o, (σ i).pc t ≠ .start o) ∧ ∃ g0 j0 y b, (σ i).mem.slot g0 j0 = some y ∧ (σ 0).mem.tab.fns.eq x y.1 = true ∧
        SwPos act md g0 j0 ((σ i).pc t) b ∧ (b = false → ∀ l < i, ¬ Vis σ who t x l) ∧
        (b = true → ∃ l < i, Vis σ who t x l ∧ ∀ l' < i, Vis σ who t x l' → l' = l)) :=
  sweep_gen (cfg := cfg) (fun i hi => hr.inv h0 i hi) (fun i hi => hr.fns h0 i hi) hr.nowrap (fun i hi hu => hu ▸ hr.step i hi)
    (fun i hi hu => (hr.step i hi).other (fun h => hu h.symm))
    (fun i hi _ hins _ _ _ _ hy he hp => stays (hr.inv h0 i (by omega)) (hr.nowrap i hi) (hr.step i hi) hins hy he hp) hns hs hd hx

/-! ### effect of a pass -/

/-- The thread is in a whole-table pass with this callback. -/
def Pc.sweeping (act : K × V → Verdict V) (md : Mode) : Pc K V → Prop
  | .start (.sweep md' act') | .swLock md' act' _ _ | .swAt md' act' _ _ _ => md' = md ∧ act' = act
  | .eraseReset _ _ _ (some (act', _, _)) | .eraseSize _ _ (some (act', _, _)) => md = .excl ∧ act' = act
  | .unlock _ _ _ | .leave _ | .done _ => True
  | _ => False

theorem StepBy.sweeping {cfg : Cfg} {s s' : State K V} (hi : SInv s) (hw : NoWrap s) {t : Nat} (h : StepBy cfg t s s')
    {act : K × V → Verdict V} {md : Mode} (hd : ∀ r, s.pc t ≠ .done r) (hp : (s.pc t).sweeping act md) :
    (s'.pc t).sweeping act md ∧
    ((Same s.mem.elems s'.mem.elems ∧ ∀ y, ¬ Passes s t y) ∨
     ∃ y, Passes s t y ∧ ((∃ v a, act y = .go v a ∧ Replaced s.mem.elems s'.mem.elems y (y.1, if Mode.wr md then v else y.2)) ∨
       (∃ v a, act y = .stop v a ∧ Replaced s.mem.elems s'.mem.elems y (y.1, if Mode.wr md then v else y.2)) ∨
       (act y = .erase ∧ Removed s.mem.elems s'.mem.elems y))) := by
  have hi' := hi.step hw h
  have hb := pcOk_not_bad (hi'.pcs t)
  cases h with
  | @quiet pc' h =>
    rw [State.set_pc, upd_self] at hb ⊢
    rw [State.set_mem]
    have hpp : ∀ y, ¬ Passes s t y := by
      rintro y ⟨m', act', g, j, js, r, hq, hy⟩
      rw [hq] at h
      cases h with
      | swBad _ _ _ _ _ _ hn => exact hb rfl
    generalize hq : s.pc t = p at h hp hd
    have : pc'.sweeping act md := by
      cases h with
      | sweepNone md' act' he => trivial
      | sweep md' act' he => exact hp
      | swLockS act' g r hc => exact hp
      | swLockX act' g r hc => exact hp
      | swEnd md' act' g r =>
        split
        · exact hp
        · trivial
      | unlock _ _ _ => trivial
      | leave r => trivial
      | callAgain r o => exact absurd rfl (hd r)
      | swBad md' act' g j js r hn => exact absurd rfl hb
      | _ => exact absurd hp id
    exact ⟨this, .inl ⟨Same.rfl' _, hpp⟩⟩
  | @eff m' pc' h =>
    rw [State.set_pc, upd_self] at hb ⊢
    rw [State.set_mem]
    have hpc := hi.pcs t
    have hnp : (∀ m' act' g j js r, s.pc t ≠ .swAt m' act' g (j :: js) r) → ∀ y, ¬ Passes s t y := by
      rintro hne y ⟨m', act', g, j, js, r, hq, hy⟩
      exact hne _ _ _ _ _ _ hq
    generalize hq : s.pc t = p at h hp hpc hd hnp
    cases h with
    | swGo md' act' g j js r z v add hz hv =>
      obtain ⟨rfl, rfl⟩ := hp
      exact ⟨⟨rfl, rfl⟩, .inr ⟨z, ⟨_, _, _, _, _, _, hq, hz⟩, .inl ⟨v, add, hv, elems_call hi.shape hi.law hz⟩⟩⟩
    | swStop md' act' g j js r z v ad hz hv =>
      obtain ⟨rfl, rfl⟩ := hp
      exact ⟨trivial, .inr ⟨z, ⟨_, _, _, _, _, _, hq, hz⟩, .inr (.inl ⟨v, ad, hv, elems_call hi.shape hi.law hz⟩)⟩⟩
    | swErase act' g j js r z hz hv hdr =>
      obtain ⟨rfl, rfl⟩ := hp
      exact ⟨⟨rfl, rfl⟩, .inr ⟨z, ⟨_, _, _, _, _, _, hq, hz⟩, .inr (.inr ⟨hv, elems_take hi.shape hi.law hz⟩)⟩⟩
    | swEraseWrap act' g j js r z hz hv hdr => exact absurd rfl hb
    | eraseReset g j d cont =>
      cases cont with
      | none => exact absurd hp id
      | some q => exact ⟨hp, .inl ⟨Same.rfl' _, hnp fun _ _ _ _ _ _ h => by cases h⟩⟩
    | eraseSizeMore g d act' js r h1 =>
      obtain ⟨rfl, rfl⟩ := hp
      exact ⟨⟨rfl, rfl⟩, .inl ⟨Same.rfl' _, hnp fun _ _ _ _ _ _ h => by cases h⟩⟩
    | eraseSizeWrap g d cont _ => exact absurd rfl hb
    | _ => exact absurd hp id
  | @alone m' pc' hout h =>
    generalize hq : s.pc t = p at h hp hd
    cases h <;> exact absurd hp id

theorem Run.sweeping {cfg : Cfg} {σ : Nat → State K V} {who : Nat → Nat} {n : Nat} (hr : Run cfg σ who n) (h0 : SInv (σ 0))
    {t : Nat} {md : Mode} {act : K × V → Verdict V} (hs : (σ 0).pc t = .start (.sweep md act))
    (hd : ∀ i < n, ∀ r, (σ i).pc t ≠ .done r) : ∀ i ≤ n, ((σ i).pc t).sweeping act md := by
  intro i
  induction i with
  | zero => intro _; rw [hs]; exact ⟨rfl, rfl⟩
  | succ i ih =>
    intro hi
    have hin : i < n := by omega
    by_cases hu : who i = t
    · exact ((hu ▸ hr.step i hin).sweeping (hr.inv h0 i (by omega)) (hr.nowrap i hin) (hd i hin) (ih (by omega))).1
    · rw [(hr.step i hin).other (fun h => hu h.symm)]
      exact ih (by omega)

/-! ### the answer of a pass -/

/-- What the next step of thread `t` adds to the answer of its pass. -/
def adds (s : State K V) (t : Nat) : Nat :=
  match s.pc t with
  | .swAt _ act g (j :: _) _ => match s.mem.slot g j with
    | some y => match act y with
      | .go _ n => n
      | .stop _ n => n
      | .erase => 1
    | none => 0
  | _ => 0

/-- The answer so far. -/
def Pc.sofar : Pc K V → Nat
  | .swLock _ _ _ r | .swAt _ _ _ _ r | .unlock _ _ r | .leave r | .done r => r
  | .eraseReset _ _ _ (some (_, _, r)) | .eraseSize _ _ (some (_, _, r)) => r + 1
  | _ => 0

theorem StepBy.sofar {cfg : Cfg} {s s' : State K V} (hi : SInv s) (hw : NoWrap s) {t : Nat} (h : StepBy cfg t s s')
    {act : K × V → Verdict V} {md : Mode} (hd : ∀ r, s.pc t ≠ .done r) (hp : (s.pc t).sweeping act md) :
    (s'.pc t).sofar = (s.pc t).sofar + adds s t := by
  have hi' := hi.step hw h
  have hb := pcOk_not_bad (hi'.pcs t)
  cases h with
  | @quiet pc' h =>
    rw [State.set_pc, upd_self] at hb ⊢
    have ha : adds s t = 0 := by
      unfold adds
      split
      · rename_i hq
        rw [hq] at h
        cases h with
        | swBad _ _ _ _ _ _ hn => exact absurd rfl hb
      · rfl
    rw [ha]
    generalize hq : s.pc t = p at h hp hd
    cases h with
    | sweepNone md' act' he => rfl
    | sweep md' act' he => rfl
    | swLockS act' g r hc => rfl
    | swLockX act' g r hc => rfl
    | swEnd md' act' g r => split <;> rfl
    | unlock _ _ _ => rfl
    | leave r => rfl
    | callAgain r o => exact absurd rfl (hd r)
    | swBad md' act' g j js r hn => exact absurd rfl hb
    | _ => exact absurd hp id
  | @eff m' pc' h =>
    rw [State.set_pc, upd_self] at hb ⊢
    unfold adds
    generalize hq : s.pc t = p at h hp hd
    cases h with
    | swGo md' act' g j js r z v add hz hv => simp only [hz, hv]; rfl
    | swStop md' act' g j js r z v ad hz hv => simp only [hz, hv]; rfl
    | swErase act' g j js r z hz hv hdr => simp only [hz, hv]; rfl
    | swEraseWrap act' g j js r z hz hv hdr => exact absurd rfl hb
    | eraseReset g j d cont =>
      cases cont with
      | none => exact absurd hp id
      | some q => rfl
    | eraseSizeMore g d act' js r h1 => rfl
    | eraseSizeWrap g d cont _ => exact absurd rfl hb
    | _ => exact absurd hp id
  | @alone m' pc' hout h =>
    generalize hq : s.pc t = p at h hp hd
    cases h <;> exact absurd hp id

theorem Run.sofar {cfg : Cfg} {σ : Nat → State K V} {who : Nat → Nat} {n : Nat} (hr : Run cfg σ who n) (h0 : SInv (σ 0))
    {t : Nat} {md : Mode} {act : K × V → Verdict V} (hs : (σ 0).pc t = .start (.sweep md act))
    (hd : ∀ i < n, ∀ r, (σ i).pc t ≠ .done r) : ∀ i ≤ n,
    ((σ i).pc t).sofar = ((List.range i).map fun l => if who l = t then adds (σ l) t else 0).sum := by
  intro i
  induction i with
  | zero => intro _; rw [hs]; rfl
  | succ i ih =>
    intro hi
    have hin : i < n := by omega
    rw [List.range_succ, List.map_append, List.sum_append, ← ih (by omega)]
    by_cases hu : who i = t
    · have := (hu ▸ hr.step i hin).sofar (hr.inv h0 i (by omega)) (hr.nowrap i hin) (hd i hin)
        (hr.sweeping h0 hs hd i (by omega))
      simp [hu, this]
    · rw [(hr.step i hin).other (fun h => hu h.symm)]
      simp [hu]

end Conc.Tab

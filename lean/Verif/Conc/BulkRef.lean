/-
Bulk visits: every search of a bulk visit is a thread of the model of `visit`. The proof obligations of bulk visitation are
reduced to those of single visits.
-/
import Verif.Conc.Bulk
import Verif.Conc.TabSolo
import Mathlib.Data.Nat.Pairing

namespace Conc.Tab
open Foa
open Conc.Locking (Mode)

variable {K V : Type}

/-! ### what the searches look like -/

def KOp.isVisit : KOp K V → Bool
  | .visit _ _ _ => true
  | _ => false

/-- A state of a search. -/
def Pc.srch : Pc K V → Bool
  | .idle | .done _ | .unlock _ _ _ | .leave _ | .bad => true
  | .start (.key o) | .scan o _ _ _ _ | .lock o _ _ _ | .check o _ _ _ | .over o _ _ | .hit o _ _ => o.isVisit
  | _ => false

/-- Reading metadata. -/
def Pc.isScan : Pc K V → Bool
  | .scan o _ _ _ _ => o.isVisit
  | _ => false

theorem isVisit_not_insert {o : KOp K V} (h : o.isVisit = true) : o.isInsert = false := by
  cases o <;> first | rfl | cases h

theorem Pc.rest_outside {p : Pc K V} (h : p.rest = true) : p.inside = false ∧ p.locks = none ∧ p.srch = true := by
  cases p <;> first | (cases h; done) | exact ⟨rfl, rfl, rfl⟩

theorem Pc.isScan_locks {p : Pc K V} (h : p.isScan = true) : p.locks = none ∧ p.srch = true ∧ p.rest = false := by
  cases p <;> first | (cases h; done) | exact ⟨rfl, h, rfl⟩

theorem Quiet.srch {m : Mem K V} {S X : Nat → Prop} {p p' : Pc K V} (h : Quiet m S X p p') (hp : p.srch = true)
    (hr : p.rest = false) : p'.srch = true := by
  cases h <;> first
    | (cases hr; done)
    | (cases hp; done)
    | rfl
    | exact hp
    | (simp only [enterPc, isVisit_not_insert hp]; exact hp)
    | (simp only [missPc, isVisit_not_insert hp]; rfl)
    | (split
       · exact hp
       · simp only [missPc, isVisit_not_insert hp]; rfl)

theorem Eff.srch {m m' : Mem K V} {p p' : Pc K V} (h : Eff m p m' p') (hp : p.srch = true) : p'.srch = true := by
  cases h <;> first
    | (cases hp; done)
    | rfl

/-- The searches of a thread. -/
def BTh.Ok (x : BTh K V) : Prop :=
  (∀ j, (x.v j).srch = true) ∧ (x.ctl.rest = false → x.p.rest = true) ∧
  match x.ctl with
  | .out | .ret _ | .call _ | .leave _ => ∀ j, (x.v j).rest = true
  | .hash b lo hi i _ c => hi ≤ b.ks.length ∧ lo ≤ i ∧ i ≤ hi ∧ (∀ j, lo ≤ j → j < i → (x.v j).isScan = true) ∧
      (c = true → i < hi ∧ (x.v i).inside = false ∧ (x.v i).locks = none) ∧ ∀ j, ¬ (lo ≤ j ∧ j < i) → (c = true → j ≠ i) → (x.v j).rest = true
  | .first b lo hi i _ => hi ≤ b.ks.length ∧ lo ≤ i ∧ i ≤ hi ∧ (∀ j, lo ≤ j → j < hi → (x.v j).isScan = true) ∧
      ∀ j, ¬ (lo ≤ j ∧ j < hi) → (x.v j).rest = true
  | .visit b lo hi i _ => hi ≤ b.ks.length ∧ lo ≤ i ∧ i ≤ hi ∧ (∀ j, i < j → j < hi → (x.v j).isScan = true) ∧
      ∀ j, ¬ (i ≤ j ∧ j < hi) → (x.v j).rest = true

/-- The search in hand. -/
def Ctl.cur : Ctl K V → Option Nat
  | .hash _ _ _ i _ _ | .first _ _ _ i _ | .visit _ _ _ i _ => some i
  | _ => none

/-- Only the search in hand holds locks, and the ordinary operation does only outside bulk visits. -/
theorem BTh.Ok.locks {x : BTh K V} (h : x.Ok) : (∀ j, x.ctl.cur ≠ some j → (x.v j).locks = none) ∧
    (x.ctl.rest = false → x.p.locks = none) ∧ (x.ctl.rest = true → ∀ j, (x.v j).locks = none) := by
  obtain ⟨h1, h2, h3⟩ := h
  refine ⟨?_, fun h => (Pc.rest_outside (h2 h)).2.1, ?_⟩
  · intro j hj
    generalize x.ctl = c at h3 hj
    cases c with
    | hash b lo hi i acc c =>
      obtain ⟨_, _, _, h4, h5, h6⟩ := h3
      have hj' : j ≠ i := fun e => hj (by rw [e]; rfl)
      by_cases hc : lo ≤ j ∧ j < i
      · exact (Pc.isScan_locks (h4 j hc.1 hc.2)).1
      · exact (Pc.rest_outside (h6 j hc fun _ => hj')).2.1
    | first b lo hi i acc =>
      obtain ⟨_, _, _, h4, h6⟩ := h3
      by_cases hc : lo ≤ j ∧ j < hi
      · exact (Pc.isScan_locks (h4 j hc.1 hc.2)).1
      · exact (Pc.rest_outside (h6 j hc)).2.1
    | visit b lo hi i acc =>
      obtain ⟨_, _, _, h4, h6⟩ := h3
      have hj' : j ≠ i := fun e => hj (by rw [e]; rfl)
      by_cases hc : i < j ∧ j < hi
      · exact (Pc.isScan_locks (h4 j hc.1 hc.2)).1
      · exact (Pc.rest_outside (h6 j (by omega))).2.1
    | _ => exact (Pc.rest_outside (h3 j)).2.1
  · intro h j
    generalize x.ctl = c at h3 h
    cases c <;> first | (cases h; done) | exact (Pc.rest_outside (h3 j)).2.1

theorem BTh.Ok.outside {x : BTh K V} (h : x.Ok) (ho : x.inside = false) : ∀ i, (x.v i).inside = false := by
  obtain ⟨h1, h2, h3⟩ := h
  intro j
  have hc : x.ctl.inside = false := by
    simp only [BTh.inside, Bool.or_eq_false_iff] at ho
    exact ho.2
  generalize x.ctl = c at h3 hc
  cases c <;> first | (cases hc; done) | exact (Pc.rest_outside (h3 j)).1

theorem chunk_le (n : Nat) : chunk n ≤ n := by unfold chunk; split <;> omega

theorem nextChunk_ok {x : BTh K V} {b : BOp K V} {lo acc : Nat} (hs : ∀ j, (x.v j).srch = true) (hp : x.p.rest = true)
    (hr : ∀ j, (x.v j).rest = true) (hlo : lo ≤ b.ks.length) : (x.setCtl (nextChunk b lo acc)).Ok := by
  have := chunk_le (b.ks.length - lo)
  unfold nextChunk
  split
  · exact ⟨hs, fun _ => hp, hr⟩
  · exact ⟨hs, fun _ => hp, by omega, le_rfl, by omega, fun j h1 h2 => by omega, (by simp), fun j _ _ => hr j⟩

theorem BStep.ok {m m' : Mem K V} {S X : Nat → Prop} {x x' : BTh K V} (h : BStep m S X x m' x') (hx : x.Ok) : x'.Ok := by
  obtain ⟨h1, h2, h3⟩ := hx
  cases h with
  | call b hp hc =>
    refine ⟨h1, fun _ => hp, ?_⟩
    generalize x.ctl = c at h3 hc
    cases c <;> first | (cases hc; done) | exact h3
  | enter b hc =>
    rw [hc] at h2 h3
    exact nextChunk_ok h1 (h2 rfl) h3 (Nat.zero_le _)
  | hashKey b lo hi i acc k hc hi' hk =>
    rw [hc] at h2 h3
    obtain ⟨h4, h5, h6, h7, h8, h9⟩ := h3
    refine ⟨fun j => ?_, fun _ => h2 rfl, h4, h5, h6, fun j hj hj' => ?_, fun _ => ?_, fun j hj hj' => ?_⟩
    · simp only [BTh.setV]; split
      · rfl
      · exact h1 j
    · simp only [BTh.setV]; rw [if_neg (by omega)]; exact h7 j hj hj'
    · simp [BTh.setV, Pc.inside, Pc.locks, hi']
    · simp only [BTh.setV]; rw [if_neg (hj' rfl)]; exact h9 j hj (by simp)
  | hash b lo hi i acc o hc hv =>
    rw [hc] at h2 h3
    obtain ⟨h4, h5, h6, h7, h8, h9⟩ := h3
    have hvis : o.isVisit = true := by have := h1 i; rw [hv] at this; exact this
    have hen : (enterPc m o).isScan = true := by simp [enterPc, isVisit_not_insert hvis, Pc.isScan, hvis]
    have hlt : i < hi := (h8 rfl).1
    refine ⟨fun j => ?_, fun _ => h2 rfl, h4, by omega, by omega, fun j hj hj' => ?_, (by simp), fun j hj hj' => ?_⟩
    · simp only [BTh.setV]; split
      · exact (Pc.isScan_locks hen).2.1
      · exact h1 j
    · simp only [BTh.setV]; split
      · exact hen
      · exact h7 j hj (by omega)
    · simp only [BTh.setV]; rw [if_neg (by omega)]; exact h9 j (by omega) (by omega)
  | hashEnd b lo hi acc hc =>
    rw [hc] at h2 h3
    obtain ⟨h4, h5, h6, h7, h8, h9⟩ := h3
    exact ⟨h1, fun _ => h2 rfl, h4, le_rfl, h5, h7, fun j hj => h9 j hj (by simp)⟩
  | read b lo hi i acc o c pb todo ac p' hc hi' hv ht hq =>
    rw [hc] at h2 h3
    obtain ⟨h4, h5, h6, h7, h9⟩ := h3
    have hen : p'.isScan = true := by
      have := h7 i h5 hi'
      rw [hv] at hq this
      cases hq <;> first | exact this | exact absurd rfl ht
    refine ⟨fun j => ?_, fun _ => h2 rfl, h4, h5, h6, fun j hj hj' => ?_, fun j hj => ?_⟩
    · simp only [BTh.setV]; split
      · exact (Pc.isScan_locks hen).2.1
      · exact h1 j
    · simp only [BTh.setV]; split
      · exact hen
      · exact h7 j hj (by omega)
    · simp only [BTh.setV]; rw [if_neg (by omega)]; exact h9 j (by omega)
  | readNext b lo hi i acc o c pb ac hc hi' hv =>
    rw [hc] at h2 h3
    obtain ⟨h4, h5, h6, h7, h9⟩ := h3
    exact ⟨h1, fun _ => h2 rfl, h4, by omega, by omega, h7, h9⟩
  | readEnd b lo hi acc hc =>
    rw [hc] at h2 h3
    obtain ⟨h4, h5, h6, h7, h9⟩ := h3
    exact ⟨h1, fun _ => h2 rfl, h4, le_rfl, by omega, fun j hj => h7 j (by omega), h9⟩
  | quiet b lo hi i acc p' hc hi' hr hq =>
    rw [hc] at h2 h3
    obtain ⟨h4, h5, h6, h7, h9⟩ := h3
    refine ⟨fun j => ?_, fun _ => h2 rfl, h4, h5, h6, fun j hj hj' => ?_, fun j hj => ?_⟩
    · simp only [BTh.setV]; split
      · exact hq.srch (h1 i) hr
      · exact h1 j
    · simp only [BTh.setV]; rw [if_neg (by omega)]; exact h7 j hj hj'
    · simp only [BTh.setV]; rw [if_neg (by omega)]; exact h9 j (by omega)
  | eff b lo hi i acc m' p' hc hi' hq =>
    rw [hc] at h2 h3
    obtain ⟨h4, h5, h6, h7, h9⟩ := h3
    refine ⟨fun j => ?_, fun _ => h2 rfl, h4, h5, h6, fun j hj hj' => ?_, fun j hj => ?_⟩
    · simp only [BTh.setV]; split
      · exact hq.srch (h1 i)
      · exact h1 j
    · simp only [BTh.setV]; rw [if_neg (by omega)]; exact h7 j hj hj'
    · simp only [BTh.setV]; rw [if_neg (by omega)]; exact h9 j (by omega)
  | next b lo hi i acc r hc hi' hv =>
    rw [hc] at h2 h3
    obtain ⟨h4, h5, h6, h7, h9⟩ := h3
    refine ⟨h1, fun _ => h2 rfl, h4, by omega, by omega, fun j hj => h7 j (by omega), fun j hj => ?_⟩
    by_cases hji : j = i
    · subst hji
      simp only [BTh.setCtl]; rw [hv]; rfl
    · exact h9 j (by omega)
  | visitEnd b lo hi acc hc =>
    rw [hc] at h2 h3
    obtain ⟨h4, h5, h6, h7, h9⟩ := h3
    exact nextChunk_ok h1 (h2 rfl) (fun j => h9 j (by omega)) h4
  | leave acc hc =>
    rw [hc] at h2 h3
    exact ⟨h1, (fun h => by cases h), h3⟩

/-! ### the flattened state -/

def BTh.pcs (x : BTh K V) : Nat → Pc K V
  | 0 => x.p
  | j + 1 => x.v j

/-- Even numbers are operations and searches; odd numbers are threads that do nothing (`D`). -/
def BState.flat (D : Nat → Pc K V) (s : BState K V) : State K V :=
  ⟨s.mem, fun u => if u % 2 = 0 then (s.th (Nat.unpair (u / 2)).1).pcs (Nat.unpair (u / 2)).2 else D (u / 2)⟩

def BState.Ok (s : BState K V) : Prop := ∀ t, (s.th t).Ok

/-- The number of part `x` of thread `t`. -/
def pid (t x : Nat) : Nat := 2 * Nat.pair t x

theorem flat_pid (D : Nat → Pc K V) (s : BState K V) (t x : Nat) : (s.flat D).pc (pid t x) = (s.th t).pcs x := by
  simp [BState.flat, pid, Nat.unpair_pair]

theorem flat_odd (D : Nat → Pc K V) (s : BState K V) (i : Nat) : (s.flat D).pc (2 * i + 1) = D i := by
  have h : (2 * i + 1) / 2 = i := by omega
  have h' : (2 * i + 1) % 2 ≠ 0 := by omega
  simp [BState.flat, h]

theorem id_cases (u : Nat) : (∃ t x, u = pid t x) ∨ ∃ i, u = 2 * i + 1 := by
  rcases Nat.mod_two_eq_zero_or_one u with h | h
  · exact .inl ⟨(Nat.unpair (u / 2)).1, (Nat.unpair (u / 2)).2, by rw [pid, Nat.pair_unpair]; omega⟩
  · exact .inr ⟨u / 2, by omega⟩

theorem pid_inj {t x t' x' : Nat} : pid t x = pid t' x' ↔ t = t' ∧ x = x' := by
  unfold pid
  rw [Nat.mul_right_inj (by decide), Nat.pair_eq_pair]

/-- Idle helpers. -/
def Still (D : Nat → Pc K V) : Prop := ∀ i, D i = .idle ∨ D i = .start (.ex .clear)

theorem Still.out {D : Nat → Pc K V} (h : Still D) (i : Nat) : (D i).inside = false ∧ (D i).locks = none := by
  rcases h i with h | h <;> rw [h] <;> exact ⟨rfl, rfl⟩

theorem holds_iff {x : BTh K V} {l : Nat × Mode} : x.Holds l ↔ ∃ i, (x.pcs i).locks = some l := by
  constructor
  · rintro (h | ⟨j, h⟩)
    · exact ⟨0, h⟩
    · exact ⟨j + 1, h⟩
  · rintro ⟨i, h⟩
    cases i with
    | zero => exact .inl h
    | succ j => exact .inr ⟨j, h⟩

/-- A step of part `x` of thread `t`, the other parts of which hold no locks. -/
theorem canS_flat {D : Nat → Pc K V} (hD : Still D) {s : BState K V} {t x g : Nat} (h : s.canS t g)
    (ho : ∀ y, y ≠ x → ((s.th t).pcs y).locks = none) : (s.flat D).canS (pid t x) g := by
  intro u hu hl
  rcases id_cases u with ⟨t', y, rfl⟩ | ⟨i, rfl⟩
  · rw [flat_pid] at hl
    by_cases ht : t' = t
    · subst ht
      rw [ho y fun e => hu (by rw [e])] at hl
      cases hl
    · exact h t' ht (holds_iff.2 ⟨y, hl⟩)
  · rw [flat_odd, (hD.out i).2] at hl
    cases hl

theorem canX_flat {D : Nat → Pc K V} (hD : Still D) {s : BState K V} {t x g : Nat} (h : s.canX t g)
    (ho : ∀ y, y ≠ x → ((s.th t).pcs y).locks = none) : (s.flat D).canX (pid t x) g := by
  intro u hu md hl
  rcases id_cases u with ⟨t', y, rfl⟩ | ⟨i, rfl⟩
  · rw [flat_pid] at hl
    by_cases ht : t' = t
    · subst ht
      rw [ho y fun e => hu (by rw [e])] at hl
      cases hl
    · exact h t' ht md (holds_iff.2 ⟨y, hl⟩)
  · rw [flat_odd, (hD.out i).2] at hl
    cases hl

theorem flat_set {D : Nat → Pc K V} {s : BState K V} {t x : Nat} {m : Mem K V} {x' : BTh K V} {p : Pc K V}
    (h : x'.pcs x = p) (ho : ∀ y, y ≠ x → x'.pcs y = (s.th t).pcs y) :
    (s.set t m x').flat D = (s.flat D).set (pid t x) m p := by
  simp only [State.set]
  refine congrArg (State.mk m) (funext fun u => ?_)
  change ((s.set t m x').flat D).pc u = _
  rcases id_cases u with ⟨t', y, rfl⟩ | ⟨i, rfl⟩
  · rw [flat_pid, flat_pid]
    simp only [BState.set]
    by_cases ht : t' = t
    · subst ht
      rw [if_pos rfl]
      by_cases hy : y = x
      · subst hy; rw [if_pos rfl]; exact h
      · rw [if_neg (fun e => hy (pid_inj.1 e).2)]; exact ho y hy
    · rw [if_neg ht, if_neg (fun e => ht (pid_inj.1 e).1)]
  · rw [flat_odd, flat_odd, if_neg]
    unfold pid
    omega

theorem setV_pcs (x : BTh K V) (c : Ctl K V) (i : Nat) (p : Pc K V) :
    (x.setV c i p).pcs (i + 1) = p ∧ ∀ y, y ≠ i + 1 → (x.setV c i p).pcs y = x.pcs y := by
  constructor
  · simp [BTh.setV, BTh.pcs]
  · intro y hy
    cases y with
    | zero => rfl
    | succ j => simp only [BTh.setV, BTh.pcs]; rw [if_neg (by omega)]

theorem setCtl_pcs (x : BTh K V) (c : Ctl K V) : (x.setCtl c).pcs = x.pcs := by
  funext y; cases y <;> rfl

/-- A step is a step of one of the parts, or changes only the control state. -/
theorem BStepBy.flat {cfg : Cfg} {t : Nat} {s s' : BState K V} (h : BStepBy cfg t s s') (hs : s.Ok) :
    ∃ w : Option Nat, match w with
      | some x => ∀ D, Still D → StepBy cfg (pid t x) (s.flat D) (s'.flat D)
      | none => ∀ D, s'.flat D = s.flat D := by
  have hl := (hs t).locks
  cases h with
  | @quiet p' hc hq =>
    refine ⟨some 0, fun D hD => ?_⟩
    rw [flat_set (x := 0) (p := p') rfl (by intro y hy; cases y with | zero => exact absurd rfl hy | succ j => rfl)]
    refine .quiet ?_
    rw [flat_pid]
    have ho : ∀ y, y ≠ 0 → ((s.th t).pcs y).locks = none := by
      intro y hy; cases y with | zero => exact absurd rfl hy | succ j => exact hl.2.2 hc j
    exact hq.mono (fun g h => canS_flat hD h ho) (fun g h => canX_flat hD h ho)
  | @eff m' p' hc hq =>
    refine ⟨some 0, fun D hD => ?_⟩
    rw [flat_set (x := 0) (p := p') rfl (by intro y hy; cases y with | zero => exact absurd rfl hy | succ j => rfl)]
    refine .eff ?_
    rw [flat_pid]
    exact hq
  | @alone m' p' hc hout hq =>
    refine ⟨some 0, fun D hD => ?_⟩
    rw [flat_set (x := 0) (p := p') rfl (by intro y hy; cases y with | zero => exact absurd rfl hy | succ j => rfl)]
    refine .alone ?_ ?_
    · intro u
      rcases id_cases u with ⟨t', y, rfl⟩ | ⟨i, rfl⟩
      · rw [flat_pid]
        cases y with
        | zero => have := hout t'; simp only [BTh.inside, Bool.or_eq_false_iff] at this; exact this.1
        | succ j => exact (hs t').outside (hout t') j
      · rw [flat_odd]; exact (hD.out i).1
    · rw [flat_pid]; exact hq
  | @bulk m' x' h =>
    have stay : ∀ {c : Ctl K V}, ∀ D, (s.set t s.mem ((s.th t).setCtl c)).flat D = s.flat D := by
      intro c D
      refine congrArg (State.mk s.mem) (funext fun u => ?_)
      change ((s.set t s.mem ((s.th t).setCtl c)).flat D).pc u = (s.flat D).pc u
      rcases id_cases u with ⟨t', y, rfl⟩ | ⟨i, rfl⟩
      · rw [flat_pid, flat_pid]
        simp only [BState.set]
        by_cases ht : t' = t
        · subst ht; rw [if_pos rfl, setCtl_pcs]
        · rw [if_neg ht]
      · rw [flat_odd, flat_odd]
    have qu : ∀ {c : Ctl K V} {i : Nat} {p' : Pc K V}, (s.th t).ctl.rest = false → (s.th t).ctl.cur = some i →
        Quiet s.mem (s.canS t) (s.canX t) ((s.th t).v i) p' →
        ∀ D, Still D → StepBy cfg (pid t (i + 1)) (s.flat D) ((s.set t s.mem ((s.th t).setV c i p')).flat D) := by
      intro c i p' hr hcur hq D hD
      rw [flat_set (setV_pcs _ _ _ _).1 (setV_pcs _ _ _ _).2]
      refine .quiet ?_
      rw [flat_pid]
      have ho : ∀ y, y ≠ i + 1 → ((s.th t).pcs y).locks = none := by
        intro y hy
        cases y with
        | zero => exact hl.2.1 hr
        | succ j => exact hl.1 j (by rw [hcur]; intro e; cases e; exact hy rfl)
      exact hq.mono (fun g h => canS_flat hD h ho) (fun g h => canX_flat hD h ho)
    cases h with
    | call b hp hc => exact ⟨none, stay⟩
    | enter b hc => exact ⟨none, stay⟩
    | hashKey b lo hi i acc k hc hi' hk =>
      refine ⟨some (i + 1), qu (by rw [hc]; rfl) (by rw [hc]; rfl) ?_⟩
      obtain ⟨_, _, h3⟩ := hs t
      rw [hc] at h3
      have hr := h3.2.2.2.2.2 i (by omega) (by simp)
      generalize (s.th t).v i = p at hr
      cases p with
      | idle => exact .call _
      | done r => exact .callAgain _ _
      | _ => cases hr
    | hash b lo hi i acc o hc hv =>
      exact ⟨some (i + 1), qu (by rw [hc]; rfl) (by rw [hc]; rfl) (by rw [hv]; exact .enter _)⟩
    | hashEnd b lo hi acc hc => exact ⟨none, stay⟩
    | read b lo hi i acc o c pb todo ac p' hc hi' hv ht hq =>
      exact ⟨some (i + 1), qu (by rw [hc]; rfl) (by rw [hc]; rfl) hq⟩
    | readNext b lo hi i acc o c pb ac hc hi' hv => exact ⟨none, stay⟩
    | readEnd b lo hi acc hc => exact ⟨none, stay⟩
    | quiet b lo hi i acc p' hc hi' hr hq => exact ⟨some (i + 1), qu (by rw [hc]; rfl) (by rw [hc]; rfl) hq⟩
    | eff b lo hi i acc m' p' hc hi' hq =>
      refine ⟨some (i + 1), fun D hD => ?_⟩
      rw [flat_set (setV_pcs _ _ _ _).1 (setV_pcs _ _ _ _).2]
      refine .eff ?_
      rw [flat_pid]
      exact hq
    | next b lo hi i acc r hc hi' hv => exact ⟨none, stay⟩
    | visitEnd b lo hi acc hc => exact ⟨none, stay⟩
    | leave acc hc => exact ⟨none, stay⟩

theorem BStepBy.ok {cfg : Cfg} {t : Nat} {s s' : BState K V} (h : BStepBy cfg t s s') (hs : s.Ok) : s'.Ok := by
  have old : ∀ {p' : Pc K V}, (s.th t).ctl.rest = true → ({ s.th t with p := p' } : BTh K V).Ok := by
    intro p' hc
    obtain ⟨h1, _, h3⟩ := hs t
    exact ⟨h1, (fun h => by rw [hc] at h; cases h), h3⟩
  intro u
  cases h with
  | quiet hc hq => simp only [BState.set]; split
                   · exact old hc
                   · exact hs u
  | eff hc hq => simp only [BState.set]; split
                 · exact old hc
                 · exact hs u
  | alone hc _ hq => simp only [BState.set]; split
                     · exact old hc
                     · exact hs u
  | bulk h => simp only [BState.set]; split
              · exact h.ok (hs t)
              · exact hs u

theorem flat_nowrap {D : Nat → Pc K V} (hD : Still D) {s : BState K V} (hs : s.Ok) (hw : s.NoWrap) : NoWrap (s.flat D) := by
  intro u o c pb j hq
  rcases id_cases u with ⟨t, x, rfl⟩ | ⟨i, rfl⟩
  · rw [flat_pid] at hq
    cases x with
    | zero => exact hw t o c pb j hq
    | succ i =>
      have := (hs t).1 i
      rw [show (s.th t).v i = _ from hq] at this
      cases this
  · rw [flat_odd] at hq
    rcases hD i with h | h <;> rw [h] at hq <;> cases hq

def still : Nat → Pc K V := fun _ => .idle
theorem still_ok : Still (still : Nat → Pc K V) := fun _ => .inl rfl

theorem BReach.ok {cfg : Cfg} {f : Fns K} {al n : Nat} {s : BState K V} (h : BReach cfg f al n s) : s.Ok := by
  induction h with
  | init => exact fun t => ⟨fun _ => rfl, (fun h => by cases h), fun _ => rfl⟩
  | step _ _ hst ih => exact hst.ok ih

theorem BReach.flat {cfg : Cfg} {f : Fns K} {al n : Nat} {s : BState K V} (h : BReach cfg f al n s) :
    Reach cfg f al n (s.flat still) := by
  induction h with
  | init =>
    have : (BState.init cfg f al n).flat still = (Conc.Tab.init cfg f al n : State K V) := by
      refine congrArg (State.mk _) (funext fun u => ?_)
      change ((BState.init cfg f al n).flat still).pc u = _
      rcases id_cases u with ⟨t, x, rfl⟩ | ⟨i, rfl⟩
      · rw [flat_pid]; cases x <;> rfl
      · rw [flat_odd]; rfl
    rw [this]
    exact .init
  | @step s s' t hr hw hst ih =>
    obtain ⟨w, hw'⟩ := hst.flat hr.ok
    cases w with
    | none => rw [hw' still]; exact ih
    | some x => exact .step ih (flat_nowrap still_ok hr.ok hw) ⟨_, hw' still still_ok⟩

/-! ### runs -/

theorem BRun.ok {cfg : Cfg} {σ : Nat → BState K V} {who : Nat → Nat} {n : Nat} (h : BRun cfg σ who n) (h0 : (σ 0).Ok) :
    ∀ i ≤ n, (σ i).Ok := by
  intro i
  induction i with
  | zero => intro _; exact h0
  | succ i ih => intro hi; exact (h.step i (by omega)).ok (ih (by omega))

/-- The helpers: at a step that changes only a control state, a helper makes a call instead. -/
def helpers (part : Nat → Option Nat) (i : Nat) : Nat → Pc K V :=
  fun j => if j < i ∧ part j = none then .start (.ex .clear) else .idle

theorem helpers_still (part : Nat → Option Nat) (i : Nat) : Still (helpers part i : Nat → Pc K V) := by
  intro j
  unfold helpers
  split
  · exact .inr rfl
  · exact .inl rfl

theorem helpers_zero (part : Nat → Option Nat) : (helpers part 0 : Nat → Pc K V) = still := by
  funext j; simp [helpers, still]

def movers (who : Nat → Nat) (part : Nat → Option Nat) (i : Nat) : Nat :=
  match part i with
  | some x => pid (who i) x
  | none => 2 * i + 1

/-- A run with bulk visits is a run of the model of single operations. -/
theorem BRun.flat {cfg : Cfg} {σ : Nat → BState K V} {who : Nat → Nat} {n : Nat} (h : BRun cfg σ who n) (h0 : (σ 0).Ok) :
    ∃ part : Nat → Option Nat, Run cfg (fun i => (σ i).flat (helpers part i)) (movers who part) n := by
  have hok := h.ok h0
  have : ∀ i, ∃ w : Option Nat, i < n → match w with
      | some x => ∀ D, Still D → StepBy cfg (pid (who i) x) ((σ i).flat D) ((σ (i + 1)).flat D)
      | none => ∀ D, (σ (i + 1)).flat D = (σ i).flat D := by
    intro i
    by_cases hi : i < n
    · obtain ⟨w, hw⟩ := (h.step i hi).flat (hok i (by omega))
      exact ⟨w, fun _ => hw⟩
    · exact ⟨none, fun h => absurd h hi⟩
  choose part hpart using this
  refine ⟨part, fun i hi => ?_, fun i hi => flat_nowrap (helpers_still _ _) (hok i (by omega)) (h.nowrap i hi)⟩
  have hp := hpart i hi
  unfold movers
  generalize hw : part i = w at hp
  cases w with
  | some x =>
    have : (helpers part (i + 1) : Nat → Pc K V) = helpers part i := by
      funext j
      unfold helpers
      by_cases hj : j = i
      · subst hj; simp [hw]
      · have : j < i + 1 ↔ j < i := by omega
        simp only [this]
    rw [this]
    exact hp _ (helpers_still _ _)
  | none =>
    have : (σ (i + 1)).flat (helpers part (i + 1)) = ((σ i).flat (helpers part i)).set (2 * i + 1) (σ i).mem (.start (.ex .clear)) := by
      rw [hp]
      refine congrArg (State.mk _) (funext fun u => ?_)
      change ((σ i).flat (helpers part (i + 1))).pc u = _
      rcases id_cases u with ⟨t, x, rfl⟩ | ⟨j, rfl⟩
      · rw [flat_pid, flat_pid, if_neg]
        unfold pid; omega
      · rw [flat_odd, flat_odd]
        unfold helpers
        by_cases hj : j = i
        · subst hj; simp [hw]
        · have : j < i + 1 ↔ j < i := by omega
          have h2 : ¬ (2 * j + 1 = 2 * i + 1) := by omega
          simp only [this, if_neg h2]
    rw [this]
    refine .quiet ?_
    rw [flat_odd, show (helpers part i i : Pc K V) = .idle by simp [helpers]]
    exact .call _

/-! ### callbacks of visits -/

/-- Thread `t` is about to call the callback of its operation on the element `y`. -/
def Calls (s : State K V) (t : Nat) (y : K × V) : Prop := ∃ o pb j, s.pc t = .hit o pb j ∧ s.mem.slot pb.pos j = some y

theorem not_calls {s : State K V} {t : Nat} (h : ∀ o pb j, s.pc t ≠ .hit o pb j) (y : K × V) : ¬ Calls s t y := by
  rintro ⟨o, pb, j, h1, _⟩
  exact h _ _ _ h1

/-- The calls of the callback of a visit along a run. -/
theorem calls_run {cfg : Cfg} {σ : Nat → State K V} {who : Nat → Nat} {n : Nat} (hr : Run cfg σ who n) (h0 : SInv (σ 0))
    {t : Nat} {o : KOp K V} (hv : o.isVisit = true) (hs : (σ 0).pc t = .start (.key o)) (hd : ∀ i < n, ∀ r, (σ i).pc t ≠ .done r) :
    ∀ i ≤ n,
      (((σ i).pc t).pending = some o ∧ ∀ l < i, who l = t → ∀ y, ¬ Calls (σ l) t y) ∨
      (∃ r, ((σ i).pc t).result = some r ∧
        ((r = 1 ∧ ∃ l < i, who l = t ∧ (∃ y pb j, (σ l).pc t = .hit o pb j ∧ (σ l).mem.slot pb.pos j = some y ∧ (σ 0).mem.tab.fns.eq o.key y.1 = true) ∧
            ∀ l' < i, who l' = t → ∀ y, Calls (σ l') t y → l' = l) ∨
         (r = 0 ∧ ∀ l < i, who l = t → ∀ y, ¬ Calls (σ l) t y))) := by
  intro i
  induction i with
  | zero =>
    intro _
    left
    rw [hs]
    exact ⟨rfl, fun l hl => absurd hl (Nat.not_lt_zero _)⟩
  | succ i ih =>
    intro hi
    have hin : i < n := by omega
    have hstep := hr.step i hin
    have hinv := hr.inv h0 i (by omega)
    have hw := hr.nowrap i hin
    by_cases hu : who i = t
    · rw [hu] at hstep
      rcases ih (by omega) with ⟨h1, h2⟩ | ⟨r, h1, h2⟩
      · by_cases hh : ∃ o' pb j, (σ i).pc t = .hit o' pb j
        · obtain ⟨o', pb, j, hq⟩ := hh
          have hok := hinv.pcs t
          rw [hq] at hok h1
          cases h1
          obtain ⟨_, y, hy, he⟩ := hok
          right
          refine ⟨1, ?_, .inl ⟨rfl, i, by omega, hu, ⟨y, _, _, hq, hy, by rw [← hr.fns h0 i (by omega)]; exact he⟩,
            fun l hl hlt z hz => ?_⟩⟩
          · generalize σ (i + 1) = s1 at hstep
            cases hstep with
            | @quiet pc' h =>
              rw [hq] at h
              cases h with
              | hitBad _ _ _ hn => rw [hy] at hn; cases hn
            | @eff m' pc' h =>
              rw [State.set_pc, upd_self]
              rw [hq] at h
              cases h with
              | visit md k f _ _ y' hy' => rfl
              | _ => cases hv
            | @alone m' pc' hout h => rw [hq] at h; cases h
          · rcases Nat.lt_succ_iff_lt_or_eq.1 hl with hl | rfl
            · exact absurd hz (h2 l hl hlt z)
            · rfl
        · have hno : ∀ y, ¬ Calls (σ i) t y := not_calls fun o pb j h => hh ⟨o, pb, j, h⟩
          have hall : ∀ l < i + 1, who l = t → ∀ y, ¬ Calls (σ l) t y := by
            intro l hl hlt
            rcases Nat.lt_succ_iff_lt_or_eq.1 hl with hl | rfl
            · exact h2 l hl hlt
            · exact hno
          have hb := pcOk_not_bad ((hinv.step hw hstep).pcs t)
          generalize hs1 : σ (i + 1) = s1 at hstep hb
          cases hstep with
          | @quiet pc' h =>
            rw [State.set_pc, upd_self] at hb ⊢
            rcases h.pending hb hinv.shape hinv.law (hinv.pcs t) h1 with h1 | ⟨_, h2, _⟩
            · exact .inl ⟨h1, hall⟩
            · exact .inr ⟨0, by rw [h2]; rfl, .inr ⟨rfl, hall⟩⟩
          | @eff m' pc' h =>
            exfalso
            generalize hq : (σ i).pc t = p at h h1
            cases h <;> first
              | (cases h1; done)
              | exact hh ⟨_, _, _, hq⟩
              | (cases h1
                 have hok := hinv.pcs t
                 rw [hq] at hok
                 have hni := isVisit_not_insert hv
                 first
                  | (rw [show o.isInsert = true from hok] at hni; cases hni)
                  | (rw [show o.isInsert = true from hok.1] at hni; cases hni)
                  | (rw [show o.isInsert = true from hok.1.1] at hni; cases hni)
                  | cases hni)
          | @alone m' pc' hout h =>
            rw [State.set_pc, upd_self]
            exact .inl ⟨(h.pending (hinv.quiescent hout) h1).1, hall⟩
      · obtain ⟨e1, _⟩ := hstep.result_self hinv hw h1 (hd i hin)
        have hno : ∀ y, ¬ Calls (σ i) t y := not_calls (by intro o pb j h; rw [h] at h1; cases h1)
        right
        refine ⟨r, e1, ?_⟩
        rcases h2 with ⟨h3, l, hl, hlt, hy, hun⟩ | ⟨h3, h4⟩
        · refine .inl ⟨h3, l, by omega, hlt, hy, fun l' hl' hlt' y hy' => ?_⟩
          rcases Nat.lt_succ_iff_lt_or_eq.1 hl' with hl' | rfl
          · exact hun l' hl' hlt' y hy'
          · exact absurd hy' (hno y)
        · refine .inr ⟨h3, fun l hl hlt => ?_⟩
          rcases Nat.lt_succ_iff_lt_or_eq.1 hl with hl | rfl
          · exact h4 l hl hlt
          · exact hno
    · have hpc : (σ (i + 1)).pc t = (σ i).pc t := hstep.other (fun h => hu h.symm)
      rw [hpc]
      rcases ih (by omega) with ⟨h1, h2⟩ | ⟨r, h1, h2⟩
      · refine .inl ⟨h1, fun l hl hlt => ?_⟩
        rcases Nat.lt_succ_iff_lt_or_eq.1 hl with hl | rfl
        · exact h2 l hl hlt
        · exact absurd hlt hu
      · right
        refine ⟨r, h1, ?_⟩
        rcases h2 with ⟨h3, l, hl, hlt, hy, hun⟩ | ⟨h3, h4⟩
        · refine .inl ⟨h3, l, by omega, hlt, hy, fun l' hl' hlt' y hy' => ?_⟩
          rcases Nat.lt_succ_iff_lt_or_eq.1 hl' with hl' | rfl
          · exact hun l' hl' hlt' y hy'
          · exact absurd hlt' hu
        · refine .inr ⟨h3, fun l hl hlt => ?_⟩
          rcases Nat.lt_succ_iff_lt_or_eq.1 hl with hl | rfl
          · exact h4 l hl hlt
          · exact absurd hlt hu

/-! ### a bulk visit along a run -/

/-- A search (its state as a function of time): has not been used since `a`; has been running since some instant after `a`; has
run. -/
def Unused (w : Nat → Pc K V) (a m : Nat) : Prop := ∀ i, a ≤ i → i ≤ m → (w i).rest = true
structure Started (w : Nat → Pc K V) (o : KOp K V) (a s : Nat) : Prop where
  le : a ≤ s
  start : w s = .start (.key o)
  before : ∀ i, a ≤ i → i < s → (w i).rest = true
def Since (w : Nat → Pc K V) (o : KOp K V) (a m : Nat) : Prop :=
  ∃ s, Started w o a s ∧ s ≤ m ∧ ∀ i, s ≤ i → i ≤ m → ∀ r, w i ≠ .done r
def Fin (w : Nat → Pc K V) (o : KOp K V) (a m q : Nat) : Prop :=
  ∃ s e, Started w o a s ∧ s ≤ e ∧ e ≤ m ∧ (∀ i, s ≤ i → i < e → ∀ r, w i ≠ .done r) ∧ ∀ i, e ≤ i → i ≤ m → w i = .done q

theorem Unused.succ {w : Nat → Pc K V} {a m : Nat} (h : Unused w a m) (hw : (w (m + 1)).rest = true) : Unused w a (m + 1) := by
  intro i hi hi'
  rcases Nat.lt_succ_iff_lt_or_eq.1 (Nat.lt_succ_of_le hi') with h' | rfl
  · exact h i hi (by omega)
  · exact hw

theorem Since.succ {w : Nat → Pc K V} {o : KOp K V} {a m : Nat} (h : Since w o a m) (hd : ∀ r, w (m + 1) ≠ .done r) :
    Since w o a (m + 1) := by
  obtain ⟨s, h1, h2, h4⟩ := h
  refine ⟨s, h1, by omega, fun i hi hi' => ?_⟩
  rcases Nat.lt_succ_iff_lt_or_eq.1 (Nat.lt_succ_of_le hi') with h | rfl
  · exact h4 i hi (by omega)
  · exact hd

theorem Since.fin {w : Nat → Pc K V} {o : KOp K V} {a m q : Nat} (h : Since w o a m) (hd : w (m + 1) = .done q) :
    Fin w o a (m + 1) q := by
  obtain ⟨s, h1, h2, h4⟩ := h
  refine ⟨s, m + 1, h1, by omega, le_rfl, fun i hi hi' => h4 i hi (by omega), fun i hi hi' => ?_⟩
  have : i = m + 1 := by omega
  rw [this]; exact hd

theorem Since.not_done {w : Nat → Pc K V} {o : KOp K V} {a m : Nat} (h : Since w o a m) : ∀ r, w m ≠ .done r := by
  obtain ⟨s, h1, h2, h4⟩ := h
  exact h4 m h2 le_rfl

theorem Fin.succ {w : Nat → Pc K V} {o : KOp K V} {a m q : Nat} (h : Fin w o a m q) (hw : w (m + 1) = w m) : Fin w o a (m + 1) q := by
  obtain ⟨s, e, h1, h2, h3, h4, h5⟩ := h
  refine ⟨s, e, h1, h2, by omega, h4, fun i hi hi' => ?_⟩
  rcases Nat.lt_succ_iff_lt_or_eq.1 (Nat.lt_succ_of_le hi') with h | rfl
  · exact h5 i hi (by omega)
  · rw [hw]; exact h5 m h3 le_rfl

section
variable (σ : Nat → BState K V) (t : Nat) (b : BOp K V) (a : Nat)

def srchOf (j : Nat) : Nat → Pc K V := fun i => ((σ i).th t).v j

def UnusedK (m j : Nat) : Prop := Unused (srchOf σ t j) a m
def RunK (m j : Nat) : Prop := ∃ k, b.ks[j]? = some k ∧ Since (srchOf σ t j) (b.op k) a m
def FinK (m j q : Nat) : Prop := ∃ k, b.ks[j]? = some k ∧ Fin (srchOf σ t j) (b.op k) a m q
def Fins (m n acc : Nat) : Prop := ∃ rs : List Nat, rs.length = n ∧ rs.sum = acc ∧ ∀ j q, rs[j]? = some q → FinK σ t b a m j q

/-- How far a bulk visit is. -/
def Prog (m : Nat) : Ctl K V → Prop
  | .out => False
  | .call b' => b' = b ∧ ∀ j, UnusedK σ t a m j
  | .hash b' lo _ i acc c => b' = b ∧ Fins σ t b a m lo acc ∧ (∀ j, lo ≤ j → j < i → RunK σ t b a m j) ∧
      (c = true → RunK σ t b a m i) ∧ ∀ j, i ≤ j → (c = true → j ≠ i) → UnusedK σ t a m j
  | .first b' lo hi _ acc => b' = b ∧ Fins σ t b a m lo acc ∧ (∀ j, lo ≤ j → j < hi → RunK σ t b a m j) ∧
      ∀ j, hi ≤ j → UnusedK σ t a m j
  | .visit b' _ hi i acc => b' = b ∧ Fins σ t b a m i acc ∧ (∀ j, i < j → j < hi → RunK σ t b a m j) ∧
      (i < hi → RunK σ t b a m i ∨ ∃ q, ((σ m).th t).v i = .done q ∧ FinK σ t b a m i q) ∧ ∀ j, hi ≤ j → UnusedK σ t a m j
  | .leave acc | .ret acc => Fins σ t b a m b.ks.length acc

variable {σ t b a}

theorem UnusedK.stay {m j : Nat} (h : UnusedK σ t a m j) (ham : a ≤ m) (hv : ((σ (m + 1)).th t).v j = ((σ m).th t).v j) :
    UnusedK σ t a (m + 1) j :=
  Unused.succ h (by change (((σ (m + 1)).th t).v j).rest = true; rw [hv]; exact h m ham le_rfl)

theorem RunK.stay {m j : Nat} (h : RunK σ t b a m j) (hv : ((σ (m + 1)).th t).v j = ((σ m).th t).v j) : RunK σ t b a (m + 1) j := by
  obtain ⟨k, h1, h2⟩ := h
  refine ⟨k, h1, h2.succ fun r hr => h2.not_done r ?_⟩
  rw [← hr]
  exact hv.symm

theorem RunK.goes {m j : Nat} (h : RunK σ t b a m j) :
    RunK σ t b a (m + 1) j ∨ ∃ q, ((σ (m + 1)).th t).v j = .done q ∧ FinK σ t b a (m + 1) j q := by
  obtain ⟨k, h1, h2⟩ := h
  by_cases hd : ∃ q, ((σ (m + 1)).th t).v j = .done q
  · obtain ⟨q, hq⟩ := hd
    exact .inr ⟨q, hq, k, h1, h2.fin hq⟩
  · exact .inl ⟨k, h1, h2.succ fun r hr => hd ⟨r, hr⟩⟩

theorem FinK.stay {m j q : Nat} (h : FinK σ t b a m j q) (hv : ((σ (m + 1)).th t).v j = ((σ m).th t).v j) : FinK σ t b a (m + 1) j q := by
  obtain ⟨k, h1, h2⟩ := h
  exact ⟨k, h1, h2.succ hv⟩

theorem Fins.stay {m n acc : Nat} (h : Fins σ t b a m n acc) (hv : ∀ j < n, ((σ (m + 1)).th t).v j = ((σ m).th t).v j) :
    Fins σ t b a (m + 1) n acc := by
  obtain ⟨rs, h1, h2, h3⟩ := h
  refine ⟨rs, h1, h2, fun j q hj => (h3 j q hj).stay (hv j ?_)⟩
  have := (List.getElem?_eq_some_iff.1 hj).1
  omega

theorem Fins.nil (m : Nat) : Fins σ t b a m 0 0 := ⟨[], rfl, rfl, fun j q h => by simp at h⟩

theorem Fins.add {m n acc q : Nat} (h : Fins σ t b a m n acc) (hq : FinK σ t b a m n q) : Fins σ t b a m (n + 1) (acc + q) := by
  obtain ⟨rs, h1, h2, h3⟩ := h
  refine ⟨rs ++ [q], by simp [h1], by simp [h2], fun j q' hj => ?_⟩
  rw [List.getElem?_append] at hj
  split at hj
  · exact h3 j q' hj
  · rename_i hlt
    have hj0 : j - rs.length = 0 := by
      by_contra hne
      rw [List.getElem?_eq_none (by simp; omega)] at hj
      cases hj
    rw [hj0] at hj
    cases hj
    have : j = n := by omega
    rw [this]; exact hq

theorem Prog.nextChunk {m lo acc : Nat} (hlo : lo ≤ b.ks.length) (h : Fins σ t b a m lo acc)
    (hf : ∀ j, lo ≤ j → UnusedK σ t a m j) : Prog σ t b a m (Conc.Tab.nextChunk b lo acc) := by
  unfold Conc.Tab.nextChunk
  split
  · rw [show lo = b.ks.length by omega] at h
    exact h
  · exact ⟨rfl, h, fun j h1 h2 => by omega, (by simp), fun j hj _ => hf j hj⟩

/-- A step of the thread itself. -/
theorem Prog.step {m : Nat} {S X : Nat → Prop} {mem mem' : Mem K V} (h : Prog σ t b a m ((σ m).th t).ctl) (ham : a ≤ m)
    (hnr : ∀ r, ((σ m).th t).ctl ≠ .ret r) (hok : ((σ m).th t).Ok)
    (hs : BStep mem S X ((σ m).th t) mem' ((σ (m + 1)).th t)) : Prog σ t b a (m + 1) ((σ (m + 1)).th t).ctl := by
  have eqC : ∀ {c : Ctl K V}, (σ (m + 1)).th t = ((σ m).th t).setCtl c → ∀ j, ((σ (m + 1)).th t).v j = ((σ m).th t).v j := by
    intro c hc j; rw [hc]; rfl
  have eqV : ∀ {c : Ctl K V} {i : Nat} {p : Pc K V}, (σ (m + 1)).th t = ((σ m).th t).setV c i p → ∀ j, j ≠ i →
      ((σ (m + 1)).th t).v j = ((σ m).th t).v j := by
    intro c i p hc j hj; rw [hc]; simp only [BTh.setV]; rw [if_neg hj]
  obtain ⟨hsr, _, hok3⟩ := hok
  generalize hx' : (σ (m + 1)).th t = x' at hs
  cases hs with
  | call b' hp hc =>
    generalize ((σ m).th t).ctl = c at h hc hnr
    cases c with
    | out => cases h
    | ret r => exact absurd rfl (hnr r)
    | _ => cases hc
  | enter b' hc =>
    rw [hc] at h
    obtain ⟨rfl, h⟩ := h
    exact Prog.nextChunk (Nat.zero_le _) (Fins.nil _) fun j _ => (h j).stay ham (eqC hx' j)
  | hashKey b' lo hi i acc k hc hi' hk =>
    rw [hc] at h hok3
    obtain ⟨rfl, h1, h2, _, h5⟩ := h
    have hlo := hok3.2.1
    refine ⟨rfl, h1.stay fun j hj => eqV hx' j (by omega), fun j hj hj' => (h2 j hj hj').stay (eqV hx' j (by omega)),
      fun _ => ⟨k, hk, m + 1, ⟨by omega, ?_, ?_⟩, le_rfl, ?_⟩, fun j hj hj' => (h5 j hj (by simp)).stay ham (eqV hx' j (hj' rfl))⟩
    · simp only [srchOf, hx', BTh.setV, if_true]
    · exact fun i' h1 h2 => h5 i le_rfl (by simp) i' h1 (by omega)
    · intro i' h1 h2 r
      have : i' = m + 1 := by omega
      subst this
      simp only [srchOf, hx', BTh.setV, if_true]
      simp
  | hash b' lo hi i acc o hc hv =>
    rw [hc] at h hok3
    obtain ⟨rfl, h1, h2, h3, h5⟩ := h
    have hlo := hok3.2.1
    refine ⟨rfl, h1.stay fun j hj => eqV hx' j (by omega), fun j hj hj' => ?_, (by simp),
      fun j hj _ => (h5 j (by omega) (by omega)).stay ham (eqV hx' j (by omega))⟩
    by_cases hji : j = i
    · subst hji
      rcases (h3 rfl).goes with h4 | ⟨q, h4, _⟩
      · exact h4
      · rw [hx'] at h4
        have hvis : o.isVisit = true := by have := hsr j; rw [hv] at this; exact this
        simp [BTh.setV, enterPc, isVisit_not_insert hvis] at h4
    · exact (h2 j hj (by omega)).stay (eqV hx' j hji)
  | hashEnd b' lo hi acc hc =>
    rw [hc] at h
    obtain ⟨rfl, h1, h2, h3, h5⟩ := h
    exact ⟨rfl, h1.stay fun j _ => eqC hx' j, fun j hj hj' => (h2 j hj hj').stay (eqC hx' j),
      fun j hj => (h5 j hj (by simp)).stay ham (eqC hx' j)⟩
  | read b' lo hi i acc o c pb todo ac p' hc hi' hv ht hq =>
    rw [hc] at h hok3
    obtain ⟨rfl, h1, h2, h5⟩ := h
    have hlo := hok3.2.1
    refine ⟨rfl, h1.stay fun j hj => eqV hx' j (by omega), fun j hj hj' => ?_, fun j hj => (h5 j hj).stay ham (eqV hx' j (by omega))⟩
    by_cases hji : j = i
    · subst hji
      rcases (h2 j hj hj').goes with h4 | ⟨q, h4, _⟩
      · exact h4
      · exfalso
        rw [hx'] at h4
        simp only [BTh.setV, if_true] at h4
        subst h4
        rw [hv] at hq
        cases hq
    · exact (h2 j hj hj').stay (eqV hx' j hji)
  | readNext b' lo hi i acc o c pb ac hc hi' hv =>
    rw [hc] at h
    obtain ⟨rfl, h1, h2, h5⟩ := h
    exact ⟨rfl, h1.stay fun j _ => eqC hx' j, fun j hj hj' => (h2 j hj hj').stay (eqC hx' j), fun j hj => (h5 j hj).stay ham (eqC hx' j)⟩
  | readEnd b' lo hi acc hc =>
    rw [hc] at h hok3
    obtain ⟨rfl, h1, h2, h5⟩ := h
    exact ⟨rfl, h1.stay fun j _ => eqC hx' j, fun j hj hj' => (h2 j (by omega) hj').stay (eqC hx' j),
      fun hl => .inl ((h2 lo le_rfl hl).stay (eqC hx' lo)), fun j hj => (h5 j hj).stay ham (eqC hx' j)⟩
  | quiet b' lo hi i acc p' hc hi' hr hq =>
    rw [hc] at h
    obtain ⟨rfl, h1, h2, h3, h5⟩ := h
    refine ⟨rfl, h1.stay fun j hj => eqV hx' j (by omega), fun j hj hj' => (h2 j hj hj').stay (eqV hx' j (by omega)), fun _ => ?_,
      fun j hj => (h5 j hj).stay ham (eqV hx' j (by omega))⟩
    rcases h3 hi' with h4 | ⟨q, h4, _⟩
    · rcases h4.goes with h5 | ⟨q, h5, h6⟩
      · exact .inl h5
      · exact .inr ⟨q, h5, h6⟩
    · rw [h4] at hr; cases hr
  | eff b' lo hi i acc m' p' hc hi' hq =>
    rw [hc] at h
    obtain ⟨rfl, h1, h2, h3, h5⟩ := h
    refine ⟨rfl, h1.stay fun j hj => eqV hx' j (by omega), fun j hj hj' => (h2 j hj hj').stay (eqV hx' j (by omega)), fun _ => ?_,
      fun j hj => (h5 j hj).stay ham (eqV hx' j (by omega))⟩
    rcases h3 hi' with h4 | ⟨q, h4, _⟩
    · rcases h4.goes with h5 | ⟨q, h5, h6⟩
      · exact .inl h5
      · exact .inr ⟨q, h5, h6⟩
    · rw [h4] at hq; cases hq
  | next b' lo hi i acc r hc hi' hv =>
    rw [hc] at h
    obtain ⟨rfl, h1, h2, h3, h5⟩ := h
    have hf : FinK σ t b' a m i r := by
      rcases h3 hi' with h4 | ⟨q, h4, h5⟩
      · obtain ⟨k, _, h5⟩ := h4
        exact absurd hv (h5.not_done r)
      · rw [hv] at h4; cases h4; exact h5
    exact ⟨rfl, (h1.add hf).stay fun j _ => eqC hx' j, fun j hj hj' => (h2 j (by omega) hj').stay (eqC hx' j),
      fun hl => .inl ((h2 _ (by omega) hl).stay (eqC hx' _)), fun j hj => (h5 j hj).stay ham (eqC hx' j)⟩
  | visitEnd b' lo hi acc hc =>
    rw [hc] at h hok3
    obtain ⟨rfl, h1, h2, h3, h5⟩ := h
    exact Prog.nextChunk hok3.1 (h1.stay fun j _ => eqC hx' j) fun j hj => (h5 j hj).stay ham (eqC hx' j)
  | leave acc hc =>
    rw [hc] at h
    exact Fins.stay h fun j _ => eqC hx' j

theorem Prog.other {m : Nat} (h : Prog σ t b a m ((σ m).th t).ctl) (ham : a ≤ m) (he : (σ (m + 1)).th t = (σ m).th t) :
    Prog σ t b a (m + 1) ((σ (m + 1)).th t).ctl := by
  have hv : ∀ j, ((σ (m + 1)).th t).v j = ((σ m).th t).v j := fun j => by rw [he]
  rw [he]
  generalize ((σ m).th t).ctl = c at h
  cases c with
  | out => exact h
  | call b' => exact ⟨h.1, fun j => (h.2 j).stay ham (hv j)⟩
  | hash b' lo hi i acc c =>
    exact ⟨h.1, h.2.1.stay fun j _ => hv j, fun j h1 h2 => (h.2.2.1 j h1 h2).stay (hv j), fun hc => (h.2.2.2.1 hc).stay (hv _),
      fun j h1 h2 => (h.2.2.2.2 j h1 h2).stay ham (hv j)⟩
  | first b' lo hi i acc =>
    exact ⟨h.1, h.2.1.stay fun j _ => hv j, fun j h1 h2 => (h.2.2.1 j h1 h2).stay (hv j), fun j h1 => (h.2.2.2 j h1).stay ham (hv j)⟩
  | visit b' lo hi i acc =>
    refine ⟨h.1, h.2.1.stay fun j _ => hv j, fun j h1 h2 => (h.2.2.1 j h1 h2).stay (hv j), fun hc => ?_,
      fun j h1 => (h.2.2.2.2 j h1).stay ham (hv j)⟩
    rcases h.2.2.2.1 hc with h1 | ⟨q, h1, h2⟩
    · exact .inl (h1.stay (hv _))
    · exact .inr ⟨q, by rw [he]; exact h1, h2.stay (hv _)⟩
  | leave acc => exact Fins.stay h fun j _ => hv j
  | ret r => exact Fins.stay h fun j _ => hv j

end

theorem BStepBy.other {cfg : Cfg} {s s' : BState K V} {t u : Nat} (h : BStepBy cfg u s s') (hu : t ≠ u) : s'.th t = s.th t := by
  cases h <;> simp [BState.set, hu]

/-- In a bulk visit the thread makes no step of its ordinary operations. -/
theorem BStepBy.in_bulk {cfg : Cfg} {s s' : BState K V} {t : Nat} (h : BStepBy cfg t s s') (hc : (s.th t).ctl.rest = false) :
    BStep s.mem (s.canS t) (s.canX t) (s.th t) s'.mem (s'.th t) := by
  cases h with
  | quiet h _ => rw [h] at hc; cases hc
  | eff h _ => rw [h] at hc; cases hc
  | alone h _ _ => rw [h] at hc; cases hc
  | @bulk m' x' h =>
    have hx : (s.set t m' x').th t = x' := by simp [BState.set]
    rw [hx]
    exact h

theorem Prog.busy {σ : Nat → BState K V} {t : Nat} {b : BOp K V} {a m : Nat} {c : Ctl K V} (h : Prog σ t b a m c)
    (hc : ∀ r, c ≠ .ret r) : c.rest = false := by
  cases c with
  | out => cases h
  | ret r => exact absurd rfl (hc r)
  | _ => rfl

/-- From the call of a bulk visit to its return. -/
theorem bulk_prog {cfg : Cfg} {σ : Nat → BState K V} {who : Nat → Nat} {n : Nat} (hr : BRun cfg σ who n) (h0 : (σ 0).Ok)
    {t a : Nat} {b : BOp K V} (hc : ((σ a).th t).ctl = .call b) {e : Nat} (he : e ≤ n)
    (hd : ∀ i, a ≤ i → i < e → ∀ r, ((σ i).th t).ctl ≠ .ret r) :
    ∀ m, a ≤ m → m ≤ e → Prog σ t b a m ((σ m).th t).ctl := by
  intro m ham
  induction m, ham using Nat.le_induction with
  | base =>
    intro hm
    have hok := hr.ok h0 a (by omega) t
    obtain ⟨_, _, h3⟩ := hok
    rw [hc] at h3 ⊢
    refine ⟨rfl, fun j i hi hi' => ?_⟩
    have : i = a := by omega
    rw [this]; exact h3 j
  | succ m ham ih =>
    intro hm
    have hp := ih (by omega)
    have hst := hr.step m (by omega)
    have hok := hr.ok h0 m (by omega) t
    by_cases hu : t = who m
    · subst hu
      exact hp.step ham (hd m ham (by omega)) hok (hst.in_bulk (hp.busy (hd m ham (by omega))))
    · exact hp.other ham (hst.other hu)

end Conc.Tab

/-
How many steps operations of the concurrent table take. Lookups, erasures and whole-table passes: a bound on the own steps of
the thread that holds whatever other threads do.
-/
import Verif.Conc.TabLin

namespace Conc.Tab
open Foa
open Conc.Locking (Mode)

variable {K V : Type}

/-- Operations other than insertions and those under the exclusive lock. -/
def Op.plain : Op K V → Bool
  | .key o => !o.isInsert
  | .sweep _ _ => true
  | .ex _ => false

/-- In the middle of such an operation. -/
def Pc.plain : Pc K V → Bool
  | .start o => o.plain
  | .scan o _ _ _ _ | .lock o _ _ _ | .check o _ _ _ | .over o _ _ | .hit o _ _ => !o.isInsert
  | .eraseReset _ _ _ _ | .eraseSize _ _ _ | .swLock _ _ _ _ | .swAt _ _ _ _ _ | .unlock _ _ _ | .leave _ => true
  | _ => false

/-- Steps left at most, `G` being a bound for the number of groups. -/
def Pc.left (G : Nat) : Pc K V → Nat
  | .start _ => G * 100 + 100
  | .scan _ _ pb todo _ => (G - pb.step) * 100 + todo.length + 35
  | .lock _ _ pb ms => (G - pb.step) * 100 + ms.length + 18
  | .check _ _ pb ms => (G - pb.step) * 100 + ms.length + 15
  | .over _ _ pb => (G - pb.step) * 100 + 10
  | .hit _ _ _ => 8
  | .eraseReset g _ _ c => match c with
    | none => 5
    | some (_, js, _) => (G - g) * 100 + js.length * 4 + 13
  | .eraseSize g _ c => match c with
    | none => 4
    | some (_, js, _) => (G - g) * 100 + js.length * 4 + 12
  | .swLock _ _ g _ => (G - g) * 100 + 90
  | .swAt _ _ g js _ => (G - g) * 100 + js.length * 4 + 10
  | .unlock _ _ _ => 2
  | .leave _ => 1
  | _ => 0

theorem filter_range_length (p : Nat → Bool) : ((List.range N).filter p).length ≤ 15 := by
  refine (List.length_filter_le _ _).trans ?_
  simp [N]

theorem next_bound {pb : Prober} {mask : Nat} (h : (pb.next mask).2 = true) :
    (pb.next mask).1.step = pb.step + 1 ∧ pb.step + 1 ≤ mask := by
  have := of_decide_eq_true h
  exact ⟨rfl, this⟩

theorem missPc_plain {o : KOp K V} (ho : o.isInsert = false) (c : Nat) : missPc o c = .leave 0 := by
  simp [missPc, ho]

theorem Quiet.left {m : Mem K V} {S X : Nat → Prop} {p p' : Pc K V} (h : Quiet m S X p p') (hp : p.plain = true)
    (hb : p' ≠ .bad) {G : Nat} (hG : m.tab.arr.mask + 1 ≤ G) :
    p'.left G < p.left G ∧ (p'.plain = true ∨ ∃ r, p' = .done r) := by
  cases h with
  | call o => cases hp
  | callAgain r o => cases hp
  | enter o =>
    simp only [Pc.plain, Op.plain, Bool.not_eq_true'] at hp
    simp only [enterPc, hp, Bool.false_eq_true, if_false, Pc.left, Pc.plain, Bool.not_false, true_or, and_true,
      List.length_range, probe0, Prober.init, N]
    omega
  | counter o => cases hp
  | scanMatch o c pb todo acc j hj _ =>
    refine ⟨?_, .inl hp⟩
    simp only [Pc.left, List.length_erase_of_mem hj]
    have := List.length_pos_of_mem hj
    omega
  | scanMiss o c pb todo acc j hj _ =>
    refine ⟨?_, .inl hp⟩
    simp only [Pc.left, List.length_erase_of_mem hj]
    have := List.length_pos_of_mem hj
    omega
  | scanNone o c pb => exact ⟨by simp only [Pc.left, List.length_nil]; omega, .inl hp⟩
  | scanSome o c pb acc ha =>
    refine ⟨?_, .inl hp⟩
    simp only [Pc.left, List.length_nil]
    have := filter_range_length fun j => decide (j ∈ acc)
    omega
  | lockS o c pb ms => exact ⟨by simp only [Pc.left]; omega, .inl hp⟩
  | lockX o c pb ms => exact ⟨by simp only [Pc.left]; omega, .inl hp⟩
  | checkEmpty o c pb j ms => exact ⟨by simp only [Pc.left, List.length_cons]; omega, .inl hp⟩
  | checkBad o c pb j ms => exact absurd rfl hb
  | checkHit o c pb j ms => exact ⟨by simp only [Pc.left, List.length_cons]; omega, .inl hp⟩
  | checkMiss o c pb j ms => exact ⟨by simp only [Pc.left, List.length_cons]; omega, .inl hp⟩
  | checkEnd o c pb => exact ⟨by simp only [Pc.left, List.length_nil]; omega, .inl hp⟩
  | overEnd o c pb =>
    simp only [Pc.plain, Bool.not_eq_true'] at hp
    rw [missPc_plain hp]
    exact ⟨by simp only [Pc.left]; omega, .inl rfl⟩
  | overNext o c pb =>
    have hp' := hp
    simp only [Pc.plain, Bool.not_eq_true'] at hp
    split
    · rename_i hn
      obtain ⟨h1, h2⟩ := next_bound hn
      refine ⟨?_, .inl hp'⟩
      simp only [Pc.left, h1, List.length_range, N]
      omega
    · rw [missPc_plain hp]
      exact ⟨by simp only [Pc.left]; omega, .inl rfl⟩
  | hitBad o pb j => exact absurd rfl hb
  | testOk o c n => cases hp
  | testFail o c n => cases hp
  | insLock o c pb => cases hp
  | insFindBad o c pb => cases hp
  | insFindTaken o c pb j js => cases hp
  | insNext o c pb => cases hp
  | rollUnlock o pb => cases hp
  | sweepNone md act => exact ⟨by simp only [Pc.left]; omega, .inl rfl⟩
  | sweep md act => exact ⟨by simp only [Pc.left]; omega, .inl rfl⟩
  | swLockS act g r =>
    refine ⟨?_, .inl rfl⟩
    simp only [Pc.left]
    have : (reallyOcc m g).length ≤ 15 := filter_range_length _
    omega
  | swLockX act g r =>
    refine ⟨?_, .inl rfl⟩
    simp only [Pc.left]
    have : (reallyOcc m g).length ≤ 15 := filter_range_length _
    omega
  | swBad md act g j js r => exact absurd rfl hb
  | swEnd md act g r =>
    split
    · refine ⟨?_, .inl rfl⟩
      simp only [Pc.left, List.length_nil]
      omega
    · exact ⟨by simp only [Pc.left]; omega, .inl rfl⟩
  | unlock g md r => exact ⟨by simp only [Pc.left]; omega, .inl rfl⟩
  | leave r => exact ⟨by simp only [Pc.left]; omega, .inr ⟨r, rfl⟩⟩

theorem Eff.left {m m' : Mem K V} {p p' : Pc K V} (h : Eff m p m' p') (hp : p.plain = true)
    (hb : p' ≠ .bad) (G : Nat) : p'.left G < p.left G ∧ p'.plain = true := by
  cases h with
  | visit md k f pb j y => exact ⟨by simp only [Pc.left]; omega, rfl⟩
  | found md x f2 f1 pb j y => cases hp
  | eraseNot k p pb j y v => exact ⟨by simp only [Pc.left]; omega, rfl⟩
  | erase k p pb j y => exact ⟨by simp only [Pc.left]; omega, rfl⟩
  | eraseWrap => exact absurd rfl hb
  | eraseReset g j d cont =>
    refine ⟨?_, rfl⟩
    cases cont with
    | none => simp only [Pc.left]; omega
    | some q => simp only [Pc.left]; omega
  | eraseSize g d => exact ⟨by simp only [Pc.left]; omega, rfl⟩
  | eraseSizeMore g d act js r => exact ⟨by simp only [Pc.left]; omega, rfl⟩
  | eraseSizeWrap => exact absurd rfl hb
  | swGo md act g j js r y v add => exact ⟨by simp only [Pc.left, List.length_cons]; omega, rfl⟩
  | swStop md act g j js r y v _ => exact ⟨by simp only [Pc.left, List.length_cons]; omega, rfl⟩
  | swErase act g j js r y => exact ⟨by simp only [Pc.left, List.length_cons]; omega, rfl⟩
  | swEraseWrap => exact absurd rfl hb
  | reserve | failSize | failSizeWrap | insSet | insFull | insert | insertBad | startOver | rollReset | rollSize
  | rollSizeWrap => cases hp

theorem Alone.not_plain {cfg : Cfg} {m m' : Mem K V} {p p' : Pc K V} (h : Alone cfg m p m' p') : p.plain = false := by
  cases h <;> rfl

theorem StepBy.left {cfg : Cfg} {s s' : State K V} (hi : SInv s) (hw : NoWrap s) {t : Nat} (h : StepBy cfg t s s')
    (hp : (s.pc t).plain = true) {G : Nat} (hG : s.mem.tab.arr.mask + 1 ≤ G) :
    (s'.pc t).left G < (s.pc t).left G ∧ ((s'.pc t).plain = true ∨ ∃ r, s'.pc t = .done r) := by
  have hb := pcOk_not_bad ((hi.step hw h).pcs t)
  cases h with
  | quiet h =>
    simp only [State.set, if_true] at hb ⊢
    exact h.left hp hb hG
  | eff h =>
    simp only [State.set, if_true] at hb ⊢
    exact ⟨(h.left hp hb G).1, .inl (h.left hp hb G).2⟩
  | alone _ h => rw [h.not_plain] at hp; cases hp

/-- The number of steps of thread `t` among the first `n`. -/
def ownSteps (who : Nat → Nat) (t n : Nat) : Nat := ((List.range n).filter fun i => decide (who i = t)).length

theorem ownSteps_succ (who : Nat → Nat) (t n : Nat) :
    ownSteps who t (n + 1) = ownSteps who t n + if who n = t then 1 else 0 := by
  simp only [ownSteps, List.range_succ, List.filter_append, List.length_append, List.filter_cons, List.filter_nil]
  congr 1
  by_cases h : who n = t <;> simp [h]

theorem run_left {cfg : Cfg} {σ : Nat → State K V} {who : Nat → Nat} {n : Nat} (hr : Run cfg σ who n) (h0 : SInv (σ 0))
    {t : Nat} {o : Op K V} (ho : o.plain = true) (hs : (σ 0).pc t = .start o) {G : Nat}
    (hG : ∀ i < n, (σ i).mem.tab.arr.mask + 1 ≤ G)
    (hd : ∀ i < n, ∀ r, (σ i).pc t ≠ .done r) :
    ∀ i ≤ n, ownSteps who t i + ((σ i).pc t).left G ≤ G * 100 + 100 ∧
      (((σ i).pc t).plain = true ∨ ∃ r, (σ i).pc t = .done r) := by
  intro i
  induction i with
  | zero =>
    intro _
    rw [hs]
    exact ⟨by simp [ownSteps, Pc.left], .inl ho⟩
  | succ i ih =>
    intro hi
    obtain ⟨h1, h2⟩ := ih (by omega)
    have hst := hr.step i hi
    rw [ownSteps_succ]
    by_cases hw : who i = t
    · rw [hw] at hst
      have hp : ((σ i).pc t).plain = true := h2.resolve_right (fun ⟨r, h⟩ => hd i hi r h)
      have := hst.left (hr.inv h0 i (by omega)) (hr.nowrap i hi) hp (hG i hi)
      refine ⟨?_, this.2⟩
      rw [if_pos hw]
      omega
    · rw [if_neg hw, hst.other (fun h => hw h.symm)]
      exact ⟨by omega, h2⟩

end Conc.Tab

/-
Operations of the concurrent table that are not interfered with complete: a thread that moves while every other thread is
outside the shared section of the container.
-/
import Verif.Conc.TabBound
import Verif.Conc.TabCount

namespace Conc.Tab
open Foa
open Conc.Locking (Mode)

variable {K V : Type}

/-- Every thread but `t` is outside the shared section. -/
def Solo (t : Nat) (s : State K V) : Prop := ∀ u, u ≠ t → (s.pc u).inside = false

/-! ### probing from any place visits every group -/

theorem tri_add (a b : Nat) : tri (a + b) = tri a + a * b + tri b := by
  have h1 := two_tri (a + b); have h2 := two_tri a; have h3 := two_tri b
  have : (a + b) * (a + b + 1) = a * (a + 1) + 2 * (a * b) + b * (b + 1) := by ring
  omega

theorem tri_double (b : Nat) : tri (2 * b) = b * (2 * b + 1) := by
  have h1 := two_tri (2 * b)
  have : 2 * b * (2 * b + 1) = 2 * (b * (2 * b + 1)) := by ring
  omega

theorem pat_period (k p i q : Nat) : pat k p (i + 2 * (2 ^ k * q)) = pat k p i := by
  simp only [pat]
  rw [tri_add, tri_double]
  have : p + (tri i + i * (2 * (2 ^ k * q)) + 2 ^ k * q * (2 * (2 ^ k * q) + 1)) =
      p + tri i + 2 ^ k * (i * (2 * q) + q * (2 * (2 ^ k * q) + 1)) := by ring
  rw [this, Nat.add_mul_mod_self_left]

theorem pat_onto_from (k p i g : Nat) (hp : p < 2 ^ k) (hg : g < 2 ^ k) : ∃ d, pat k p (i + d) = g := by
  obtain ⟨j, hj, hgj⟩ := pat_onto k p g hp hg
  refine ⟨j + 2 * (2 ^ k * i) - i, ?_⟩
  have h1 : 1 ≤ 2 ^ k := Nat.one_le_two_pow
  have h2 : i ≤ 2 ^ k * i := Nat.le_mul_of_pos_left i h1
  rw [show i + (j + 2 * (2 ^ k * i) - i) = j + 2 * (2 ^ k * i) by omega, pat_period, hgj]

/-- The group at step `i` of the probe sequence has an available slot. -/
def HasRoom (m : Mem K V) (o : KOp K V) (i : Nat) : Prop := (m.grp (pat m.tab.arr.k (m.pos0 o.key) i)).availSlots ≠ []

open Classical in
/-- How far the next group with an available slot is. -/
noncomputable def distP (P : Nat → Prop) (i : Nat) : Nat := if h : ∃ d, P (i + d) then Nat.find h else 0
noncomputable def dist (m : Mem K V) (o : KOp K V) (i : Nat) : Nat := distP (HasRoom m o) i

theorem dist_succ {m : Mem K V} {o : KOp K V} {i : Nat} (h : ∃ d, HasRoom m o (i + d)) (hn : ¬ HasRoom m o i) :
    dist m o (i + 1) + 1 = dist m o i := by
  classical
  obtain ⟨d, hd⟩ := h
  have hd0 : d ≠ 0 := by rintro rfl; exact hn hd
  have h1 : ∃ d, HasRoom m o (i + 1 + d) := ⟨d - 1, by rw [show i + 1 + (d - 1) = i + d by omega]; exact hd⟩
  have h0 : ∃ d, HasRoom m o (i + d) := ⟨d, hd⟩
  simp only [dist, distP, dif_pos h1, dif_pos h0]
  have e1 : Nat.find h0 ≤ Nat.find h1 + 1 := Nat.find_le (by
    have := Nat.find_spec h1
    rwa [show i + 1 + Nat.find h1 = i + (Nat.find h1 + 1) by omega] at this)
  have hne : Nat.find h0 ≠ 0 := by
    intro h
    have := Nat.find_spec h0
    rw [h] at this
    exact hn this
  have e2 : Nat.find h1 ≤ Nat.find h0 - 1 := Nat.find_le (by
    have := Nat.find_spec h0
    rwa [show i + Nat.find h0 = i + 1 + (Nat.find h0 - 1) by omega] at this)
  omega

theorem dist_congr {m m' : Mem K V} {o : KOp K V} (h : ∀ i, HasRoom m o i ↔ HasRoom m' o i) (i : Nat) :
    dist m o i = dist m' o i := by
  have : HasRoom m o = HasRoom m' o := by funext i; exact propext (h i)
  simp only [dist, this]

/-! ### the measure -/

def Fresh (m : Mem K V) (o : KOp K V) (c : Nat) : Prop := m.cnt (m.pos0 o.key) % 2 ^ 32 = c % 2 ^ 32

/-- The current attempt will succeed if nobody interferes. -/
def Good (m : Mem K V) : Pc K V → Prop
  | .start (.key o) => o.isInsert = true → m.tab.size < m.tab.ml
  | .counter _ => m.tab.size < m.tab.ml
  | .scan o c _ _ _ | .lock o c _ _ | .check o c _ _ | .over o c _ | .reserve o c =>
      o.isInsert = true → m.tab.size < m.tab.ml ∧ Fresh m o c
  | .test o c n => n ≤ m.tab.ml ∧ Fresh m o c
  | .insLock o c _ | .insFind o c _ | .insNext o c _ | .insInc o c _ _ => Fresh m o c
  | .full _ | .failSize _ | .rollReset _ _ _ | .rollUnlock _ _ | .rollSize _ => False
  | _ => True

def Pc.stage : Pc K V → Nat
  | .start _ => 9
  | .counter _ => 8
  | .scan _ _ _ _ _ | .lock _ _ _ _ | .check _ _ _ _ | .over _ _ _ | .hit _ _ _ => 7
  | .reserve _ _ => 6
  | .test _ _ _ => 5
  | .insLock _ _ _ | .insFind _ _ _ | .insNext _ _ _ => 4
  | .insInc _ _ _ _ | .rollReset _ _ _ | .rollUnlock _ _ | .rollSize _ | .failSize _ | .full _ => 3
  | .eraseReset _ _ _ _ | .eraseSize _ _ _ | .swLock _ _ _ _ | .swAt _ _ _ _ _ => 2
  | .unlock _ _ _ | .leave _ => 1
  | _ => 0

noncomputable def Pc.fine (m : Mem K V) : Pc K V → Nat
  | .insLock o _ pb => dist m o pb.step * 10 + 4
  | .insFind o _ pb => dist m o pb.step * 10 + 3
  | .insNext o _ pb => dist m o (pb.step + 1) * 10 + 7
  | .insInc _ _ _ _ => 10
  | .rollReset _ _ _ => 9
  | .rollUnlock _ _ => 8
  | .rollSize _ => 7
  | .failSize _ => 6
  | .full _ => 5
  | p => p.left (m.tab.arr.mask + 1)

open Classical in
noncomputable def level (m : Mem K V) (p : Pc K V) : Nat := if Good m p then 0 else 1

/-- Lexicographic order on level, stage and steps left within the stage. -/
def Less (m' : Mem K V) (p' : Pc K V) (m : Mem K V) (p : Pc K V) : Prop :=
  level m' p' < level m p ∨ (level m' p' = level m p ∧ (p'.stage < p.stage ∨ (p'.stage = p.stage ∧ p'.fine m' < p.fine m)))

theorem less_wf : WellFounded fun a b : Mem K V × Pc K V => Less a.1 a.2 b.1 b.2 := by
  have h : WellFounded (Prod.Lex (· < ·) (Prod.Lex (· < ·) (· < · : Nat → Nat → Prop)) : Nat × Nat × Nat → Nat × Nat × Nat → Prop) :=
    (WellFounded.prod_lex Nat.lt_wfRel.wf (WellFounded.prod_lex Nat.lt_wfRel.wf Nat.lt_wfRel.wf))
  refine Subrelation.wf ?_ (InvImage.wf (fun a : Mem K V × Pc K V => (level a.1 a.2, a.2.stage, a.2.fine a.1)) h)
  rintro ⟨m', p'⟩ ⟨m, p⟩ hl
  simp only [InvImage]
  rcases hl with h1 | ⟨h1, h2 | ⟨h2, h3⟩⟩
  · exact .left _ _ h1
  · simp only at h1 h2
    rw [h1]; exact .right _ (.left _ _ h2)
  · simp only at h1 h2 h3
    rw [h1, h2]; exact .right _ (.right _ h3)

theorem level_le {m m' : Mem K V} {p p' : Pc K V} (h : Good m p → Good m' p') : level m' p' ≤ level m p := by
  simp only [level]
  split
  · omega
  · rename_i hn
    rw [if_neg fun hg => hn (h hg)]

theorem less_stage {m m' : Mem K V} {p p' : Pc K V} (h : Good m p → Good m' p') (hs : p'.stage < p.stage) : Less m' p' m p := by
  rcases Nat.lt_or_eq_of_le (level_le h) with h1 | h1
  · exact .inl h1
  · exact .inr ⟨h1, .inl hs⟩

theorem less_fine {m m' : Mem K V} {p p' : Pc K V} (h : Good m p → Good m' p') (hs : p'.stage = p.stage)
    (hf : p'.fine m' < p.fine m) : Less m' p' m p := by
  rcases Nat.lt_or_eq_of_le (level_le h) with h1 | h1
  · exact .inl h1
  · exact .inr ⟨h1, .inr ⟨hs, hf⟩⟩

theorem less_level {m m' : Mem K V} {p p' : Pc K V} (h : ¬ Good m p) (h' : Good m' p') : Less m' p' m p := by
  refine .inl ?_
  simp only [level, if_neg h, if_pos h']
  omega

/-! ### size when alone -/

theorem Solo.size_le {t : Nat} {s : State K V} (hs : Solo t s) (hi : SInv s) (he : (s.pc t).er = none)
    (hb : (s.pc t).hasRes = true → ∀ b, (s.pc t).resBound b = some b) : s.mem.tab.size ≤ s.mem.tab.ml := by
  obtain ⟨L, hL⟩ := hi.acct
  have hel : ∀ x ∈ L, x = .res t ∨ ∃ g j, x = .elem g j := by
    intro x hx
    cases x with
    | elem g j => exact .inr ⟨g, j, rfl⟩
    | res u =>
      by_cases hu : u = t
      · exact .inl (hu ▸ rfl)
      · have h1 := (hL.res u).1 hx
        rw [(outside (hs u hu)).2.2.1] at h1
        cases h1
    | er u d =>
      have h1 := (hL.er u d).1 hx
      by_cases hu : u = t
      · rw [hu, he] at h1; cases h1
      · rw [(outside (hs u hu)).2.2.2.1] at h1
        cases h1
  have hp : pend L = 0 := by
    have : ∀ x ∈ L, Item.one x = 0 := by
      intro x hx
      rcases hel x hx with rfl | ⟨g, j, rfl⟩ <;> rfl
    have key : ∀ M : List Item, (∀ x ∈ M, Item.one x = 0) → pend M = 0 := by
      intro M
      induction M with
      | nil => intro _; rfl
      | cons x M ih =>
        intro h
        have h1 := ih fun y hy => h y (List.mem_cons_of_mem _ hy)
        have h2 := h x List.mem_cons_self
        simp only [pend, List.map_cons, List.sum_cons] at h1 ⊢
        omega
    exact key L this
  have h := Ranked.length_le (n := s.mem.tab.ml) (p := fun _ => true) hL.rank (by
    intro x hx _
    rcases hel x hx with rfl | ⟨g, j, rfl⟩
    · refine ⟨_, hb ((hL.res t).1 hx) _, ?_⟩
      omega
    · exact ⟨_, rfl, by omega⟩)
  rw [hL.size]
  simpa using h

theorem Solo.step {cfg : Cfg} {t : Nat} {s s' : State K V} (hs : Solo t s) (h : StepBy cfg t s s') : Solo t s' := by
  intro u hu
  rw [h.other hu]
  exact hs u hu

/-! ### every step comes nearer to the end -/

theorem Quiet.less {t : Nat} {s : State K V} (hi : SInv s) {S X : Nat → Prop} {p' : Pc K V}
    (h : Quiet s.mem S X (s.pc t) p') (hb : p' ≠ .bad) (hn : s.pc t ≠ .idle) (hd : ∀ r, s.pc t ≠ .done r) :
    Less s.mem p' s.mem (s.pc t) := by
  have hp := hi.pcs t
  generalize hq : s.pc t = p at h hp hn hd
  generalize s.mem = m at h hp
  have hmiss : ∀ {o : KOp K V} {c : Nat} {pb : Prober}, Less m (missPc o c) m (.over o c pb) := by
    intro o c pb
    by_cases ho : o.isInsert = true
    · have : missPc o c = .reserve o c := by simp [missPc, ho]
      rw [this]
      exact less_stage (fun h => h) (by simp [Pc.stage])
    · have : missPc o c = .leave 0 := by simp [missPc, ho]
      rw [this]
      exact less_stage (fun _ => trivial) (by simp [Pc.stage])
  cases h with
  | call o => exact absurd rfl hn
  | callAgain r o => exact absurd rfl (hd r)
  | enter o =>
    by_cases ho : o.isInsert = true
    · have : enterPc m o = .counter o := by simp [enterPc, ho]
      rw [this]
      exact less_stage (fun h => h ho) (by simp [Pc.stage])
    · have : enterPc m o = .scan o 0 (probe0 m o) (List.range N) [] := by simp [enterPc, ho]
      rw [this]
      exact less_stage (fun _ h => absurd h ho) (by simp [Pc.stage])
  | counter o => exact less_stage (fun h _ => ⟨h, rfl⟩) (by simp [Pc.stage])
  | scanMatch o c pb todo acc j hj _ =>
    refine less_fine (fun h => h) rfl ?_
    simp only [Pc.fine, Pc.left, List.length_erase_of_mem hj]
    have := List.length_pos_of_mem hj
    omega
  | scanMiss o c pb todo acc j hj _ =>
    refine less_fine (fun h => h) rfl ?_
    simp only [Pc.fine, Pc.left, List.length_erase_of_mem hj]
    have := List.length_pos_of_mem hj
    omega
  | scanNone o c pb => exact less_fine (fun h => h) rfl (by simp only [Pc.fine, Pc.left, List.length_nil]; omega)
  | scanSome o c pb acc ha =>
    refine less_fine (fun h => h) rfl ?_
    simp only [Pc.fine, Pc.left, List.length_nil]
    have := filter_range_length fun j => decide (j ∈ acc)
    omega
  | lockS o c pb ms => exact less_fine (fun h => h) rfl (by simp only [Pc.fine, Pc.left]; omega)
  | lockX o c pb ms => exact less_fine (fun h => h) rfl (by simp only [Pc.fine, Pc.left]; omega)
  | checkEmpty o c pb j ms => exact less_fine (fun h => h) rfl (by simp only [Pc.fine, Pc.left, List.length_cons]; omega)
  | checkBad o c pb j ms => exact absurd rfl hb
  | checkHit o c pb j ms => exact less_fine (fun _ => trivial) rfl (by simp only [Pc.fine, Pc.left, List.length_cons]; omega)
  | checkMiss o c pb j ms => exact less_fine (fun h => h) rfl (by simp only [Pc.fine, Pc.left, List.length_cons]; omega)
  | checkEnd o c pb => exact less_fine (fun h => h) rfl (by simp only [Pc.fine, Pc.left, List.length_nil]; omega)
  | overEnd o c pb => exact hmiss
  | overNext o c pb =>
    split
    · rename_i hn
      obtain ⟨h1, h2⟩ := next_bound hn
      refine less_fine (fun h => h) rfl ?_
      simp only [Pc.fine, Pc.left, h1, List.length_range, N]
      omega
    · exact hmiss
  | hitBad o pb j => exact absurd rfl hb
  | testOk o c n => exact less_stage (fun h => h.2) (by simp [Pc.stage])
  | testFail o c n hlt => exact less_stage (fun h => absurd h.1 hlt) (by simp [Pc.stage])
  | insLock o c pb => exact less_fine (fun h => h) rfl (by simp only [Pc.fine]; omega)
  | insFindBad o c pb => exact absurd rfl hb
  | insFindTaken o c pb j js => exact absurd rfl hb
  | insNext o c pb =>
    refine less_fine (fun h => h) rfl ?_
    simp only [Pc.fine]
    have : (pb.next m.tab.arr.mask).1.step = pb.step + 1 := rfl
    rw [this]
    omega
  | rollUnlock o pb => exact less_fine (fun h => h) rfl (by simp only [Pc.fine]; omega)
  | sweepNone md act => exact less_stage (fun _ => trivial) (by simp [Pc.stage])
  | sweep md act => exact less_stage (fun _ => trivial) (by simp [Pc.stage])
  | swLockS act g r =>
    refine less_fine (fun h => h) rfl ?_
    simp only [Pc.fine, Pc.left]
    have : (reallyOcc m g).length ≤ 15 := filter_range_length _
    omega
  | swLockX act g r =>
    refine less_fine (fun h => h) rfl ?_
    simp only [Pc.fine, Pc.left]
    have : (reallyOcc m g).length ≤ 15 := filter_range_length _
    omega
  | swBad md act g j js r => exact absurd rfl hb
  | swEnd md act g r =>
    split
    · refine less_fine (fun _ => trivial) rfl ?_
      simp only [Pc.fine, Pc.left, List.length_nil]
      omega
    · exact less_stage (fun _ => trivial) (by simp [Pc.stage])
  | unlock g md r => exact less_fine (fun _ => trivial) rfl (by simp only [Pc.fine, Pc.left]; omega)
  | leave r => exact less_stage (fun _ => trivial) (by simp [Pc.stage])

theorem SInv.hasRoom {s : State K V} (hi : SInv s) {t : Nat} {o : KOp K V} {c : Nat} {pb : Prober}
    (hq : s.pc t = .insFind o c pb) : ∃ d, HasRoom s.mem o (pb.step + d) := by
  have hp := hi.pcs t
  rw [hq] at hp
  obtain ⟨g, j, hv, hm⟩ := hi.free (t := t) (by rw [hq]; rfl) (by rw [hq]; rfl) hp.2.1
  obtain ⟨d, hd⟩ := pat_onto_from s.mem.tab.arr.k (s.mem.pos0 o.key) pb.step g
    (posFor_lt hi.law s.mem.tab.arr o.key) hv.1
  refine ⟨d, ?_⟩
  simp only [HasRoom, hd, Group.availSlots]
  intro hnil
  rw [List.filter_eq_nil_iff] at hnil
  exact hnil j (List.mem_range.2 hv.2.1) (by simpa using hm)

theorem Eff.less {t : Nat} {s : State K V} (hi : SInv s) (hs : Solo t s) {m' : Mem K V} {p' : Pc K V}
    (h : Eff s.mem (s.pc t) m' p') (hb : p' ≠ .bad) : Less m' p' s.mem (s.pc t) := by
  have hp := hi.pcs t
  have hroom := fun o c pb hq => hi.hasRoom (t := t) (o := o) (c := c) (pb := pb) hq
  have hsize : s.mem.tab.size ≤ s.mem.tab.ml ∨ (s.pc t).er ≠ none ∨
      ¬ ((s.pc t).hasRes = true → ∀ b, (s.pc t).resBound b = some b) := by
    by_cases h1 : (s.pc t).er = none
    · by_cases h2 : ((s.pc t).hasRes = true → ∀ b, (s.pc t).resBound b = some b)
      · exact .inl (hs.size_le hi h1 h2)
      · exact .inr (.inr h2)
    · exact .inr (.inl h1)
  generalize hq : s.pc t = p at h hp hroom hsize
  generalize s.mem = m at h hp hroom hsize
  cases h with
  | visit md k f pb j y => exact less_stage (fun _ => trivial) (by simp [Pc.stage])
  | found md x f2 f1 pb j y => exact less_stage (fun _ => trivial) (by simp [Pc.stage])
  | eraseNot k p pb j y v => exact less_stage (fun _ => trivial) (by simp [Pc.stage])
  | erase k p pb j y => exact less_stage (fun _ => trivial) (by simp [Pc.stage])
  | eraseWrap => exact absurd rfl hb
  | eraseReset g j d cont =>
    refine less_fine (fun _ => trivial) rfl ?_
    cases cont with
    | none => simp only [Pc.fine, Pc.left]; omega
    | some q => simp only [Pc.fine, Pc.left, Mem.setGrp, Arrays.setGrp, Arrays.mask]; omega
  | eraseSize g d => exact less_stage (fun _ => trivial) (by simp [Pc.stage])
  | eraseSizeMore g d act js r =>
    exact less_fine (fun _ => trivial) rfl (by simp only [Pc.fine, Pc.left, Mem.setSize]; omega)
  | eraseSizeWrap => exact absurd rfl hb
  | swGo md act g j js r y v add =>
    refine less_fine (fun _ => trivial) rfl ?_
    have : (m.call md g j y v).tab.arr.mask = m.tab.arr.mask := by cases md <;> rfl
    simp only [Pc.fine, Pc.left, List.length_cons, this]; omega
  | swStop md act g j js r y v _ => exact less_stage (fun _ => trivial) (by simp [Pc.stage])
  | swErase act g j js r y =>
    refine less_fine (fun _ => trivial) rfl ?_
    simp only [Pc.fine, Pc.left, List.length_cons, Mem.setMl, Mem.setSlot, Arrays.setSlot, Arrays.mask]; omega
  | swEraseWrap => exact absurd rfl hb
  | reserve o c =>
    refine less_stage (fun h => ?_) (by simp [Pc.stage])
    obtain ⟨h1, h2⟩ := h hp
    exact ⟨h1, h2⟩
  | failSize o => exact less_fine (fun h => h.elim) rfl (by simp only [Pc.fine]; omega)
  | failSizeWrap => exact absurd rfl hb
  | insSet o c pb j js => exact less_stage (fun h => h) (by simp [Pc.stage])
  | insFull o c pb he hav =>
    refine less_fine (fun h => h) rfl ?_
    have h0 : ¬ HasRoom m o pb.step := by
      simp only [HasRoom, ← hp.2.2.1, hav]
      simp
    have h1 := dist_succ (hroom o c pb rfl) h0
    have h2 : dist (m.setGrp pb.pos ((m.grp pb.pos).markOverflow (m.hashOf o.key))) o (pb.step + 1) = dist m o (pb.step + 1) := by
      refine dist_congr (fun i => ?_) _
      have h3 : ∀ g, ((m.setGrp pb.pos ((m.grp pb.pos).markOverflow (m.hashOf o.key))).grp g).availSlots =
          (m.grp g).availSlots := by
        intro g
        simp only [Mem.grp, Mem.setGrp, Arrays.setGrp]
        split
        · rename_i hg; subst hg; rfl
        · rfl
      simp only [HasRoom, h3]
      exact Iff.rfl
    simp only [Pc.fine]
    rw [h2]
    omega
  | insert md x f2 f1 c pb j => exact less_stage (fun _ => trivial) (by simp [Pc.stage])
  | insertBad => exact absurd rfl hb
  | startOver o c pb j hne => exact less_fine (fun h => absurd h hne) rfl (by simp only [Pc.fine]; omega)
  | rollReset o pb j => exact less_fine (fun h => h.elim) rfl (by simp only [Pc.fine]; omega)
  | rollSize o h1 =>
    refine less_level (fun h => h) ?_
    have hle : m.tab.size ≤ m.tab.ml := by
      rcases hsize with h | h | h
      · exact h
      · exact absurd rfl h
      · exact absurd (fun _ b => rfl) h
    show m.tab.size - 1 < m.tab.ml
    omega
  | rollSizeWrap => exact absurd rfl hb

theorem StepBy.less {cfg : Cfg} {t : Nat} {s s' : State K V} (hi : SInv s) (hw : NoWrap s) (hs : Solo t s)
    (h : StepBy cfg t s s') (hn : s.pc t ≠ .idle) (hd : ∀ r, s.pc t ≠ .done r) : Less s'.mem (s'.pc t) s.mem (s.pc t) := by
  have hb := pcOk_not_bad ((hi.step hw h).pcs t)
  cases h with
  | quiet h =>
    simp only [State.set, if_true] at hb ⊢
    exact h.less hi hb hn hd
  | eff h =>
    simp only [State.set, if_true] at hb ⊢
    exact h.less hi hs hb
  | alone ho h =>
    have hinv := hi.quiescent ho
    simp only [State.set, if_true] at hb ⊢
    generalize hq : s.pc t = p at h
    cases h with
    | ex e t' r cnt' => exact less_stage (fun _ => trivial) (by simp [Pc.stage])
    | exBad => exact absurd rfl hb
    | grow o t' cnt' hg =>
      obtain ⟨t2, h1, _, _, _, _, h2⟩ := rehashIfFull_spec cfg hinv
      rw [hg] at h1
      cases h1
      exact less_level (fun h => h) (fun _ => h2)
    | growBad => exact absurd rfl hb

theorem StepBy.not_idle {cfg : Cfg} {t : Nat} {s s' : State K V} (h : StepBy cfg t s s') : s'.pc t ≠ .idle := by
  have hm : ∀ (o : KOp K V) c, missPc o c ≠ .idle := by
    intro o c; simp only [missPc]; split <;> simp
  cases h with
  | quiet h =>
    simp only [State.set, if_true]
    generalize s.pc t = p at h
    cases h with
    | enter o => simp only [enterPc]; split <;> simp
    | overEnd o c pb => exact hm o c
    | overNext o c pb => split; · simp
                         · exact hm o c
    | swEnd => split <;> simp
    | _ => simp
  | eff h =>
    simp only [State.set, if_true]
    generalize s.pc t = p at h
    cases h <;> simp
  | alone ho h =>
    simp only [State.set, if_true]
    generalize s.pc t = p at h
    cases h <;> simp

/-- A thread in the middle of an operation can move. -/
theorem solo_moves {cfg : Cfg} {t : Nat} {s : State K V} (hi : SInv s) (hs : Solo t s) (hn : s.pc t ≠ .idle)
    (hd : ∀ r, s.pc t ≠ .done r)
    (hsw : ∀ md act g js r, s.pc t = .swAt md act g js r → md = .excl ∨ ∀ y, act y ≠ .erase) : ∃ s', StepBy cfg t s s' := by
  have hp := hi.pcs t
  have hS : ∀ g, s.canS t g := fun g u hu => by rw [(outside (hs u hu)).1]; simp
  have hX : ∀ g, s.canX t g := fun g u hu md => by rw [(outside (hs u hu)).1]; simp
  have quiet : ∀ {p p'}, s.pc t = p → Quiet s.mem (s.canS t) (s.canX t) p p' → ∃ s', StepBy cfg t s s' :=
    fun hq h => ⟨_, .quiet (hq ▸ h)⟩
  have eff : ∀ {p m' p'}, s.pc t = p → Eff s.mem p m' p' → ∃ s', StepBy cfg t s s' := fun hq h => ⟨_, .eff (hq ▸ h)⟩
  have hall : (s.pc t).inside = false → ∀ u, (s.pc u).inside = false := by
    intro h u
    by_cases hu : u = t
    · exact hu ▸ h
    · exact hs u hu
  cases hq : s.pc t with
  | idle => exact absurd hq hn
  | done r => exact absurd hq (hd r)
  | bad => rw [hq] at hp; exact hp.elim
  | start o =>
    cases o with
    | key o => exact quiet hq (.enter o)
    | sweep md act =>
      by_cases he : s.mem.tab.arr.hasElems = true
      · exact quiet hq (.sweep md act he)
      · exact quiet hq (.sweepNone md act (Bool.eq_false_iff.2 he))
    | ex e =>
      have ho := hall (by rw [hq]; rfl)
      obtain ⟨t', r, h1, _⟩ := ExOp.run_spec cfg (hi.quiescent ho) e
      exact ⟨_, .alone ho (m' := ⟨t', s.mem.cnt⟩) (pc' := .done r) (by rw [hq]; exact .ex e t' r _ h1 (.inl rfl))⟩
  | full o =>
    have ho := hall (by rw [hq]; rfl)
    obtain ⟨t', h1, _⟩ := rehashIfFull_spec cfg (hi.quiescent ho)
    exact ⟨_, .alone ho (m' := ⟨t', s.mem.cnt⟩) (pc' := .start (.key o)) (by rw [hq]; exact .grow o t' _ h1 (.inl rfl))⟩
  | counter o => exact quiet hq (.counter o)
  | scan o c pb todo acc =>
    cases todo with
    | nil =>
      cases acc with
      | nil => exact quiet hq (.scanNone o c pb)
      | cons a acc => exact quiet hq (.scanSome o c pb _ (by simp))
    | cons j js =>
      by_cases hm : (s.mem.grp pb.pos).md j = rhash (s.mem.hashOf o.key)
      · refine quiet hq (.scanMatch o c pb _ acc j List.mem_cons_self ?_)
        have := rhash_ge_two (s.mem.hashOf o.key)
        omega
      · exact quiet hq (.scanMiss o c pb _ acc j List.mem_cons_self hm)
  | lock o c pb ms =>
    cases hm : o.mode with
    | shared => exact quiet hq (.lockS o c pb ms hm (hS _))
    | excl => exact quiet hq (.lockX o c pb ms hm (hX _))
  | check o c pb ms =>
    cases ms with
    | nil => exact quiet hq (.checkEnd o c pb)
    | cons j ms =>
      by_cases h0 : (s.mem.grp pb.pos).md j = 0
      · exact quiet hq (.checkEmpty o c pb j ms h0)
      · cases hy : s.mem.slot pb.pos j with
        | none => exact quiet hq (.checkBad o c pb j ms h0 hy)
        | some y =>
          cases he : s.mem.tab.fns.eq o.key y.1 with
          | true => exact quiet hq (.checkHit o c pb j ms y h0 hy he)
          | false => exact quiet hq (.checkMiss o c pb j ms y h0 hy he)
  | over o c pb =>
    cases h : (s.mem.grp pb.pos).isNotOverflowed (s.mem.hashOf o.key) with
    | true => exact quiet hq (.overEnd o c pb h)
    | false => exact quiet hq (.overNext o c pb h)
  | hit o pb j =>
    cases hy : s.mem.slot pb.pos j with
    | none => exact quiet hq (.hitBad o pb j hy)
    | some y =>
      cases o with
      | visit md k f => exact eff hq (.visit md k f pb j y hy)
      | insert md x f2 f1 => exact eff hq (.found md x f2 f1 pb j y hy)
      | erase k p =>
        cases hpy : p y with
        | some v => exact eff hq (.eraseNot k p pb j y v hy hpy)
        | none =>
          by_cases hl : s.mem.drop pb.pos j ≤ s.mem.tab.ml
          · exact eff hq (.erase k p pb j y hy hpy hl)
          · exact eff hq (.eraseWrap k p pb j y hy hpy hl)
  | reserve o c => exact eff hq (.reserve o c)
  | test o c n =>
    by_cases h : n ≤ s.mem.tab.ml
    · exact quiet hq (.testOk o c n h)
    · exact quiet hq (.testFail o c n h)
  | failSize o =>
    by_cases h : 1 ≤ s.mem.tab.size
    · exact eff hq (.failSize o h)
    · exact eff hq (.failSizeWrap o (by omega))
  | insLock o c pb => exact quiet hq (.insLock o c pb (hX _))
  | insFind o c pb =>
    by_cases he : s.mem.tab.arr.hasElems = true
    · cases hav : (s.mem.grp pb.pos).availSlots with
      | nil => exact eff hq (.insFull o c pb he hav)
      | cons j js =>
        by_cases hj : s.mem.slot pb.pos j = none
        · exact eff hq (.insSet o c pb j js he hav hj)
        · exact quiet hq (.insFindTaken o c pb j js hav hj)
    · exact quiet hq (.insFindBad o c pb (Bool.eq_false_iff.2 he))
  | insNext o c pb => exact quiet hq (.insNext o c pb)
  | insInc o c pb j =>
    by_cases hc : s.mem.cnt (s.mem.pos0 o.key) % 2 ^ 32 = c % 2 ^ 32
    · by_cases hj : s.mem.slot pb.pos j = none
      · rw [hq] at hp
        have ho := hp.1.1
        cases o with
        | insert md x f2 f1 => exact eff hq (.insert md x f2 f1 c pb j hc hj)
        | visit => cases ho
        | erase => cases ho
      · exact eff hq (.insertBad o c pb j hc hj)
    · exact eff hq (.startOver o c pb j hc)
  | rollReset o pb j => exact eff hq (.rollReset o pb j)
  | rollUnlock o pb => exact quiet hq (.rollUnlock o pb)
  | rollSize o =>
    by_cases h : 1 ≤ s.mem.tab.size
    · exact eff hq (.rollSize o h)
    · exact eff hq (.rollSizeWrap o (by omega))
  | eraseReset g j d cont => exact eff hq (.eraseReset g j d cont)
  | eraseSize g d cont =>
    by_cases h : 1 ≤ s.mem.tab.size
    · cases cont with
      | none => exact eff hq (.eraseSize g d h)
      | some q => obtain ⟨act, js, r⟩ := q; exact eff hq (.eraseSizeMore g d act js r h)
    · exact eff hq (.eraseSizeWrap g d cont (by omega))
  | swLock md act g r =>
    cases md with
    | shared => exact quiet hq (.swLockS act g r (hS _))
    | excl => exact quiet hq (.swLockX act g r (hX _))
  | swAt md act g js r =>
    cases js with
    | nil => exact quiet hq (.swEnd md act g r)
    | cons j js =>
      cases hy : s.mem.slot g j with
      | none => exact quiet hq (.swBad md act g j js r hy)
      | some y =>
        cases ha : act y with
        | go v add => exact eff hq (.swGo md act g j js r y v add hy ha)
        | stop v _ => exact eff hq (.swStop md act g j js r y v _ hy ha)
        | erase =>
          rcases hsw _ _ _ _ _ hq with rfl | h
          · by_cases hl : s.mem.drop g j ≤ s.mem.tab.ml
            · exact eff hq (.swErase act g j js r y hy ha hl)
            · exact eff hq (.swEraseWrap act g j js r y hy ha hl)
          · exact absurd ha (h y)
  | unlock g md r => exact quiet hq (.unlock g md r)
  | leave r => exact quiet hq (.leave r)

/-- No unending run of one thread: it returns. -/
theorem solo_returns {cfg : Cfg} {t : Nat} {σ : Nat → State K V} (h0 : SInv (σ 0)) (hs : Solo t (σ 0))
    (hn : (σ 0).pc t ≠ .idle) (hst : ∀ i, StepBy cfg t (σ i) (σ (i + 1))) (hw : ∀ i, NoWrap (σ i)) :
    ∃ i r, (σ i).pc t = .done r := by
  by_contra hno
  push Not at hno
  have hsi : ∀ i, SInv (σ i) ∧ Solo t (σ i) ∧ (σ i).pc t ≠ .idle := by
    intro i
    induction i with
    | zero => exact ⟨h0, hs, hn⟩
    | succ i ih =>
      refine ⟨ih.1.step (hw i) (hst i), ih.2.1.step (hst i), ?_⟩
      have h1 := (hst i).less ih.1 (hw i) ih.2.1 ih.2.2 (hno i)
      exact (hst i).not_idle
  have hacc : ∀ x : Mem K V × Pc K V, Acc (fun a b : Mem K V × Pc K V => Less a.1 a.2 b.1 b.2) x →
      ∀ i, x = ((σ i).mem, (σ i).pc t) → False := by
    intro x hx
    induction hx with
    | intro x _ ih =>
      intro i hxi
      subst hxi
      exact ih ((σ (i + 1)).mem, (σ (i + 1)).pc t)
        ((hst i).less (hsi i).1 (hw i) (hsi i).2.1 (hsi i).2.2 (hno i)) (i + 1) rfl
  exact hacc _ (less_wf.apply _) 0 rfl

end Conc.Tab

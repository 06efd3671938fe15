/-
What threads must see, under weak memory. Lemmas only; the model is `Verif.Conc.Weak`.
-/
import Verif.Conc.WeakAcct

namespace Conc.Tab
open Foa
open Conc.Locking (Mode)
variable {K V : Type}

theorem Eff.grp {m m' : Mem K V} {p p' : Pc K V} (h : Eff m p m' p') {g : Nat} (hg : p.locks ≠ some (g, .excl)) :
    m'.grp g = m.grp g := by
  have hset : ∀ (i : Nat) (G : Group), i ≠ g → (m.setGrp i G).grp g = m.grp g := by
    intro i G hi
    simp only [Mem.setGrp, Mem.grp, Arrays.setGrp]
    rw [if_neg (fun h => hi h.symm)]
  have hcall : ∀ md i j (y : K × V) v, (m.call md i j y v).grp g = m.grp g := by
    intro md i j y v; cases md <;> rfl
  cases h with
  | eraseReset i j d cont => exact hset _ _ (fun h => hg (by rw [← h]; rfl))
  | insSet o c pb j js h1 h2 h3 => exact hset _ _ (fun h => hg (by rw [← h]; rfl))
  | insFull o c pb h1 h2 => exact hset _ _ (fun h => hg (by rw [← h]; rfl))
  | rollReset o pb j => exact hset _ _ (fun h => hg (by rw [← h]; rfl))
  | visit md k f pb j y hy => exact hcall _ _ _ _ _
  | found md x f2 f1 pb j y hy => exact hcall _ _ _ _ _
  | eraseNot k p pb j y v hy hv => rfl
  | swGo md act i j js r y v add hy hv => exact hcall _ _ _ _ _
  | swStop md act i j js r y v _ hy hv => exact hcall _ _ _ _ _
  | _ => rfl

theorem Eff.slots {m m' : Mem K V} {p p' : Pc K V} (h : Eff m p m' p') {g j : Nat} {y' : K × V} (hy' : m'.slot g j = some y') :
    (∃ y, m.slot g j = some y ∧ y.1 = y'.1) ∨
    (∃ md x f2 f1 c pb, p = .insInc (.insert md x f2 f1) c pb j ∧ g = pb.pos ∧ y'.1 = x.1 ∧
      m.cnt (m.pos0 x.1) % 2 ^ 32 = c % 2 ^ 32) := by
  have hcall : ∀ {md i l} {y : K × V} {v}, m.slot i l = some y → (m.call md i l y v).slot g j = some y' →
      ∃ y, m.slot g j = some y ∧ y.1 = y'.1 := by
    intro md i l y v hy h
    cases md with
    | shared => exact ⟨y', h, rfl⟩
    | excl =>
      simp only [Mem.call, Mem.setSlot, Mem.slot, Arrays.setSlot] at h
      split at h
      · rename_i hc; cases h; exact ⟨y, by rw [hc.1, hc.2]; exact hy, rfl⟩
      · exact ⟨y', h, rfl⟩
  have htake : ∀ {i l n}, ((m.setSlot i l none).setMl n).slot g j = some y' → ∃ y, m.slot g j = some y ∧ y.1 = y'.1 := by
    intro i l n h
    simp only [Mem.setMl, Mem.setSlot, Mem.slot, Arrays.setSlot] at h
    split at h
    · cases h
    · exact ⟨y', h, rfl⟩
  cases h with
  | visit md k f pb l y hy => exact .inl (hcall hy hy')
  | found md x f2 f1 pb l y hy => exact .inl (hcall hy hy')
  | eraseNot k p pb l y v hy hv => exact .inl (hcall hy hy')
  | swGo md act i l js r y v add hy hv => exact .inl (hcall hy hy')
  | swStop md act i l js r y v _ hy hv => exact .inl (hcall hy hy')
  | erase k p pb l y hy hv hd => exact .inl (htake hy')
  | swErase act i l js r y hy hv hd => exact .inl (htake hy')
  | insert md x f2 f1 c pb l h1 h2 =>
    simp only [Mem.setSlot, Mem.slot, Arrays.setSlot] at hy'
    split at hy'
    · rename_i hc
      cases hy'
      obtain ⟨rfl, rfl⟩ := hc
      exact .inr ⟨md, x, f2, f1, c, pb, rfl, rfl, rfl, h1⟩
    · exact .inl ⟨y', hy', rfl⟩
  | _ => exact .inl ⟨y', hy', rfl⟩

theorem Eff.cnt_same {m m' : Mem K V} {p p' : Pc K V} (h : Eff m p m' p') (hn : ∀ o c pb j, p ≠ .insInc o c pb j) :
    m'.cnt = m.cnt := by
  have hcall : ∀ md i j (y : K × V) v, (m.call md i j y v).cnt = m.cnt := by
    intro md i j y v; cases md <;> rfl
  cases h <;> first | rfl | exact hcall _ _ _ _ _ | exact absurd rfl (hn _ _ _ _)

theorem Eff.cnt_inc {m m' : Mem K V} {p p' : Pc K V} (h : Eff m p m' p') (hbad : p' ≠ .bad) {o : KOp K V} {c : Nat}
    {pb : Prober} {j : Nat} (hq : p = .insInc o c pb j) (i : Nat) :
    m'.cnt i = if i = m.pos0 o.key then m.cnt i + 1 else m.cnt i := by
  subst hq
  have : ∀ x : K, (m.incCnt (m.pos0 x)).cnt i = if i = m.pos0 x then m.cnt i + 1 else m.cnt i := by
    intro x
    simp only [Mem.incCnt]
    split
    · rename_i h; rw [h]
    · rfl
  cases h with
  | insert md x f2 f1 c pb j h1 h2 => exact this _
  | insertBad o c pb j h1 h2 => exact absurd rfl hbad
  | startOver o c pb j h1 => exact this _

end Conc.Tab

namespace Conc.Weak
open Foa Conc.Tab
open Conc.Locking (Mode)
variable {K V : Type}

/-! ### what is seen -/

/-- With view `vw` the overflow bit is seen set. -/
def Bits (w : WState K V) (vw : Nat → Nat) (g b : Nat) : Prop :=
  ∀ v, vw g ≤ v → v ≤ w.top g → (w.ver g v).ofw.testBit b = true

/-- With view `vw` a search for `x` gets to slot `j` of group `g` and sees it match. -/
def Vis (w : WState K V) (vw : Nat → Nat) (g j : Nat) (x : K) : Prop :=
  (∀ v, vw g ≤ v → v ≤ w.top g → (w.ver g v).md j = rhash (w.mem.hashOf x)) ∧
  ∃ i, i < 2 ^ w.mem.tab.arr.k ∧ g = pat w.mem.tab.arr.k (w.mem.pos0 x) i ∧
    ∀ i' < i, Bits w vw (pat w.mem.tab.arr.k (w.mem.pos0 x) i') (w.mem.hashOf x % 8)

theorem Bits.mono {w : WState K V} {vw vw' : Nat → Nat} {g b : Nat} (h : Bits w vw g b) (hle : ∀ g, vw g ≤ vw' g) :
    Bits w vw' g b := fun v h1 h2 => h v ((hle g).trans h1) h2

theorem Vis.mono {w : WState K V} {vw vw' : Nat → Nat} {g j : Nat} {x : K} (h : Vis w vw g j x) (hle : ∀ g, vw g ≤ vw' g) :
    Vis w vw' g j x := by
  obtain ⟨h1, i, h2, h3, h4⟩ := h
  exact ⟨fun v h5 h6 => h1 v ((hle g).trans h5) h6, i, h2, h3, fun i' hi' => (h4 i' hi').mono hle⟩

theorem Vis.congr {w : WState K V} {vw : Nat → Nat} {g j : Nat} {x y : K} (h : Vis w vw g j x)
    (he : w.mem.tab.fns.hash y = w.mem.tab.fns.hash x) : Vis w vw g j y := by
  have h1 : w.mem.hashOf y = w.mem.hashOf x := he
  have h2 : w.mem.pos0 y = w.mem.pos0 x := by simp only [Mem.pos0, h1]
  simp only [Vis, h1, h2]
  exact h

/-- What a step that changes memory leaves as it is. -/
structure Ext (w w' : WState K V) : Prop where
  k : w'.mem.tab.arr.k = w.mem.tab.arr.k
  fns : w'.mem.tab.fns = w.mem.tab.fns
  top : ∀ g, w.top g ≤ w'.top g
  old : ∀ g v, v ≤ w.top g → w'.ver g v = w.ver g v
  new : ∀ g v, w.top g < v → v ≤ w'.top g → w'.ver g v = w'.mem.grp g
  ofw : ∀ g b, (w.mem.grp g).ofw.testBit b = true → (w'.mem.grp g).ofw.testBit b = true

theorem Ext.hashOf {w w' : WState K V} (h : Ext w w') (x : K) : w'.mem.hashOf x = w.mem.hashOf x := by
  simp only [Mem.hashOf, h.fns]

theorem Ext.pos0 {w w' : WState K V} (h : Ext w w') (x : K) : w'.mem.pos0 x = w.mem.pos0 x := by
  simp only [Mem.pos0, Mem.hashOf, Arrays.posFor, h.k, h.fns]

theorem Bits.ext {w w' : WState K V} (h : Ext w w') (hcur : ∀ g, w.ver g (w.top g) = w.mem.grp g) {vw : Nat → Nat} {g b : Nat}
    (hle : vw g ≤ w.top g) (hb : Bits w vw g b) : Bits w' vw g b := by
  intro v h1 h2
  by_cases hv : v ≤ w.top g
  · rw [h.old g v hv]; exact hb v h1 hv
  · rw [h.new g v (by omega) h2]
    refine h.ofw g b ?_
    rw [← hcur]
    exact hb _ hle le_rfl

theorem Vis.ext {w w' : WState K V} (h : Ext w w') (hcur : ∀ g, w.ver g (w.top g) = w.mem.grp g) {vw : Nat → Nat} {g j : Nat} {x : K}
    (hle : ∀ g, vw g ≤ w.top g) (hmd : (w'.mem.grp g).md j = rhash (w'.mem.hashOf x)) (hv : Vis w vw g j x) : Vis w' vw g j x := by
  obtain ⟨h1, i, h2, h3, h4⟩ := hv
  refine ⟨fun v h5 h6 => ?_, i, by rw [h.k]; exact h2, by rw [h.k, h.pos0]; exact h3, fun i' hi' => ?_⟩
  · by_cases hv : v ≤ w.top g
    · rw [h.old g v hv, h.hashOf]; exact h1 v h5 hv
    · rw [h.new g v (by omega) h6]; exact hmd
  · rw [h.k, h.pos0, h.hashOf]
    exact (h4 i' hi').ext h hcur (hle _)

/-! ### what is ahead of a search -/

/-- Elements equivalent to the key, as far as they satisfy `P`, are at a probe index and slot satisfying `Q`. -/
def AheadW (m : Mem K V) (P : Nat → Nat → Prop) (x : K) (Q : Nat → Nat → Prop) : Prop :=
  ∀ g j y i, m.slot g j = some y → m.tab.fns.eq x y.1 = true → P g j → i < 2 ^ m.tab.arr.k →
    g = pat m.tab.arr.k (m.pos0 x) i → Q i j

def NoKeyW (m : Mem K V) (P : Nat → Nat → Prop) (x : K) : Prop :=
  ∀ g j y, m.slot g j = some y → m.tab.fns.eq x y.1 = true → ¬ P g j

def AheadP (m : Mem K V) (P : Nat → Nat → Prop) : Pc K V → Prop
  | .scan o _ pb todo acc => AheadW m P o.key fun i j => pb.step < i ∨ (i = pb.step ∧ (j ∈ todo ∨ j ∈ acc))
  | .lock o _ pb ms | .check o _ pb ms => AheadW m P o.key fun i j => pb.step < i ∨ (i = pb.step ∧ j ∈ ms)
  | .over o _ pb => AheadW m P o.key fun i _ => pb.step < i
  | .reserve o _ | .test o _ _ | .insLock o _ _ | .insFind o _ _ | .insNext o _ _ | .insInc o _ _ _ => NoKeyW m P o.key
  | _ => True

theorem AheadP.start {m : Mem K V} {own : Nat → Nat → Prop} (hs : Shape m own) (P : Nat → Nat → Prop) (o : KOp K V) (c : Nat) :
    AheadP m P (.scan o c (probe0 m o) (List.range N) []) := by
  intro g j y i hy _ _ _ _
  have hv := (hs.live hy).2.valid hy
  rcases Nat.eq_zero_or_pos i with h | h
  · exact .inr ⟨h, .inl (List.mem_range.2 hv.2.1)⟩
  · exact .inl h

theorem AheadP.miss {m : Mem K V} {P : Nat → Nat → Prop} {o : KOp K V} (c : Nat) (h : NoKeyW m P o.key) : AheadP m P (missPc o c) := by
  simp only [missPc]
  split
  · exact h
  · trivial

theorem AheadP.quiet {m : Mem K V} {canS canX : Nat → Prop} {p p' : Pc K V} (h : Quiet m canS canX p p') (hr : Racy p = false)
    {own : Nat → Nat → Prop} (hs : Shape m own) (hf : m.tab.fns.Lawful) (hp : PcOk m p) {P : Nat → Nat → Prop}
    (ha : AheadP m P p) : AheadP m P p' := by
  cases h with
  | enter o =>
    simp only [enterPc]
    split
    · trivial
    · exact AheadP.start hs P o 0
  | counter o => cases hr
  | scanMatch o c pb todo acc j hj hm => cases todo with
    | nil => cases hj
    | cons _ _ => cases hr
  | scanMiss o c pb todo acc j hj hm => cases todo with
    | nil => cases hj
    | cons _ _ => cases hr
  | scanNone o c pb =>
    intro g l y i hy he hP hi hg
    rcases ha g l y i hy he hP hi hg with h | ⟨h1, h2 | h2⟩
    · exact h
    · cases h2
    · cases h2
  | scanSome o c pb acc _ =>
    intro g l y i hy he hP hi hg
    rcases ha g l y i hy he hP hi hg with h | ⟨h1, h2 | h2⟩
    · exact .inl h
    · cases h2
    · refine .inr ⟨h1, List.mem_filter.2 ⟨List.mem_range.2 ?_, by simpa using h2⟩⟩
      exact ((hs.live hy).2.valid hy).2.1
  | lockS o c pb ms _ _ => exact ha
  | lockX o c pb ms _ _ => exact ha
  | checkEmpty o c pb j ms hm =>
    intro g l y i hy he hP hi hg
    rcases ha g l y i hy he hP hi hg with h | ⟨h1, h2⟩
    · exact .inl h
    · rcases List.mem_cons.1 h2 with rfl | h2
      · exfalso
        have h3 := (hs.eq_probe hf hy he).1
        have hgp : g = pb.pos := by rw [hg, h1, hp.1.1]
        rw [hgp, hm] at h3
        have := rhash_ge_two (m.hashOf o.key)
        omega
      · exact .inr ⟨h1, h2⟩
  | checkMiss o c pb j ms z hm hz hne =>
    intro g l y i hy he hP hi hg
    rcases ha g l y i hy he hP hi hg with h | ⟨h1, h2⟩
    · exact .inl h
    · rcases List.mem_cons.1 h2 with rfl | h2
      · exfalso
        have hgp : g = pb.pos := by rw [hg, h1, hp.1.1]
        rw [hgp, hz] at hy
        cases hy
        rw [hne] at he
        cases he
      · exact .inr ⟨h1, h2⟩
  | checkEnd o c pb =>
    intro g l y i hy he hP hi hg
    rcases ha g l y i hy he hP hi hg with h | ⟨h1, h2⟩
    · exact h
    · cases h2
  | overEnd o c pb h => cases hr
  | overNext o c pb h => cases hr
  | testOk o c n _ => cases hr
  | testFail o c n _ => cases hr
  | insLock o c pb _ => exact ha
  | insNext o c pb => exact ha
  | swEnd md act g r => split <;> trivial
  | _ => trivial

/-- Memory changes under a thread. -/
theorem AheadP.keep {gx : Option Nat} {m m' : Mem K V} (hf : Frame gx m m') {P P' : Nat → Nat → Prop} {p : Pc K V}
    (hk : ∀ x, p.key? = some x → ∀ g j y', m'.slot g j = some y' → m.tab.fns.eq x y'.1 = true → P' g j →
      P g j ∧ ∃ y, m.slot g j = some y ∧ y.1 = y'.1)
    (h : AheadP m P p) : AheadP m' P' p := by
  have ahead : ∀ {x : K} {Q : Nat → Nat → Prop}, p.key? = some x → AheadW m P x Q → AheadW m' P' x Q := by
    intro x Q hx ha g j y' i hy' he hP hi hg
    rw [hf.fns] at he
    rw [hf.k] at hi hg
    rw [hf.pos0] at hg
    obtain ⟨h1, y, hy, hyy⟩ := hk x hx g j y' hy' he hP
    exact ha g j y i hy (by rw [hyy]; exact he) h1 hi hg
  have nokey : ∀ {x : K}, p.key? = some x → NoKeyW m P x → NoKeyW m' P' x := by
    intro x hx ha g j y' hy' he hP
    rw [hf.fns] at he
    obtain ⟨h1, y, hy, hyy⟩ := hk x hx g j y' hy' he hP
    exact ha g j y hy (by rw [hyy]; exact he) h1
  cases p with
  | scan o c pb todo acc => exact ahead rfl h
  | lock o c pb ms => exact ahead rfl h
  | check o c pb ms => exact ahead rfl h
  | over o c pb => exact ahead rfl h
  | reserve o c => exact nokey rfl h
  | test o c n => exact nokey rfl h
  | insLock o c pb => exact nokey rfl h
  | insFind o c pb => exact nokey rfl h
  | insNext o c pb => exact nokey rfl h
  | insInc o c pb j => exact nokey rfl h
  | _ => trivial

/-- A step of the thread itself that changes memory, as far as the place in the code is concerned. -/
theorem AheadP.eff {m m' : Mem K V} {p p' : Pc K V} (h : Eff m p m' p') {M : Mem K V} {P : Nat → Nat → Prop} (ha : AheadP M P p) :
    AheadP M P p' := by
  cases h <;> first | trivial | exact ha

/-! ### the invariant -/

/-- The groups an insertion has passed are seen marked. -/
def PathOk (w : WState K V) (vw : Nat → Nat) : Pc K V → Prop
  | .insLock o _ pb | .insFind o _ pb | .insNext o _ pb | .insInc o _ pb _ =>
    ∀ i < pb.step, Bits w vw (pat w.mem.tab.arr.k (w.mem.pos0 o.key) i) (w.mem.hashOf o.key % 8)
  | _ => True

def StampOk (w : WState K V) (vw : Nat → Nat) (p : Pc K V) : Prop :=
  ∀ x c, p.stamp = some (x, c) → c ≤ w.mem.cnt (w.mem.pos0 x) ∧ (∀ g, w.cmsg (w.mem.pos0 x) c g ≤ vw g) ∧
    AheadP w.mem (fun g j => w.num g j ≤ c) p

structure VInv (w : WState K V) : Prop where
  cur : ∀ g, w.ver g (w.top g) = w.mem.grp g
  ne1 : ∀ g v j, v ≤ w.top g → (w.ver g v).md j ≠ 1 → (w.mem.grp g).md j ≠ 1
  vle : ∀ t g, w.view t g ≤ w.top g
  cle : ∀ p i g, w.cmsg p i g ≤ w.top g
  cmono : ∀ p i i' g, i ≤ i' → i' ≤ w.mem.cnt p → w.cmsg p i g ≤ w.cmsg p i' g
  held : ∀ t g m, (w.pc t).locks = some (g, m) → w.view t g = w.top g
  elem : ∀ g j y, w.mem.slot g j = some y → w.num g j ≤ w.mem.cnt (w.mem.pos0 y.1) ∧
    Vis w (w.cmsg (w.mem.pos0 y.1) (w.num g j)) g j y.1
  path : ∀ t, PathOk w (w.view t) (w.pc t)
  stamp : ∀ t, StampOk w (w.view t) (w.pc t)
  kn : ∀ t g j y, w.kn t g j → w.mem.slot g j = some y → Vis w (w.view t) g j y.1

theorem pos0_congr {m : Mem K V} {x y : K} (h : m.tab.fns.hash x = m.tab.fns.hash y) : m.pos0 x = m.pos0 y := by
  simp only [Mem.pos0, Mem.hashOf, h]

/-- What an insertion has taken over with the counter is seen by it. -/
theorem VInv.stampVis {w : WState K V} (hv : VInv w) (hf : w.mem.tab.fns.Lawful) {t : Nat} {x : K} {c : Nat}
    (hs : (w.pc t).stamp = some (x, c)) {g j : Nat} {y : K × V} (hy : w.mem.slot g j = some y)
    (he : w.mem.tab.fns.eq x y.1 = true) (hn : w.num g j ≤ c) : Vis w (w.view t) g j x := by
  obtain ⟨h1, h2, _⟩ := hv.stamp t x c hs
  obtain ⟨h3, h4⟩ := hv.elem g j y hy
  have hh := hf.compat _ _ he
  rw [← pos0_congr hh] at h4
  refine (h4.congr hh).mono fun g => ?_
  exact (hv.cmono _ _ _ _ hn h1).trans (h2 g)

/-- At the point of insertion there is no equivalent element. -/
theorem VInv.noKey {w : WState K V} (hv : VInv w) (hf : w.mem.tab.fns.Lawful) (hw : NoWrap w.sc) {t : Nat} {o : KOp K V} {c : Nat}
    {pb : Prober} {j : Nat} (hq : w.pc t = .insInc o c pb j) (hc : w.mem.cnt (w.mem.pos0 o.key) % 2 ^ 32 = c % 2 ^ 32) :
    NoKey w.mem o.key := by
  obtain ⟨h1, _, h3⟩ := hv.stamp t o.key c (by rw [hq]; rfl)
  have h2 := hw t o c pb j hq
  have hcc : w.mem.cnt (w.mem.pos0 o.key) = c := by
    have h2 : w.mem.cnt (w.mem.pos0 o.key) < c + 2 ^ 32 := h2
    omega
  rw [hq] at h3
  intro g l y hy
  by_contra he
  have he : w.mem.tab.fns.eq o.key y.1 = true := by simpa using he
  refine h3 g l y hy he ?_
  have := (hv.elem g l y hy).1
  rw [← pos0_congr (hf.compat _ _ he), hcc] at this
  exact this

/-! ### steps that leave memory as it is -/

theorem VInv.move {w : WState K V} (hv : VInv w) {t : Nat} {p' : Pc K V} {vw : Nat → Nat} (hge : ∀ g, w.view t g ≤ vw g)
    (hle : ∀ g, vw g ≤ w.top g) (hh : ∀ g m, p'.locks = some (g, m) → vw g = w.top g) (hp : PathOk w vw p')
    (hs : StampOk w vw p') : VInv (w.move t p' vw) := by
  have hpt : (w.move t p' vw).pc t = p' := by show (w.sc.set t w.mem p').pc t = _; rw [State.set_pc, upd_self]
  have hpu : ∀ u, u ≠ t → (w.move t p' vw).pc u = w.pc u := by
    intro u hu; show (w.sc.set t w.mem p').pc u = _; rw [State.set_pc, upd_of_ne _ hu]
  have hvt : (w.move t p' vw).view t = vw := by simp only [WState.move, if_true]
  have hvu : ∀ u, u ≠ t → (w.move t p' vw).view u = w.view u := fun u hu => by simp only [WState.move, if_neg hu]
  refine ⟨hv.cur, hv.ne1, ?_, hv.cle, hv.cmono, ?_, hv.elem, ?_, ?_, ?_⟩
  · intro u g
    by_cases hu : u = t
    · subst hu; rw [hvt]; exact hle g
    · rw [hvu u hu]; exact hv.vle u g
  · intro u g m hl
    by_cases hu : u = t
    · subst hu; rw [hvt]; rw [hpt] at hl; exact hh g m hl
    · rw [hvu u hu]; rw [hpu u hu] at hl; exact hv.held u g m hl
  · intro u
    by_cases hu : u = t
    · subst hu; rw [hvt, hpt]; exact hp
    · rw [hvu u hu, hpu u hu]; exact hv.path u
  · intro u
    by_cases hu : u = t
    · subst hu; rw [hvt, hpt]; exact hs
    · rw [hvu u hu, hpu u hu]; exact hv.stamp u
  · intro u g j y hk hy
    have h1 : Vis w (w.view u) g j y.1 := hv.kn u g j y hk hy
    by_cases hu : u = t
    · subst hu; rw [hvt]; exact h1.mono hge
    · rw [hvu u hu]; exact h1

theorem PathOk.mono {w : WState K V} {vw vw' : Nat → Nat} {p : Pc K V} (h : PathOk w vw p) (hle : ∀ g, vw g ≤ vw' g) :
    PathOk w vw' p := by
  cases p <;> first | trivial | exact fun i hi => (h i hi).mono hle

theorem StampOk.of {w : WState K V} {vw vw' : Nat → Nat} {p p' : Pc K V} (h : StampOk w vw p) (hle : ∀ g, vw g ≤ vw' g)
    (hs : p'.stamp = none ∨ p'.stamp = p.stamp)
    (ha : ∀ x c, p.stamp = some (x, c) → AheadP w.mem (fun g j => w.num g j ≤ c) p → AheadP w.mem (fun g j => w.num g j ≤ c) p') :
    StampOk w vw' p' := by
  intro x c hx
  rcases hs with hs | hs
  · rw [hs] at hx; cases hx
  · rw [hs] at hx
    obtain ⟨h1, h2, h3⟩ := h x c hx
    exact ⟨h1, fun g => (h2 g).trans (hle g), ha x c hx h3⟩

theorem VInv.quiet {w : WState K V} (hv : VInv w) (hb : WBase w) {t : Nat} {p' : Pc K V} (hr : Racy (w.pc t) = false)
    (h : Quiet w.mem (w.sc.canS t) (w.sc.canX t) (w.pc t) p') : VInv (w.move t p' (w.lockView t p')) := by
  have hge : ∀ g, w.view t g ≤ w.lockView t p' g := by
    intro g
    simp only [WState.lockView]
    split
    · exact hv.vle t g
    · exact le_rfl
  refine hv.move hge ?_ ?_ ?_ ?_
  · intro g
    simp only [WState.lockView]
    split
    · exact le_rfl
    · exact hv.vle t g
  · intro g m hl
    simp [WState.lockView, hl]
  · have hp := hv.path t
    have hok := hb.pcs t
    have hheld := hv.held t
    generalize hq : w.pc t = p at h hp hok hheld
    cases h with
    | insLock o c pb hc => exact PathOk.mono (p := .insFind o c pb) hp hge
    | insNext o c pb =>
      intro i hi
      have hi : i < pb.step + 1 := hi
      by_cases hi' : i < pb.step
      · exact (hp i hi').mono hge
      · have : i = pb.step := by omega
        subst this
        rw [← hok.1.2.2.1]
        intro v h1 h2
        have h3 := hheld pb.pos .excl rfl
        have h4 := hge pb.pos
        have : v = w.top pb.pos := by omega
        rw [this, hv.cur]
        exact hok.2
    | enter o => simp only [enterPc]; split <;> trivial
    | swEnd md act g r => split <;> trivial
    | overEnd o c pb h => rw [hq] at hr; cases hr
    | overNext o c pb h => rw [hq] at hr; cases hr
    | testOk o c n _ => rw [hq] at hr; cases hr
    | _ => trivial
  · refine (hv.stamp t).of hge ?_ ?_
    · rcases h.stamp with h1 | h1 | ⟨x, h1, h2⟩
      · exact .inl h1
      · exact .inr h1
      · exfalso
        generalize hq : w.pc t = p at h h2 hr
        cases h with
        | counter o => cases hr
        | enter o =>
          simp only [enterPc] at h1
          split at h1
          · cases h1
          · rename_i hn; simp [Pc.stamp, hn] at h1
        | overNext o c pb h => cases hr
        | overEnd o c pb h => cases hr
        | testOk o c n _ => cases hr
        | swEnd md act g r => split at h1 <;> cases h1
        | insLock o c pb hc => cases h2
        | insNext o c pb => cases h2
        | scanMatch o c pb todo acc j hj hm => cases todo with
          | nil => cases hj
          | cons _ _ => cases hr
        | scanMiss o c pb todo acc j hj hm => cases todo with
          | nil => cases hj
          | cons _ _ => cases hr
        | scanNone o c pb => simp only [Pc.stamp] at h1 h2; rw [h1] at h2; cases h2
        | scanSome o c pb acc _ => simp only [Pc.stamp] at h1 h2; rw [h1] at h2; cases h2
        | lockS o c pb ms _ _ => simp only [Pc.stamp] at h1 h2; rw [h1] at h2; cases h2
        | lockX o c pb ms _ _ => simp only [Pc.stamp] at h1 h2; rw [h1] at h2; cases h2
        | checkEmpty o c pb j ms _ => simp only [Pc.stamp] at h1 h2; rw [h1] at h2; cases h2
        | checkMiss o c pb j ms z _ _ _ => simp only [Pc.stamp] at h1 h2; rw [h1] at h2; cases h2
        | checkEnd o c pb => simp only [Pc.stamp] at h1 h2; rw [h1] at h2; cases h2
        | _ => cases h1
    · intro x c hx ha
      exact ha.quiet h hr hb.base.shape hb.base.law (hb.pcs t)

/-! ### reads without a lock -/

theorem VInv.counter {w : WState K V} (hv : VInv w) (hb : WBase w) {t : Nat} {o : KOp K V} {c : Nat} (hq : w.pc t = .counter o)
    (hc : c ≤ w.mem.cnt (w.mem.pos0 o.key)) :
    VInv (w.move t (.scan o c (probe0 w.mem o) (List.range N) []) (fun g => max (w.view t g) (w.cmsg (w.mem.pos0 o.key) c g))) := by
  refine hv.move (fun g => Nat.le_max_left _ _) (fun g => ?_) (fun g m hl => by cases hl) trivial ?_
  · exact Nat.max_le.2 ⟨hv.vle t g, hv.cle _ _ _⟩
  · intro x c' hx
    simp only [Pc.stamp] at hx
    split at hx
    · cases hx
      exact ⟨hc, fun g => Nat.le_max_right _ _, AheadP.start hb.base.shape _ o c⟩
    · cases hx

/-- A search sees what it must see. -/
def Sees (w : WState K V) (vw : Nat → Nat) (P : Nat → Nat → Prop) (x : K) : Prop :=
  ∀ g j y, w.mem.slot g j = some y → w.mem.tab.fns.eq x y.1 = true → P g j → Vis w vw g j x

theorem AheadP.scanMatch {m : Mem K V} {P : Nat → Nat → Prop} {o : KOp K V} {c : Nat} {pb : Prober} {todo acc : List Nat} {j : Nat}
    (ha : AheadP m P (.scan o c pb todo acc)) : AheadP m P (.scan o c pb (todo.erase j) (j :: acc)) := by
  intro g l y i hy he hP hi hg
  rcases ha g l y i hy he hP hi hg with h | ⟨h1, h2⟩
  · exact .inl h
  · refine .inr ⟨h1, ?_⟩
    by_cases hl : l = j
    · subst hl; exact .inr List.mem_cons_self
    · rcases h2 with h2 | h2
      · exact .inl ((List.mem_erase_of_ne hl).2 h2)
      · exact .inr (List.mem_cons_of_mem _ h2)

theorem AheadP.scanMiss {w : WState K V} {t : Nat} {P : Nat → Nat → Prop} {o : KOp K V} {c : Nat} {pb : Prober}
    {todo acc : List Nat} {j v : Nat} (hsee : Sees w (w.view t) P o.key) (hp : PbS w.mem o pb)
    (ha : AheadP w.mem P (.scan o c pb todo acc)) (hr : w.Readable t pb.pos v)
    (hm : (w.ver pb.pos v).md j ≠ rhash (w.mem.hashOf o.key)) : AheadP w.mem P (.scan o c pb (todo.erase j) acc) := by
  intro g l y i hy he hP hi hg
  rcases ha g l y i hy he hP hi hg with h | ⟨h1, h2⟩
  · exact .inl h
  · refine .inr ⟨h1, ?_⟩
    by_cases hl : l = j
    · exfalso
      subst hl
      have hgp : g = pb.pos := by rw [hg, h1, hp.1]
      subst hgp
      exact hm ((hsee _ _ y hy he hP).1 v hr.1 hr.2)
    · rcases h2 with h2 | h2
      · exact .inl ((List.mem_erase_of_ne hl).2 h2)
      · exact .inr h2

/-- A search that ends has seen that there is nothing it must see. -/
theorem AheadP.overEnd {w : WState K V} {t : Nat} {P : Nat → Nat → Prop} {o : KOp K V} {c : Nat} {pb : Prober} {v : Nat}
    (hsee : Sees w (w.view t) P o.key) (hp : PbS w.mem o pb) (ha : AheadP w.mem P (.over o c pb))
    (hr : w.Readable t pb.pos v)
    (hend : (w.ver pb.pos v).isNotOverflowed (w.mem.hashOf o.key) = true ∨ (pb.next w.mem.tab.arr.mask).2 = false) :
    NoKeyW w.mem P o.key := by
  intro g j y hy he hP
  obtain ⟨_, i, hi, hg, hb⟩ := hsee g j y hy he hP
  have hlt : pb.step < i := ha g j y i hy he hP hi hg
  rcases hend with h | h
  · have := hb _ hlt
    rw [← hp.1] at this
    have := this v hr.1 hr.2
    simp [Group.isNotOverflowed, this] at h
  · have h2 := Nat.two_pow_pos w.mem.tab.arr.k
    have h' : ¬ pb.step + 1 ≤ 2 ^ w.mem.tab.arr.k - 1 := of_decide_eq_false h
    omega

theorem AheadP.overNext {m : Mem K V} {own : Nat → Nat → Prop} (hs : Shape m own) {P : Nat → Nat → Prop} {o : KOp K V} {c : Nat}
    {pb : Prober} (ha : AheadP m P (.over o c pb)) :
    AheadP m P (.scan o c (pb.next m.tab.arr.mask).1 (List.range N) []) := by
  intro g l y i hy he hP hi hg
  have hlt : pb.step < i := ha g l y i hy he hP hi hg
  have hv := (hs.live hy).2.valid hy
  show pb.step + 1 < i ∨ i = pb.step + 1 ∧ _
  by_cases hi' : i = pb.step + 1
  · exact .inr ⟨hi', .inl (List.mem_range.2 hv.2.1)⟩
  · exact .inl (by omega)

theorem missPc_stamp {o : KOp K V} {c : Nat} {pb : Prober} :
    (missPc o c).stamp = none ∨ (missPc o c).stamp = (Pc.over o c pb : Pc K V).stamp := by
  simp only [missPc]
  split
  · rename_i h; right; simp [Pc.stamp, h]
  · left; rfl

theorem stamp_of_over {o : KOp K V} {c : Nat} {pb : Prober} {x : K} {c' : Nat}
    (h : (Pc.over o c pb : Pc K V).stamp = some (x, c')) : x = o.key ∧ c' = c := by
  simp only [Pc.stamp] at h
  split at h
  · cases h; exact ⟨rfl, rfl⟩
  · cases h

theorem VInv.sees {w : WState K V} (hv : VInv w) (hb : WBase w) {t : Nat} {x : K} {c : Nat} (hs : (w.pc t).stamp = some (x, c)) :
    Sees w (w.view t) (fun g j => w.num g j ≤ c) x := fun _ _ _ hy he hn => hv.stampVis hb.base.law hs hy he hn

/-- A step of a search that reads without a lock and keeps the view. -/
theorem VInv.read {w : WState K V} (hv : VInv w) {t : Nat} {p' : Pc K V} (hl : p'.locks = none)
    (hp : PathOk w (w.view t) p') (hs : p'.stamp = none ∨ p'.stamp = (w.pc t).stamp)
    (ha : ∀ x c, (w.pc t).stamp = some (x, c) → AheadP w.mem (fun g j => w.num g j ≤ c) (w.pc t) →
      AheadP w.mem (fun g j => w.num g j ≤ c) p') : VInv (w.move t p' (w.view t)) := by
  refine hv.move (fun _ => le_rfl) (hv.vle t) (fun g m h => by rw [hl] at h; cases h) hp ?_
  exact (hv.stamp t).of (fun _ => le_rfl) hs ha

/-! ### steps that change memory -/

theorem not_insInc {p : Pc K V} (h : ¬ ∃ o c pb j, p = .insInc o c pb j) : ∀ o c pb j, p ≠ .insInc o c pb j :=
  fun o c pb j hq => h ⟨o, c, pb, j, hq⟩

theorem eff_other {w : WState K V} {t : Nat} {m' : Mem K V} {p' : Pc K V} (hn : ∀ o c pb j, w.pc t ≠ .insInc o c pb j) :
    (w.eff t m' p').cmsg = w.cmsg ∧ (w.eff t m' p').num = w.num ∧ (w.eff t m' p').kn = w.kn := by
  refine ⟨?_, ?_, ?_⟩
  · funext q i
    simp only [WState.eff]
  · funext g j
    simp only [WState.eff]
  · funext u g j
    simp only [WState.eff]

theorem eff_ins {w : WState K V} {t : Nat} {m' : Mem K V} {p' : Pc K V} {o : KOp K V} {c : Nat} {pb : Prober} {l : Nat}
    (hq : w.pc t = .insInc o c pb l) :
    (∀ q i, (w.eff t m' p').cmsg q i = if q = w.mem.pos0 o.key ∧ i = w.mem.cnt q + 1 then w.effView t else w.cmsg q i) ∧
    (∀ g j, (w.eff t m' p').num g j = if g = pb.pos ∧ j = l then w.mem.cnt (w.mem.pos0 o.key) + 1 else w.num g j) ∧
    (∀ u g j, (w.eff t m' p').kn u g j ↔ if g = pb.pos ∧ j = l then u = t else w.kn u g j) := by
  refine ⟨fun q i => ?_, fun g j => ?_, fun u g j => ?_⟩
  · simp only [WState.eff, hq]
  · simp only [WState.eff, hq]
  · simp only [WState.eff, hq]

theorem eff_ext {w : WState K V} {t : Nat} {m' : Mem K V} {p' : Pc K V} (h : Eff w.mem (w.pc t) m' p') : Ext w (w.eff t m' p') := by
  have hf := h.frame
  refine ⟨hf.k, hf.fns, ?_, ?_, ?_, hf.ofw⟩
  · intro g
    simp only [WState.eff]
    split <;> omega
  · intro g v hv
    simp only [WState.eff]
    rw [if_neg (by omega)]
  · intro g v h1 h2
    simp only [WState.eff] at h2 ⊢
    split at h2
    · rename_i hl
      rw [if_pos ⟨hl, by omega⟩]
      rfl
    · omega

/-- View of the thread after the step. -/
theorem effView_ge {w : WState K V} (hv : VInv w) (t g : Nat) : w.view t g ≤ w.effView t g := by
  have := hv.vle t g
  simp only [WState.effView]
  split <;> omega

theorem acquired_le {w : WState K V} (hv : VInv w) (p : Pc K V) (g : Nat) : w.acquired p g ≤ w.top g := by
  simp only [WState.acquired]
  split
  · exact hv.cle _ _ _
  · exact Nat.zero_le _

theorem effView_le {w : WState K V} (hv : VInv w) (t g : Nat) (m' : Mem K V) (p' : Pc K V) :
    w.effView t g ≤ (w.eff t m' p').top g := by
  have h1 := hv.vle t g
  have h2 := acquired_le hv (w.pc t) g
  simp only [WState.effView, WState.eff]
  split <;> omega

theorem Vis.ext_eff {w : WState K V} (hv : VInv w) {t : Nat} {m' : Mem K V} {p' : Pc K V} (h : Eff w.mem (w.pc t) m' p')
    {own : Nat → Nat → Prop} (hs' : Shape m' own) (hlaw : m'.tab.fns.Lawful) {vw : Nat → Nat} (hle : ∀ g, vw g ≤ w.top g)
    {g j : Nat} {y : K × V} (hy : m'.slot g j = some y) (hvis : Vis w vw g j y.1) : Vis (w.eff t m' p') vw g j y.1 :=
  hvis.ext (eff_ext h) hv.cur hle (hs'.eq_probe hlaw hy (hlaw.refl _)).1

theorem VInv.eff {w : WState K V} (hv : VInv w) (hb : WBase w) (hw : NoWrap w.sc) {t : Nat} {m' : Mem K V} {p' : Pc K V}
    (h : Eff w.mem (w.pc t) m' p') : VInv (w.eff t m' p') ∧ WBase (w.eff t m' p') := by
  have hb' : WBase (w.eff t m' p') := hb.eff h fun md x f2 f1 c pb j hq hc => hv.noKey hb.base.law hw hq hc
  refine ⟨?_, hb'⟩
  have hf := h.frame
  have hext : Ext w (w.eff t m' p') := eff_ext h
  have hs' : Shape m' (own (w.eff t m' p').fake.pc) := hb'.base.shape
  have hlaw' : m'.tab.fns.Lawful := hb'.base.law
  have hlaw := hb.base.law
  have hpt : (w.eff t m' p').pc t = p' := by show (w.sc.set t m' p').pc t = _; rw [State.set_pc, upd_self]
  have hpu : ∀ u, u ≠ t → (w.eff t m' p').pc u = w.pc u := by
    intro u hu; show (w.sc.set t m' p').pc u = _; rw [State.set_pc, upd_of_ne _ hu]
  have hvt : (w.eff t m' p').view t = w.effView t := by simp only [WState.eff, if_true]
  have hvu : ∀ u, u ≠ t → (w.eff t m' p').view u = w.view u := fun u hu => by simp only [WState.eff, if_neg hu]
  have hge := effView_ge hv t
  have hvg : ∀ u g, w.view u g ≤ (w.eff t m' p').view u g := by
    intro u g
    by_cases hu : u = t
    · subst hu; rw [hvt]; exact hge g
    · rw [hvu u hu]
  have hbad : p' ≠ .bad := by
    have := hb'.pcs t
    rw [hpt] at this
    exact pcOk_not_bad this
  have hmem : (w.eff t m' p').mem = m' := rfl
  have hpos : ∀ x, m'.pos0 x = w.mem.pos0 x := hf.pos0
  -- old elements keep their number
  have hold : ∀ g j y, w.mem.slot g j = some y → (w.eff t m' p').num g j = w.num g j ∧
      ∀ u, (w.eff t m' p').kn u g j ↔ w.kn u g j := by
    intro g j y hy
    by_cases hq : ∃ o c pb l, w.pc t = .insInc o c pb l
    · obtain ⟨o, c, pb, l, hq⟩ := hq
      have hne : ¬ (g = pb.pos ∧ j = l) := by
        rintro ⟨rfl, rfl⟩
        have := hb.pcs t
        rw [hq] at this
        rw [this.2.1.2.2.1] at hy
        cases hy
      obtain ⟨_, e2, e3⟩ := eff_ins (m' := m') (p' := p') hq
      rw [e2, if_neg hne]
      exact ⟨rfl, fun u => by rw [e3, if_neg hne]⟩
    · obtain ⟨_, e2, e3⟩ := eff_other (m' := m') (p' := p') (not_insInc hq)
      rw [e2, e3]
      exact ⟨rfl, fun _ => Iff.rfl⟩
  -- messages up to the present value stay
  have hcm : ∀ q i, i ≤ w.mem.cnt q → (w.eff t m' p').cmsg q i = w.cmsg q i := by
    intro q i hi
    by_cases hq : ∃ o c pb l, w.pc t = .insInc o c pb l
    · obtain ⟨o, c, pb, l, hq⟩ := hq
      obtain ⟨e1, _, _⟩ := eff_ins (m' := m') (p' := p') hq
      rw [e1, if_neg (by omega)]
    · rw [(eff_other (not_insInc hq)).1]
  -- what other threads and the thread itself have to do with elements equivalent to their keys
  have hstamp : ∀ u (p : Pc K V), StampOk w (w.view u) p → (∀ x c, p.stamp = some (x, c) → u ≠ t ∨ ¬ ∃ o c pb l, w.pc t = .insInc o c pb l) →
      StampOk (w.eff t m' p') ((w.eff t m' p').view u) p := by
    intro u p hs hself x c hx
    obtain ⟨h1, h2, h3⟩ := hs x c hx
    have hcnt : w.mem.cnt (w.mem.pos0 x) ≤ m'.cnt (w.mem.pos0 x) := hf.cnt _
    rw [hmem, hpos]
    refine ⟨h1.trans hcnt, fun g => ?_, ?_⟩
    · rw [hcm _ _ h1]; exact (h2 g).trans (hvg u g)
    · refine h3.keep hf ?_
      intro x' hx' g j y' hy' he hP
      have : x' = x := by rw [stamp_key hx] at hx'; cases hx'; rfl
      subst this
      rcases h.slots hy' with ⟨y, hy, hyy⟩ | ⟨md, z, f2, f1, c', pb, hq, rfl, hyz, hcc⟩
      · refine ⟨?_, y, hy, hyy⟩
        have := (hold g j y hy).1
        rw [this] at hP; exact hP
      · exfalso
        obtain ⟨_, e2, _⟩ := eff_ins (m' := m') (p' := p') hq
        rw [e2, if_pos ⟨rfl, rfl⟩] at hP
        have hh := hlaw.compat _ _ he
        rw [hyz] at hh
        have : w.mem.pos0 x' = w.mem.pos0 z.1 := pos0_congr hh
        change w.mem.cnt (w.mem.pos0 z.1) + 1 ≤ c at hP
        rw [← this] at hP
        omega
  refine ⟨?_, ?_, ?_, ?_, ?_, ?_, ?_, ?_, ?_, ?_⟩
  · -- cur
    intro g
    rw [hmem]
    simp only [WState.eff]
    by_cases hl : (w.pc t).locks = some (g, .excl)
    · rw [if_pos hl, if_pos ⟨hl, rfl⟩]
    · rw [if_neg hl, if_neg (fun h => hl h.1), h.grp hl]; exact hv.cur g
  · -- ne1
    intro g v j hv' hne
    by_cases hvt : v ≤ w.top g
    · rw [hext.old g v hvt] at hne
      exact hf.ne1 g j (hv.ne1 g v j hvt hne)
    · rw [hext.new g v (by omega) hv'] at hne; exact hne
  · -- vle
    intro u g
    by_cases hu : u = t
    · subst hu; rw [hvt]; exact effView_le hv u g m' p'
    · rw [hvu u hu]; exact (hv.vle u g).trans (hext.top g)
  · -- cle
    intro q i g
    by_cases hq : ∃ o c pb l, w.pc t = .insInc o c pb l
    · obtain ⟨o, c, pb, l, hq⟩ := hq
      obtain ⟨e1, _, _⟩ := eff_ins (m' := m') (p' := p') hq
      rw [e1]
      split
      · exact effView_le hv t g m' p'
      · exact (hv.cle q i g).trans (hext.top g)
    · rw [(eff_other (not_insInc hq)).1]; exact (hv.cle q i g).trans (hext.top g)
  · -- cmono
    intro q i i' g hii hi'
    rw [hmem] at hi'
    by_cases hq : ∃ o c pb l, w.pc t = .insInc o c pb l
    · obtain ⟨o, c, pb, l, hq⟩ := hq
      obtain ⟨e1, _, _⟩ := eff_ins (m' := m') (p' := p') hq
      rw [Eff.cnt_inc h hbad hq] at hi'
      by_cases hlast : q = w.mem.pos0 o.key ∧ i' = w.mem.cnt q + 1
      · rw [e1 q i', if_pos hlast, e1]
        by_cases hi : i = w.mem.cnt q + 1
        · rw [if_pos ⟨hlast.1, hi⟩]
        · rw [if_neg (fun h => hi h.2)]
          have h1 := hv.cmono q i (w.mem.cnt q) g (by omega) le_rfl
          refine h1.trans ?_
          have : w.cmsg q (w.mem.cnt q) g = w.acquired (w.pc t) g := by rw [hq, hlast.1]; rfl
          rw [this]
          exact Nat.le_max_right _ _
      · have hi'' : i' ≤ w.mem.cnt q := by
          split at hi'
          · rename_i hqq
            rcases Nat.lt_or_ge (w.mem.cnt q) i' with h | h
            · exact absurd ⟨hqq, by omega⟩ hlast
            · exact h
          · exact hi'
        rw [hcm q i' hi'', hcm q i (hii.trans hi'')]
        exact hv.cmono q i i' g hii hi''
    · rw [(eff_other (not_insInc hq)).1]
      rw [h.cnt_same (not_insInc hq)] at hi'
      exact hv.cmono q i i' g hii hi'
  · -- held
    intro u g m hl
    by_cases hu : u = t
    · subst hu
      rw [hpt] at hl
      have hl' : (w.pc u).locks = some (g, m) := by
        rcases h.locks with h1 | h1
        · rw [h1] at hl; cases hl
        · rw [← h1]; exact hl
      have h1 := hv.held u g m hl'
      have h2 := effView_le hv u g m' p'
      rw [hvt]
      refine le_antisymm h2 ?_
      simp only [WState.effView, WState.eff]
      split <;> omega
    · rw [hpu u hu] at hl
      rw [hvu u hu, hv.held u g m hl]
      have : (w.pc t).locks ≠ some (g, .excl) := by
        intro hx
        refine hb.base.excl t u g m (fun h => hu h.symm) ?_ ?_
        · show (grant _ (w.pc t)).locks = _
          rw [(grant_facts _ _).1]; exact hx
        · show (grant _ (w.pc u)).locks = _
          rw [(grant_facts _ _).1]; exact hl
      simp only [WState.eff, if_neg this]
  · -- elem
    intro g j y' hy'
    rw [hmem] at hy' ⊢
    rw [hpos]
    rcases h.slots hy' with ⟨y, hy, hyy⟩ | ⟨md, z, f2, f1, c', pb, hq, rfl, hyz, hcc⟩
    · obtain ⟨h1, h2⟩ := hv.elem g j y hy
      rw [hyy] at h1 h2
      rw [(hold g j y hy).1, hcm _ _ h1]
      exact ⟨h1.trans (hf.cnt _), Vis.ext_eff hv h hs' hlaw' (hv.cle _ _) hy' h2⟩
    · obtain ⟨e1, e2, _⟩ := eff_ins (m' := m') (p' := p') hq
      have hok := hb.pcs t
      rw [hq] at hok
      have hpi := hok.1
      have hpath := hv.path t
      rw [hq] at hpath
      have hkey : (KOp.insert md z f2 f1 : KOp K V).key = z.1 := rfl
      rw [hkey] at e1 e2
      rw [e2, if_pos ⟨rfl, rfl⟩, hyz, e1, if_pos ⟨rfl, rfl⟩]
      refine ⟨?_, ?_, ?_⟩
      · rw [Eff.cnt_inc h hbad hq, hkey, if_pos rfl]
      · intro v h1 h2
        have hl : (w.pc t).locks = some (pb.pos, .excl) := by rw [hq]; rfl
        have hvv : w.top pb.pos < v := by
          simp only [WState.effView, if_pos hl] at h1
          omega
        rw [hext.new _ v hvv h2]
        have := (hs'.eq_probe hlaw' hy' (hlaw'.refl _)).1
        rw [hyz] at this
        exact this
      · have hpatk : m'.tab.arr.k = w.mem.tab.arr.k := hf.k
        have hbits : ∀ i < pb.step, Bits (w.eff t m' p') (w.effView t) (pat w.mem.tab.arr.k (w.mem.pos0 z.1) i) (w.mem.hashOf z.1 % 8) := by
          intro i hi
          exact ((hpath i hi).ext hext hv.cur (hv.vle t _)).mono hge
        rw [hmem, hpatk, hpos, hf.hashOf]
        by_cases hk : pb.step < 2 ^ w.mem.tab.arr.k
        · exact ⟨pb.step, hk, hpi.2.2.1, hbits⟩
        · obtain ⟨i, hi, hgi⟩ := pat_onto w.mem.tab.arr.k (w.mem.pos0 z.1) pb.pos (posFor_lt hlaw _ _)
            (by rw [hpi.2.2.1]; exact pat_lt _ _ _)
          exact ⟨i, hi, hgi, fun i' hi' => hbits i' (by omega)⟩
  · -- path
    intro u
    have gen : ∀ p : Pc K V, PathOk w (w.view u) p → PathOk (w.eff t m' p') ((w.eff t m' p').view u) p := by
      intro p hp
      have key : ∀ (x : K) i, Bits w (w.view u) (pat w.mem.tab.arr.k (w.mem.pos0 x) i) (w.mem.hashOf x % 8) →
          Bits (w.eff t m' p') ((w.eff t m' p').view u) (pat m'.tab.arr.k (m'.pos0 x) i) (m'.hashOf x % 8) := by
        intro x i hbt
        rw [hf.k, hf.pos0, hf.hashOf]
        exact (hbt.ext hext hv.cur (hv.vle u _)).mono (hvg u)
      cases p <;> first | trivial | exact fun i hi => key _ _ (hp i hi)
    by_cases hu : u = t
    · subst hu
      rw [hpt]
      refine gen p' ?_
      have hp := hv.path u
      generalize w.pc u = p at h hp
      cases h <;> trivial
    · rw [hpu u hu]; exact gen _ (hv.path u)
  · -- stamp
    intro u
    by_cases hu : u = t
    · subst hu
      rw [hpt]
      refine hstamp u p' ?_ ?_
      · refine (hv.stamp u).of (fun _ => le_rfl) ?_ (fun x c _ ha => ha.eff h)
        rcases h.stamp with h1 | h1
        · exact .inl h1
        · exact .inr h1.1
      · intro x c hx
        right
        rintro ⟨o, c, pb, l, hq⟩
        rw [hq] at h
        cases h <;> cases hx
    · rw [hpu u hu]
      exact hstamp u _ (hv.stamp u) (fun _ _ _ => .inl hu)
  · -- kn
    intro u g j y' hk hy'
    rw [hmem] at hy'
    rcases h.slots hy' with ⟨y, hy, hyy⟩ | ⟨md, z, f2, f1, c', pb, hq, rfl, hyz, hcc⟩
    · have := hv.kn u g j y (((hold g j y hy).2 u).1 hk) hy
      rw [hyy] at this
      exact (Vis.ext_eff hv h hs' hlaw' (hv.vle u) hy' this).mono (hvg u)
    · obtain ⟨e1, e2, e3⟩ := eff_ins (m' := m') (p' := p') hq
      rw [e3, if_pos ⟨rfl, rfl⟩] at hk
      subst hk
      have hkey : (KOp.insert md z f2 f1 : KOp K V).key = z.1 := rfl
      have hok := hb.pcs u
      rw [hq] at hok
      have hpi := hok.1
      have hpath := hv.path u
      rw [hq] at hpath
      rw [hvt, hyz]
      refine ⟨?_, ?_⟩
      · intro v h1 h2
        have hl : (w.pc u).locks = some (pb.pos, .excl) := by rw [hq]; rfl
        have hvv : w.top pb.pos < v := by
          simp only [WState.effView, if_pos hl] at h1
          omega
        rw [hext.new _ v hvv h2]
        have := (hs'.eq_probe hlaw' hy' (hlaw'.refl _)).1
        rw [hyz] at this
        exact this
      · have hpatk : m'.tab.arr.k = w.mem.tab.arr.k := hf.k
        have hbits : ∀ i < pb.step, Bits (w.eff u m' p') (w.effView u) (pat w.mem.tab.arr.k (w.mem.pos0 z.1) i) (w.mem.hashOf z.1 % 8) := by
          intro i hi
          exact ((hpath i hi).ext hext hv.cur (hv.vle u _)).mono hge
        rw [hmem, hpatk, hpos, hf.hashOf]
        by_cases hk : pb.step < 2 ^ w.mem.tab.arr.k
        · exact ⟨pb.step, hk, hpi.2.2.1, hbits⟩
        · obtain ⟨i, hi, hgi⟩ := pat_onto w.mem.tab.arr.k (w.mem.pos0 z.1) pb.pos (posFor_lt hlaw _ _)
            (by rw [hpi.2.2.1]; exact pat_lt _ _ _)
          exact ⟨i, hi, hgi, fun i' hi' => hbits i' (by omega)⟩

/-! ### exclusive access, synchronization -/

theorem VInv.fresh {s : State K V} (hs : SBase s) (ho : ∀ u, (s.pc u).inside = false) : VInv (WState.fresh s) := by
  have hvis : ∀ {vw : Nat → Nat} {g j : Nat} {y : K × V}, s.mem.slot g j = some y → Vis (WState.fresh s) vw g j y.1 := by
    intro vw g j y hy
    obtain ⟨h1, i, h2, h3, h4⟩ := hs.shape.eq_probe hs.law hy (hs.law.refl _)
    exact ⟨fun _ _ _ => h1, i, h2, h3, fun i' hi' _ _ _ => h4 i' hi'⟩
  refine ⟨fun _ => rfl, fun _ _ _ _ h => h, fun _ _ => le_rfl, fun _ _ _ => le_rfl, fun _ _ _ _ _ _ => le_rfl, ?_, ?_, ?_, ?_, ?_⟩
  · intro t g m hl
    have := (outside (ho t)).1
    have hl : (s.pc t).locks = some (g, m) := hl
    rw [this] at hl; cases hl
  · intro g j y hy; exact ⟨Nat.zero_le _, hvis hy⟩
  · intro t
    show PathOk _ _ (s.pc t)
    have := ho t
    revert this
    cases s.pc t <;> intro h <;> first | trivial | cases h
  · intro t x c hx
    have := (outside (ho t)).2.2.2.2
    have hx : (s.pc t).stamp = some (x, c) := hx
    rw [this] at hx; cases hx
  · intro t g j y _ hy; exact hvis hy

theorem VInv.sync {w : WState K V} (hv : VInv w) (t u : Nat) : VInv { w with
      view := fun x => if x = t then (fun g => max (w.view t g) (w.view u g)) else w.view x,
      mlv := fun x => if x = t then min (w.mlv t) (w.mlv u) else w.mlv x,
      kn := fun x g j => if x = t then w.kn t g j ∨ w.kn u g j else w.kn x g j } := by
  have hle : ∀ x g, w.view x g ≤ (if x = t then (fun g => max (w.view t g) (w.view u g)) else w.view x) g := by
    intro x g
    split
    · rename_i h; subst h; exact Nat.le_max_left _ _
    · exact le_rfl
  have hvle : ∀ x g, (if x = t then (fun g => max (w.view t g) (w.view u g)) else w.view x) g ≤ w.top g := by
    intro x g
    split
    · exact Nat.max_le.2 ⟨hv.vle t g, hv.vle u g⟩
    · exact hv.vle x g
  refine ⟨hv.cur, hv.ne1, hvle, hv.cle, hv.cmono, ?_, hv.elem, ?_, ?_, ?_⟩
  · intro x g m hl
    have := hv.held x g m hl
    have h1 := hle x g
    rw [this] at h1
    exact le_antisymm (hvle x g) h1
  · intro x
    exact PathOk.mono (w := w) (hv.path x) (hle x)
  · intro x
    exact (hv.stamp x).of (hle x) (.inr rfl) (fun _ _ _ h => h)
  · intro x g j y hk hy
    have hk : if x = t then w.kn t g j ∨ w.kn u g j else w.kn x g j := hk
    show Vis w (if x = t then (fun g => max (w.view t g) (w.view u g)) else w.view x) g j y.1
    split at hk
    · rename_i hx
      rw [if_pos hx]
      rcases hk with hk | hk
      · exact (hv.kn t g j y hk hy).mono (fun _ => Nat.le_max_left _ _)
      · exact (hv.kn u g j y hk hy).mono (fun _ => Nat.le_max_right _ _)
    · rename_i hx
      rw [if_neg hx]; exact hv.kn x g j y hk hy

/-! ### all steps -/

structure WInv (w : WState K V) : Prop where
  b : WBase w
  v : VInv w

theorem WInv.step {cfg : Cfg} {w w' : WState K V} (hi : WInv w) (hw : NoWrap w.sc) {t : Nat} (h : WStepBy cfg t w w') : WInv w' := by
  obtain ⟨hb, hv⟩ := hi
  cases h with
  | quiet hr h => exact ⟨hb.quiet hr h, hv.quiet hb hr h⟩
  | counter o c hq hc =>
    refine ⟨hb.search (by rw [hq]; exact ⟨rfl, rfl, rfl, trivial⟩) ⟨rfl, rfl, rfl, trivial⟩ ?_, hv.counter hb hq hc⟩
    exact ⟨PbS.init hb.base.law o, fun j hj => List.mem_range.1 hj, fun j hj => by cases hj⟩
  | scanMatch o c pb todo acc j v hq hj hr hm =>
    have hok := hb.pcs t
    rw [hq] at hok
    refine ⟨hb.search (by rw [hq]; exact ⟨rfl, rfl, rfl, trivial⟩) ⟨rfl, rfl, rfl, trivial⟩ ?_,
      hv.read rfl trivial (.inr (by rw [hq]; rfl)) fun x c' hx ha => ?_⟩
    · refine ⟨hok.1, fun l hl => hok.2.1 l (List.mem_of_mem_erase hl), fun l hl => ?_⟩
      rcases List.mem_cons.1 hl with rfl | hl
      · exact ⟨hok.2.1 _ hj, hv.ne1 _ v _ hr.2 hm⟩
      · exact hok.2.2 l hl
    · rw [hq] at ha; exact ha.scanMatch
  | scanMiss o c pb todo acc j v hq hj hr hm =>
    have hok := hb.pcs t
    rw [hq] at hok
    refine ⟨hb.search (by rw [hq]; exact ⟨rfl, rfl, rfl, trivial⟩) ⟨rfl, rfl, rfl, trivial⟩ ?_,
      hv.read rfl trivial (.inr (by rw [hq]; rfl)) fun x c' hx ha => ?_⟩
    · exact ⟨hok.1, fun l hl => hok.2.1 l (List.mem_of_mem_erase hl), hok.2.2⟩
    · have hsee := hv.sees hb hx
      have hxo : x = o.key := by
        rw [hq] at hx
        simp only [Pc.stamp] at hx
        split at hx
        · cases hx; rfl
        · cases hx
      subst hxo
      rw [hq] at ha
      exact AheadP.scanMiss hsee hok.1 ha hr hm
  | overEnd o c pb v hq hr hm =>
    have hok := hb.pcs t
    rw [hq] at hok
    refine ⟨hb.search (by rw [hq]; exact ⟨rfl, rfl, rfl, trivial⟩) (missPc_search o c) (missPc_ok o c),
      hv.read (missPc_search o c).1 ?_ ?_ fun x c' hx ha => ?_⟩
    · simp only [missPc]; split <;> trivial
    · rw [hq]; exact missPc_stamp
    · have hsee := hv.sees hb hx
      rw [hq] at hx
      obtain ⟨rfl, rfl⟩ := stamp_of_over hx
      rw [hq] at ha
      exact AheadP.miss _ (AheadP.overEnd hsee hok ha hr (.inl hm))
  | overNext o c pb v hq hr hm =>
    have hok := hb.pcs t
    rw [hq] at hok
    by_cases hn : (pb.next w.mem.tab.arr.mask).2 = true
    · rw [if_pos hn]
      refine ⟨hb.search (by rw [hq]; exact ⟨rfl, rfl, rfl, trivial⟩) ⟨rfl, rfl, rfl, trivial⟩ ?_,
        hv.read rfl trivial (.inr (by rw [hq]; rfl)) fun x c' hx ha => ?_⟩
      · exact ⟨PbS.next hok hn, fun j hj => List.mem_range.1 hj, fun j hj => by cases hj⟩
      · rw [hq] at ha; exact ha.overNext hb.base.shape
    · rw [if_neg hn]
      refine ⟨hb.search (by rw [hq]; exact ⟨rfl, rfl, rfl, trivial⟩) (missPc_search o c) (missPc_ok o c),
        hv.read (missPc_search o c).1 ?_ ?_ fun x c' hx ha => ?_⟩
      · simp only [missPc]; split <;> trivial
      · rw [hq]; exact missPc_stamp
      · have hsee := hv.sees hb hx
        rw [hq] at hx
        obtain ⟨rfl, rfl⟩ := stamp_of_over hx
        rw [hq] at ha
        exact AheadP.miss _ (AheadP.overEnd hsee hok ha hr (.inr (by simpa using hn)))
  | test o c n v hq h1 h2 =>
    refine ⟨hb.test hq h2, hv.read ?_ ?_ ?_ fun x c' hx ha => ?_⟩
    · split <;> rfl
    · split
      · intro i hi; exact absurd hi (Nat.not_lt_zero i)
      · trivial
    · split
      · exact .inr (by rw [hq]; rfl)
      · exact .inl rfl
    · rw [hq] at ha
      split
      · exact ha
      · trivial
  | eff h =>
    have := hv.eff hb hw h
    exact ⟨this.2, this.1⟩
  | @alone m' p' ho h =>
    refine ⟨hb.alone ho h, ?_⟩
    have hb2 := hb.alone ho h
    have hn : NotTest (w.pc t) := by
      have := ho t
      cases hq : w.pc t <;> first | trivial | (rw [hq] at this; cases this)
    have h' : Alone cfg w.fake.mem (w.fake.pc t) m' p' := by rw [fake_pc hn]; exact h
    obtain ⟨h1, h2, h3⟩ := hb.base.alone_inv (fake_inside ho) h'
    have ho' : ∀ u, ((w.sc.set t m' p').pc u).inside = false := by
      intro u
      rw [State.set_pc]
      by_cases hu : u = t
      · subst hu; rw [upd_self]; exact h2
      · rw [upd_of_ne _ hu]; exact ho u
    exact VInv.fresh (SBase.of_inv h1 ho' (fun u => hb2.pcs u)) ho'
  | sync u => exact ⟨hb.sync t u, hv.sync t u⟩

theorem WInv.init (cfg : Cfg) {f : Fns K} (hf : f.Lawful) (al n : Nat) :
    WInv (WState.fresh (Conc.Tab.init cfg f al n : State K V)) :=
  ⟨WBase.init cfg hf al n, VInv.fresh (SInv.init cfg hf al n).toSBase (fun _ => rfl)⟩

theorem WReach.inv {cfg : Cfg} {f : Fns K} (hf : f.Lawful) {al n : Nat} {w : WState K V} (h : WReach cfg f al n w) : WInv w := by
  induction h with
  | init => exact WInv.init cfg hf al n
  | step _ hw hs ih => exact ih.step hw hs

theorem alone_fns {cfg : Cfg} {m m' : Mem K V} {p p' : Pc K V} (hi : m.tab.Inv) (h : Alone cfg m p m' p') :
    m'.tab.fns = m.tab.fns := by
  cases h with
  | ex e t' r cnt' h1 h2 =>
    obtain ⟨t2, r2, e1, _, e3, _⟩ := ExOp.run_spec cfg hi e
    rw [h1] at e1; cases e1
    exact e3
  | grow o t' cnt' h1 h2 =>
    obtain ⟨t2, e1, _, e3, _⟩ := rehashIfFull_spec cfg hi
    rw [h1] at e1; cases e1
    exact e3
  | _ => rfl

theorem WStepBy.fns {cfg : Cfg} {w w' : WState K V} (hi : WInv w) {t : Nat} (h : WStepBy cfg t w w') :
    w'.mem.tab.fns = w.mem.tab.fns := by
  cases h with
  | eff h => exact h.frame.fns
  | alone ho h => exact alone_fns (hi.b.base.quiescent (fake_inside ho)) h
  | _ => rfl

theorem WReach.fns {cfg : Cfg} {f : Fns K} (hf : f.Lawful) {al n : Nat} {w : WState K V} (h : WReach cfg f al n w) :
    w.mem.tab.fns = f := by
  induction h with
  | init => rfl
  | step hr _ hs ih => rw [hs.fns (hr.inv hf), ih]

end Conc.Weak

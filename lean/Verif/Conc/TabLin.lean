/-
Linearization points of the operations of a concurrent table. Lemmas only; the model is `Verif.Conc.Table`.
-/
import Verif.Conc.TabInv
import Verif.SpecT

namespace Conc.Tab
open Foa SpecT
open Conc.Locking (Mode)

variable {K V : Type}

/-- The live elements. -/
def Mem.elems (m : Mem K V) : Con K V := fun x => ∃ g j, m.slot g j = some x

def Mode.wr : Mode → Bool
  | .shared => false
  | .excl => true

/-- The specification of an operation with a key. -/
def KOp.Spec (eq : K → K → Bool) : KOp K V → Con K V → Con K V → Nat → Prop
  | .visit m k f => Visit eq (Mode.wr m) k f
  | .insert m x f2 f1 => Insert eq (Mode.wr m) x f2 f1
  | .erase k p => Erase eq k p

/-- The specification of an operation under the exclusive lock. -/
def ExOp.Spec (eq : K → K → Bool) : ExOp K V → Con K V → Con K V → Nat → Prop
  | .rehash _ | .reserve _ => Keep
  | .clear => fun _ => Clear
  | .emplace x => Insert eq false x (·.2) (·.2)
  | .eraseKey k => Erase eq k fun _ => none

/-- The operation has not taken effect yet. -/
def Pc.pending : Pc K V → Option (KOp K V)
  | .start (.key o) | .full o | .counter o | .scan o _ _ _ _ | .lock o _ _ _ | .check o _ _ _ | .over o _ _ | .hit o _ _
  | .reserve o _ | .test o _ _ | .failSize o | .insLock o _ _ | .insFind o _ _ | .insNext o _ _ | .insInc o _ _ _
  | .rollReset o _ _ | .rollUnlock o _ | .rollSize o => some o
  | _ => none

/-- The operation has taken effect and will return this. -/
def Pc.result : Pc K V → Option Nat
  | .done r | .unlock _ _ r | .leave r => some r
  | .eraseReset _ _ _ none | .eraseSize _ _ none => some 1
  | _ => none

theorem Same.rfl' (A : Con K V) : Same A A := fun _ => Iff.rfl

theorem noKey_iff {m : Mem K V} {x : K} : NoKey m x ↔ ¬ Present m.tab.fns.eq m.elems x := by
  constructor
  · rintro h ⟨y, ⟨g, j, hy⟩, he⟩
    rw [h g j y hy] at he; cases he
  · intro h g j y hy
    by_contra he
    exact h ⟨y, ⟨g, j, hy⟩, by simpa using he⟩

section
variable {m : Mem K V} {own : Nat → Nat → Prop} (hs : Shape m own) (hf : m.tab.fns.Lawful)
include hs hf

theorem loc_uniq {g j g' j' : Nat} {x : K × V} (h : m.slot g j = some x) (h' : m.slot g' j' = some x) : g = g' ∧ j = j' :=
  (hs.live h).2.uniq _ _ _ _ _ _ h h' (hf.refl _)

theorem elems_setSlot {g j : Nat} {y z : K × V} (hy : m.slot g j = some y) :
    Replaced m.elems (m.setSlot g j (some z)).elems y z := by
  intro x
  constructor
  · rintro ⟨i, l, h⟩
    simp only [Mem.setSlot, Mem.slot, Arrays.setSlot] at h
    split at h
    · cases h; exact .inr rfl
    · rename_i hc
      refine .inl ⟨⟨i, l, h⟩, ?_⟩
      rintro rfl
      exact hc (loc_uniq hs hf h hy)
  · rintro (⟨⟨i, l, h⟩, hne⟩ | rfl)
    · refine ⟨i, l, ?_⟩
      have : ¬ (i = g ∧ l = j) := by
        rintro ⟨rfl, rfl⟩
        rw [hy] at h; cases h; exact hne rfl
      simpa [Mem.setSlot, Mem.slot, Arrays.setSlot, this] using h
    · exact ⟨g, j, by simp [Mem.setSlot, Mem.slot, Arrays.setSlot]⟩

theorem elems_call {md : Mode} {g j : Nat} {y : K × V} {v : V} (hy : m.slot g j = some y) :
    Replaced m.elems (m.call md g j y v).elems y (y.1, if Mode.wr md then v else y.2) := by
  cases md with
  | shared =>
    intro x
    constructor
    · intro h
      by_cases hx : x = y
      · exact .inr hx
      · exact .inl ⟨h, hx⟩
    · rintro (h | rfl)
      · exact h.1
      · exact ⟨g, j, hy⟩
  | excl => exact elems_setSlot hs hf hy

theorem elems_take {g j n : Nat} {y : K × V} (hy : m.slot g j = some y) :
    Removed m.elems ((m.setSlot g j none).setMl n).elems y := by
  intro x
  constructor
  · rintro ⟨i, l, h⟩
    simp only [Mem.setSlot, Mem.setMl, Mem.slot, Arrays.setSlot] at h
    split at h
    · cases h
    · rename_i hc
      refine ⟨⟨i, l, h⟩, ?_⟩
      rintro rfl
      exact hc (loc_uniq hs hf h hy)
  · rintro ⟨⟨i, l, h⟩, hne⟩
    refine ⟨i, l, ?_⟩
    have : ¬ (i = g ∧ l = j) := by
      rintro ⟨rfl, rfl⟩
      rw [hy] at h; cases h; exact hne rfl
    simpa [Mem.setSlot, Mem.setMl, Mem.slot, Arrays.setSlot, this] using h

end

theorem elems_put {m : Mem K V} {g j : Nat} {z : K × V} (hy : m.slot g j = none) :
    Added m.elems (m.setSlot g j (some z)).elems z := by
  intro x
  constructor
  · rintro ⟨i, l, h⟩
    simp only [Mem.setSlot, Mem.slot, Arrays.setSlot] at h
    split at h
    · cases h; exact .inr rfl
    · exact .inl ⟨i, l, h⟩
  · rintro (⟨i, l, h⟩ | rfl)
    · refine ⟨i, l, ?_⟩
      have : ¬ (i = g ∧ l = j) := by
        rintro ⟨rfl, rfl⟩
        rw [hy] at h; cases h
      simpa [Mem.setSlot, Mem.slot, Arrays.setSlot, this] using h
    · exact ⟨g, j, by simp [Mem.setSlot, Mem.slot, Arrays.setSlot]⟩

theorem pending_miss (o : KOp K V) (c : Nat) : (o.isInsert = true ∧ (missPc o c).pending = some o) ∨
    (o.isInsert = false ∧ missPc o c = .leave 0) := by
  by_cases h : o.isInsert = true
  · exact .inl ⟨h, by simp [missPc, h, Pc.pending]⟩
  · exact .inr ⟨by simpa using h, by simp [missPc, h]⟩

/-- Steps that change nothing: the operation stays pending, or was a search that ends. -/
theorem Quiet.pending {m : Mem K V} {canS canX : Nat → Prop} {p p' : Pc K V} (h : Quiet m canS canX p p') (hbad : p' ≠ .bad)
    {own : Nat → Nat → Prop} (hs : Shape m own) (hf : m.tab.fns.Lawful) (hp : PcOk m p) {o : KOp K V}
    (ho : p.pending = some o) : p'.pending = some o ∨ (o.isInsert = false ∧ p' = .leave 0 ∧ (AheadPc m p → NoKey m o.key)) := by
  cases h with
  | enter o =>
    left
    cases ho
    simp only [enterPc]
    split <;> rfl
  | overEnd o c pb h =>
    cases ho
    rcases pending_miss o c with h' | h'
    · exact .inl h'.2
    · exact .inr ⟨h'.1, h'.2, fun ha => over_noKey hs hf hp ha (.inl h)⟩
  | overNext o c pb h =>
    cases ho
    split
    · exact .inl rfl
    · rename_i hn
      rcases pending_miss o c with h' | h'
      · exact .inl h'.2
      · exact .inr ⟨h'.1, h'.2, fun ha => over_noKey hs hf hp ha (.inr (by simpa using hn))⟩
  | scanMatch o c pb todo acc j hj hm => exact .inl ho
  | scanMiss o c pb todo acc j hj hm => exact .inl ho
  | scanNone o c pb => exact .inl ho
  | scanSome o c pb acc _ => exact .inl ho
  | lockS o c pb ms _ _ => exact .inl ho
  | lockX o c pb ms _ _ => exact .inl ho
  | checkEmpty o c pb j ms hm => exact .inl ho
  | checkMiss o c pb j ms z hm hz hne => exact .inl ho
  | checkHit o c pb j ms z hm hz hne => exact .inl ho
  | checkEnd o c pb => exact .inl ho
  | testOk o c n _ => exact .inl ho
  | testFail o c n _ => exact .inl ho
  | insLock o c pb _ => exact .inl ho
  | insNext o c pb => exact .inl ho
  | counter o => exact .inl ho
  | rollUnlock o pb => exact .inl ho
  | checkBad o c pb j ms hm hn => exact absurd rfl hbad
  | hitBad o pb j hn => exact absurd rfl hbad
  | insFindBad o c pb he => exact absurd rfl hbad
  | insFindTaken o c pb j js ha hn => exact absurd rfl hbad
  | _ => cases ho

/-- Steps that change memory: the operation takes effect as specified, or nothing changes. -/
theorem Eff.pending {m m' : Mem K V} {p p' : Pc K V} (h : Eff m p m' p') (hbad : p' ≠ .bad)
    {own : Nat → Nat → Prop} (hs : Shape m own) (hf : m.tab.fns.Lawful) (hp : PcOk m p) {o : KOp K V}
    (ho : p.pending = some o)
    (hno : ∀ md x f2 f1 c pb j, p = .insInc (.insert md x f2 f1) c pb j → m.cnt (m.pos0 x.1) % 2 ^ 32 = c % 2 ^ 32 →
      NoKey m x.1) :
    (p'.pending = some o ∧ Same m.elems m'.elems) ∨ ∃ r, p'.result = some r ∧ o.Spec m.tab.fns.eq m.elems m'.elems r := by
  cases h with
  | visit md k f pb j y hy =>
    cases ho
    obtain ⟨_, z, hz, he⟩ := hp
    rw [hy] at hz
    cases hz
    exact .inr ⟨1, rfl, .inl ⟨y, ⟨_, _, hy⟩, he, elems_call hs hf hy, rfl⟩⟩
  | found md x f2 f1 pb j y hy =>
    cases ho
    obtain ⟨_, z, hz, he⟩ := hp
    rw [hy] at hz
    cases hz
    exact .inr ⟨0, rfl, .inl ⟨y, ⟨_, _, hy⟩, he, elems_call hs hf hy, rfl⟩⟩
  | eraseNot k p pb j y v hy hv =>
    cases ho
    obtain ⟨_, z, hz, he⟩ := hp
    rw [hy] at hz
    cases hz
    exact .inr ⟨0, rfl, .inl ⟨y, ⟨_, _, hy⟩, he, .inr ⟨v, hv, elems_call (md := .excl) hs hf hy, rfl⟩⟩⟩
  | erase k p pb j y hy hv hd =>
    cases ho
    obtain ⟨_, z, hz, he⟩ := hp
    rw [hy] at hz
    cases hz
    exact .inr ⟨1, rfl, .inl ⟨y, ⟨_, _, hy⟩, he, .inl ⟨hv, elems_take hs hf hy, rfl⟩⟩⟩
  | insert md x f2 f1 c pb j h1 h2 =>
    cases ho
    refine .inr ⟨1, rfl, .inr ⟨noKey_iff.1 (hno md x f2 f1 c pb j rfl h1), ?_, rfl⟩⟩
    exact elems_put (m := m) h2
  | reserve o c => exact .inl ⟨ho, Same.rfl' _⟩
  | failSize o _ => exact .inl ⟨ho, Same.rfl' _⟩
  | insSet o c pb j js h1 h2 h3 => exact .inl ⟨ho, Same.rfl' _⟩
  | insFull o c pb h1 h2 => exact .inl ⟨ho, Same.rfl' _⟩
  | startOver o c pb j h1 => exact .inl ⟨ho, Same.rfl' _⟩
  | rollReset o pb j => exact .inl ⟨ho, Same.rfl' _⟩
  | rollSize o _ => exact .inl ⟨ho, Same.rfl' _⟩
  | eraseWrap k p pb j y hy hv hd => exact absurd rfl hbad
  | failSizeWrap o h0 => exact absurd rfl hbad
  | insertBad o c pb j h1 h2 => exact absurd rfl hbad
  | rollSizeWrap o h0 => exact absurd rfl hbad
  | _ => cases ho

/-- After an operation has taken effect it changes nothing more. -/
theorem Quiet.result {m : Mem K V} {canS canX : Nat → Prop} {p p' : Pc K V} (h : Quiet m canS canX p p') {r : Nat}
    (hr : p.result = some r) (hd : ∀ r', p ≠ .done r') : p'.result = some r := by
  cases h with
  | callAgain r' o => exact absurd rfl (hd r')
  | unlock g md r' => exact hr
  | leave r' => exact hr
  | _ => cases hr

theorem Eff.result {m m' : Mem K V} {p p' : Pc K V} (h : Eff m p m' p') (hbad : p' ≠ .bad) {r : Nat}
    (hr : p.result = some r) : p'.result = some r ∧ Same m.elems m'.elems := by
  cases h with
  | eraseReset g j d cont =>
    cases cont with
    | none => exact ⟨hr, Same.rfl' _⟩
    | some q => cases hr
  | eraseSize g d _ => exact ⟨hr, Same.rfl' _⟩
  | eraseSizeWrap g d cont _ => exact absurd rfl hbad
  | _ => cases hr

theorem Alone.pending {cfg : Cfg} {m m' : Mem K V} {p p' : Pc K V} (h : Alone cfg m p m' p') (hi : m.tab.Inv) {o : KOp K V}
    (ho : p.pending = some o) : p'.pending = some o ∧ Same m.elems m'.elems := by
  cases h with
  | grow o t' cnt' h1 h2 =>
    cases ho
    obtain ⟨t2, e1, e2, e3, e4, e5, _⟩ := rehashIfFull_spec cfg hi
    rw [h1] at e1
    cases e1
    refine ⟨rfl, fun x => ?_⟩
    have ha := e2.mem (x := x)
    have hb := hi.mem (x := x)
    exact ha.symm.trans (e5.mem_iff.trans hb)
  | growBad o h1 =>
    obtain ⟨t2, e1, _⟩ := rehashIfFull_spec cfg hi
    rw [h1] at e1
    cases e1
  | _ => cases ho

theorem Alone.not_result {cfg : Cfg} {m m' : Mem K V} {p p' : Pc K V} (h : Alone cfg m p m' p') : p.result = none := by
  cases h <;> rfl

/-! ### whole-container operations -/

theorem mem_elems {m : Mem K V} (hi : m.tab.Inv) {x : K × V} : m.elems x ↔ x ∈ m.tab.contents := hi.mem.symm

theorem ExOp.correct (cfg : Cfg) {t : Table K V} (hi : t.Inv) (e : ExOp K V) {t' : Table K V} {r : Nat}
    (h : e.run cfg t = some (t', r)) (c c' : Nat → Nat) : e.Spec t.fns.eq (Mem.mk t c).elems (Mem.mk t' c').elems r := by
  have perm : ∀ {t1 : Table K V}, t1.Inv → t1.contents.Perm t.contents → Same (Mem.mk t c).elems (Mem.mk t1 c').elems := by
    intro t1 h1 hp x
    rw [mem_elems (m := Mem.mk t1 c') h1, mem_elems (m := Mem.mk t c) hi]
    exact hp.mem_iff
  have hnp : ∀ {x : K}, (∀ g j y, t.arr.slot g j = some y → t.fns.eq x y.1 = false) → ¬ Present t.fns.eq (Mem.mk t c).elems x := by
    rintro x hx ⟨y, ⟨g, j, hy⟩, he⟩
    rw [hx g j y hy] at he; cases he
  have hsl : ∀ {g j g' j' : Nat} {x : K × V}, t.arr.slot g j = some x → t.arr.slot g' j' = some x → g = g' ∧ j = j' := by
    intro g j g' j' x h1 h2
    rcases hi.arr with ⟨_, ha⟩ | ⟨_, ha⟩
    · exact ha.uniq _ _ _ _ _ _ h1 h2 (hi.law.refl _)
    · rw [ha.slot] at h1; cases h1
  cases e with
  | rehash n =>
    obtain ⟨t2, h1, h2, h3, h4, h5, _⟩ := rehash_spec cfg hi n
    simp only [ExOp.run, h1, Option.map_some] at h
    cases h
    exact ⟨perm h2 h5, rfl⟩
  | reserve n =>
    obtain ⟨t2, h1, h2, h3, h4, h5, _⟩ := reserve_spec cfg hi n
    simp only [ExOp.run, h1, Option.map_some] at h
    cases h
    exact ⟨perm h2 h5, rfl⟩
  | clear =>
    obtain ⟨h1, h2, _⟩ := clear_spec hi
    simp only [ExOp.run] at h
    cases h
    refine ⟨fun x hx => ?_, rfl⟩
    rw [mem_elems (m := Mem.mk t.clear c') h1] at hx
    simp only [h2] at hx
    cases hx
  | emplace x =>
    rcases emplaceImpl_spec cfg hi x with ⟨g, j, y, h1, _, h3, h4⟩ | ⟨t2, g, j, h1, h2, h3, h4, h5, h6, h7, _⟩
    · simp only [ExOp.run, h1, Option.map_some] at h
      cases h
      refine .inl ⟨y, ⟨g, j, h3⟩, h4, fun z => ?_, rfl⟩
      constructor
      · intro hz
        by_cases hzy : z = y
        · exact .inr (by rw [hzy]; rfl)
        · exact .inl ⟨hz, hzy⟩
      · rintro (hz | rfl)
        · exact hz.1
        · exact ⟨g, j, h3⟩
    · simp only [ExOp.run, h1, Option.map_some] at h
      cases h
      refine .inr ⟨hnp fun g j y hy => h5 y (hi.mem.2 ⟨g, j, hy⟩), fun z => ?_, rfl⟩
      rw [mem_elems (m := Mem.mk t' c') h2, mem_elems (m := Mem.mk t c) hi]
      rw [show (Mem.mk t' c').tab.contents = t'.contents from rfl, h7.mem_iff, List.mem_cons]
      exact Or.comm
  | eraseKey k =>
    rcases hi.find_spec k with ⟨g, j, y, h1, h2, h3⟩ | ⟨h1, h2⟩
    · obtain ⟨t2, e1, e2, e3, e4, e5, e6, e7, _⟩ := eraseAt_spec hi h2
      simp only [ExOp.run, Table.eraseKey, h1, e1, Option.map_some] at h
      cases h
      refine .inl ⟨y, ⟨g, j, h2⟩, h3, .inl ⟨rfl, fun z => ?_, rfl⟩⟩
      constructor
      · rintro ⟨i, l, hz⟩
        have hz : t'.arr.slot i l = some z := hz
        rw [e7] at hz
        split at hz
        · cases hz
        · rename_i hc
          refine ⟨⟨i, l, hz⟩, ?_⟩
          rintro rfl
          exact hc (hsl hz h2)
      · rintro ⟨⟨i, l, hz⟩, hne⟩
        have hz : t.arr.slot i l = some z := hz
        refine ⟨i, l, ?_⟩
        show t'.arr.slot i l = some z
        rw [e7, if_neg]
        · exact hz
        · rintro ⟨rfl, rfl⟩
          rw [h2] at hz; cases hz; exact hne rfl
    · simp only [ExOp.run, Table.eraseKey, h1] at h
      cases h
      exact .inr ⟨hnp h2, Same.rfl' _, rfl⟩

/-! ### runs -/

/-- A run of `n` steps: `who i` makes step `i`. -/
structure Run (cfg : Cfg) (σ : Nat → State K V) (who : Nat → Nat) (n : Nat) : Prop where
  step : ∀ i < n, StepBy cfg (who i) (σ i) (σ (i + 1))
  nowrap : ∀ i < n, NoWrap (σ i)

theorem Run.inv {cfg : Cfg} {σ : Nat → State K V} {who : Nat → Nat} {n : Nat} (h : Run cfg σ who n) (h0 : SInv (σ 0)) :
    ∀ i ≤ n, SInv (σ i) := by
  intro i
  induction i with
  | zero => intro _; exact h0
  | succ i ih => intro hi; exact (ih (by omega)).step (h.nowrap i (by omega)) (h.step i (by omega))

theorem Run.fns {cfg : Cfg} {σ : Nat → State K V} {who : Nat → Nat} {n : Nat} (h : Run cfg σ who n) (h0 : SInv (σ 0)) :
    ∀ i ≤ n, (σ i).mem.tab.fns = (σ 0).mem.tab.fns := by
  intro i
  induction i with
  | zero => intro _; rfl
  | succ i ih => intro hi; rw [(h.step i (by omega)).fns (h.inv h0 i (by omega))]; exact ih (by omega)

/-- Steps of another thread keep equivalent elements ahead of a search, unless one is inserted where there was none. -/
theorem ahead_other {cfg : Cfg} {s s' : State K V} (hi : SInv s) (hw : NoWrap s) {t u : Nat} (h : StepBy cfg u s s') (hu : t ≠ u)
    {o : KOp K V} (hk : ∀ x, (s.pc t).key? = some x → x = o.key)
    (ha : AheadPc s.mem (s.pc t)) : AheadPc s'.mem (s.pc t) ∨ NoKey s.mem o.key := by
  cases h with
  | quiet h => exact .inl ha
  | @eff m' pc' h =>
    by_cases hx : ∀ x, (s.pc t).key? = some x → KeysFrom s.mem m' x
    · exact .inl (AheadPc.keep h.frame hx ha)
    · right
      push Not at hx
      obtain ⟨x, hx, hnk⟩ := hx
      have := hk x hx
      subst this
      rcases h.keys o.key with h' | ⟨md, y, f2, f1, c, pb, j, hq, he, hc, _⟩
      · exact absurd h' hnk
      · have h1 := hi.noKey hw hq hc
        intro g j z hz
        by_contra hne
        have hz' : s.mem.tab.fns.eq o.key z.1 = true := by simpa using hne
        have h2 := h1 g j z hz
        have h3 := hi.law.trans _ _ _ (hi.law.symm _ _ he) hz'
        change s.mem.tab.fns.eq y.1 z.1 = false at h2
        rw [h2] at h3
        cases h3
  | alone ho h =>
    left
    have h1 := ho t
    revert h1
    cases s.pc t <;> intro h1 <;> first | trivial | cases h1

theorem pending_key {p : Pc K V} {o : KOp K V} (h : p.pending = some o) : ∀ x, p.key? = some x → x = o.key := by
  intro x hx
  cases p <;> simp only [Pc.key?] at hx <;> cases hx <;> (simp only [Pc.pending] at h; cases h; rfl)

/-- One step of the thread itself. -/
theorem StepBy.pending_self {cfg : Cfg} {s s' : State K V} (hi : SInv s) (hw : NoWrap s) {t : Nat} (h : StepBy cfg t s s')
    {o : KOp K V} (ho : (s.pc t).pending = some o) :
    ((s'.pc t).pending = some o ∧ Same s.mem.elems s'.mem.elems ∧ (AheadPc s.mem (s.pc t) → AheadPc s'.mem (s'.pc t))) ∨
    (∃ r, (s'.pc t).result = some r ∧ o.Spec s.mem.tab.fns.eq s.mem.elems s'.mem.elems r) ∨
    (o.isInsert = false ∧ (s'.pc t).result = some 0 ∧ Same s.mem.elems s'.mem.elems ∧ (AheadPc s.mem (s.pc t) → NoKey s.mem o.key)) := by
  have hi' := hi.step hw h
  have hb := pcOk_not_bad (hi'.pcs t)
  cases h with
  | @quiet pc' h =>
    rw [State.set_pc, upd_self] at hb ⊢
    rw [State.set_mem]
    rcases h.pending hb hi.shape hi.law (hi.pcs t) ho with h1 | ⟨h1, h2, h3⟩
    · exact .inl ⟨h1, Same.rfl' _, h.ahead hi.shape hi.law (hi.pcs t)⟩
    · exact .inr (.inr ⟨h1, by rw [h2]; rfl, Same.rfl' _, h3⟩)
  | @eff m' pc' h =>
    rw [State.set_pc, upd_self] at hb ⊢
    rw [State.set_mem]
    rcases h.pending hb hi.shape hi.law (hi.pcs t) ho (fun md x f2 f1 c pb j hq hc => hi.noKey hw hq hc) with ⟨h1, h2⟩ | h1
    · exact .inl ⟨h1, h2, h.ahead⟩
    · exact .inr (.inl h1)
  | @alone m' pc' hout h =>
    rw [State.set_pc, upd_self] at hb ⊢
    rw [State.set_mem]
    obtain ⟨h1, h2⟩ := h.pending (hi.quiescent hout) ho
    refine .inl ⟨h1, h2, fun _ => ?_⟩
    generalize s.pc t = p at h
    cases h <;> trivial

theorem StepBy.result_self {cfg : Cfg} {s s' : State K V} (hi : SInv s) (hw : NoWrap s) {t : Nat} (h : StepBy cfg t s s')
    {r : Nat} (hr : (s.pc t).result = some r) (hd : ∀ r', s.pc t ≠ .done r') :
    (s'.pc t).result = some r ∧ Same s.mem.elems s'.mem.elems := by
  have hi' := hi.step hw h
  have hb := pcOk_not_bad (hi'.pcs t)
  cases h with
  | @quiet pc' h =>
    rw [State.set_pc, upd_self]
    exact ⟨h.result hr hd, Same.rfl' _⟩
  | @eff m' pc' h =>
    rw [State.set_pc, upd_self] at hb ⊢
    rw [State.set_mem]
    exact h.result hb hr
  | @alone m' pc' hout h => rw [h.not_result] at hr; cases hr

theorem StepBy.other {cfg : Cfg} {s s' : State K V} {t u : Nat} (h : StepBy cfg u s s') (hu : t ≠ u) : s'.pc t = s.pc t := by
  cases h <;> exact upd_of_ne _ hu _

/-- The state of one operation of thread `t` along a run: pending, or done with a point where it took effect. -/
theorem lin_points {cfg : Cfg} {σ : Nat → State K V} {who : Nat → Nat} {n : Nat} (hr : Run cfg σ who n) (h0 : SInv (σ 0))
    {t : Nat} {o : KOp K V} (hs : (σ 0).pc t = .start (.key o)) (hd : ∀ i < n, ∀ r, (σ i).pc t ≠ .done r) :
    ∀ i ≤ n,
      (((σ i).pc t).pending = some o ∧ (∀ l < i, who l = t → Same (σ l).mem.elems (σ (l + 1)).mem.elems) ∧
        (AheadPc (σ i).mem ((σ i).pc t) ∨ ∃ l ≤ i, NoKey (σ l).mem o.key)) ∨
      (∃ r, ((σ i).pc t).result = some r ∧
        ((∃ l < i, who l = t ∧ o.Spec (σ 0).mem.tab.fns.eq (σ l).mem.elems (σ (l + 1)).mem.elems r ∧
            ∀ l' < i, who l' = t → l' ≠ l → Same (σ l').mem.elems (σ (l' + 1)).mem.elems) ∨
         (o.isInsert = false ∧ r = 0 ∧ (∃ l ≤ i, NoKey (σ l).mem o.key) ∧
            ∀ l' < i, who l' = t → Same (σ l').mem.elems (σ (l' + 1)).mem.elems))) := by
  intro i
  induction i with
  | zero =>
    intro _
    left
    rw [hs]
    exact ⟨rfl, fun l hl => absurd hl (Nat.not_lt_zero _), .inl trivial⟩
  | succ i ih =>
    intro hi
    have hin : i < n := by omega
    have hstep := hr.step i hin
    have hinv := hr.inv h0 i (by omega)
    have hw := hr.nowrap i hin
    by_cases hu : who i = t
    · rcases ih (by omega) with ⟨h1, h2, h3⟩ | ⟨r, h1, h2⟩
      · rw [hu] at hstep
        rcases hstep.pending_self hinv hw h1 with ⟨e1, e2, e3⟩ | ⟨r, e1, e2⟩ | ⟨e1, e2, e3, e4⟩
        · left
          refine ⟨e1, fun l hl hlt => ?_, ?_⟩
          · rcases Nat.lt_succ_iff_lt_or_eq.1 hl with hl | rfl
            · exact h2 l hl hlt
            · exact e2
          · exact h3.imp e3 (fun ⟨l, hl, hl'⟩ => ⟨l, by omega, hl'⟩)
        · right
          refine ⟨r, e1, .inl ⟨i, by omega, hu, ?_, fun l hl hlt hne => h2 l (by omega) hlt⟩⟩
          rw [← hr.fns h0 i (by omega)]
          exact e2
        · right
          refine ⟨0, e2, .inr ⟨e1, rfl, ?_, fun l hl hlt => ?_⟩⟩
          · rcases h3 with h3 | ⟨l, hl, hl'⟩
            · exact ⟨i, by omega, e4 h3⟩
            · exact ⟨l, by omega, hl'⟩
          · rcases Nat.lt_succ_iff_lt_or_eq.1 hl with hl | rfl
            · exact h2 l hl hlt
            · exact e3
      · rw [hu] at hstep
        obtain ⟨e1, e2⟩ := hstep.result_self hinv hw h1 (hd i hin)
        right
        refine ⟨r, e1, ?_⟩
        rcases h2 with ⟨l, hl, hlt, hsp, hsame⟩ | ⟨q1, q2, ⟨l, hl, hl'⟩, q4⟩
        · refine .inl ⟨l, by omega, hlt, hsp, fun l' hl' hlt' hne => ?_⟩
          rcases Nat.lt_succ_iff_lt_or_eq.1 hl' with hl' | rfl
          · exact hsame l' hl' hlt' hne
          · exact e2
        · refine .inr ⟨q1, q2, ⟨l, by omega, hl'⟩, fun l' hl' hlt' => ?_⟩
          rcases Nat.lt_succ_iff_lt_or_eq.1 hl' with hl' | rfl
          · exact q4 l' hl' hlt'
          · exact e2
    · have hpc : (σ (i + 1)).pc t = (σ i).pc t := hstep.other (fun h => hu h.symm)
      rw [hpc]
      rcases ih (by omega) with ⟨h1, h2, h3⟩ | ⟨r, h1, h2⟩
      · left
        refine ⟨h1, fun l hl hlt => ?_, ?_⟩
        · rcases Nat.lt_succ_iff_lt_or_eq.1 hl with hl | rfl
          · exact h2 l hl hlt
          · exact absurd hlt hu
        · rcases h3 with h3 | ⟨l, hl, hl'⟩
          · rcases ahead_other hinv hw hstep (fun h => hu h.symm) (pending_key h1) h3 with h4 | h4
            · exact .inl h4
            · exact .inr ⟨i, by omega, h4⟩
          · exact .inr ⟨l, by omega, hl'⟩
      · right
        refine ⟨r, h1, ?_⟩
        rcases h2 with ⟨l, hl, hlt, hsp, hsame⟩ | ⟨q1, q2, ⟨l, hl, hl'⟩, q4⟩
        · refine .inl ⟨l, by omega, hlt, hsp, fun l' hl' hlt' hne => ?_⟩
          rcases Nat.lt_succ_iff_lt_or_eq.1 hl' with hl' | rfl
          · exact hsame l' hl' hlt' hne
          · exact absurd hlt' hu
        · refine .inr ⟨q1, q2, ⟨l, by omega, hl'⟩, fun l' hl' hlt' => ?_⟩
          rcases Nat.lt_succ_iff_lt_or_eq.1 hl' with hl' | rfl
          · exact q4 l' hl' hlt'
          · exact absurd hlt' hu

end Conc.Tab

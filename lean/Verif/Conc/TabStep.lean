/-
Steps of a thread keep what is known about it; the search and the insertion counter.
Lemmas only; the model is `Verif.Conc.Table`.
-/
import Verif.Conc.TabPc

namespace Conc.Tab
open Foa
open Conc.Locking (Mode)

variable {K V : Type}

theorem PbS.init {m : Mem K V} (hf : m.tab.fns.Lawful) (o : KOp K V) : PbS m o (probe0 m o) := by
  have h := posFor_lt hf m.tab.arr o.key
  exact ⟨(pat_zero _ _ h).symm, Nat.two_pow_pos _⟩

theorem PbS.next {m : Mem K V} {o : KOp K V} {pb : Prober} (h : PbS m o pb) (hn : (pb.next m.tab.arr.mask).2 = true) :
    PbS m o (pb.next m.tab.arr.mask).1 := by
  have h2 := Nat.two_pow_pos m.tab.arr.k
  have hn' : pb.step + 1 ≤ 2 ^ m.tab.arr.k - 1 := of_decide_eq_true hn
  refine ⟨?_, by show pb.step + 1 < _; omega⟩
  show (pb.pos + (pb.step + 1)) &&& (2 ^ m.tab.arr.k - 1) = _
  rw [h.1, pat_succ]; rfl

/-- Under a lock on its group, an occupied slot other than the sentinel holds a live element. -/
theorem Shape.occupied {m : Mem K V} {own : Nat → Nat → Prop} (hs : Shape m own) {g j : Nat} (hg : g < 2 ^ m.tab.arr.k)
    (hj : NotSent m g j) (hm : (m.grp g).md j ≠ 0) (ho : ¬ own g j) : ∃ y, m.slot g j = some y := by
  rcases hs with ⟨_, h⟩ | ⟨_, h⟩
  · have hv := h.valid_of hg hj.1 hj.2
    rcases h.cell g j hv with ⟨h1, _⟩ | ⟨x, h1, _⟩ | ⟨_, _, h3⟩
    · exact absurd h1 hm
    · exact ⟨x, h1⟩
    · exact absurd h3 ho
  · exfalso
    have := hj.2
    simp only [Mem.grp, h.grp, Group.setSentinel, Group.empty] at this hm
    split at hm <;> simp_all

theorem Shape.avail {m : Mem K V} {own : Nat → Nat → Prop} (hs : Shape m own) (he : m.tab.arr.hasElems = true) {g j : Nat}
    (hg : g < 2 ^ m.tab.arr.k) (hj : j < 15) (hm : (m.grp g).md j = 0) : m.slot g j = none := by
  have h := hs.of_elems he
  have hv := h.valid_of hg hj (by simp only [Mem.grp] at hm; omega)
  rcases h.cell g j hv with ⟨_, h1⟩ | ⟨x, _, h2⟩ | ⟨h1, _, _⟩
  · exact h1
  · have := rhash_ge_two (m.tab.fns.hash x.1)
    simp only [Mem.grp] at hm; omega
  · exact h1

theorem mem_reallyOcc {m : Mem K V} {g j : Nat} : j ∈ reallyOcc m g ↔
    j < 15 ∧ (m.grp g).md j ≠ 0 ∧ ¬ (g = m.tab.arr.mask ∧ j = 14) := by
  simp only [reallyOcc, N, List.mem_filter, List.mem_range, Bool.and_eq_true, bne_iff_ne, ne_eq, Bool.not_eq_true',
    Bool.and_eq_false_iff, decide_eq_false_iff_not]
  constructor
  · rintro ⟨h1, h2, h3⟩
    exact ⟨h1, h2, fun hc => h3.elim (fun h => h hc.1) (fun h => h hc.2)⟩
  · rintro ⟨h1, h2, h3⟩
    exact ⟨h1, h2, by by_cases h : g = m.tab.arr.mask; exacts [.inr fun hj => h3 ⟨h, hj⟩, .inl h]⟩

theorem reallyOcc_live {m : Mem K V} {own : Nat → Nat → Prop} (hs : Shape m own) (he : m.tab.arr.hasElems = true) {g : Nat}
    (hg : g < 2 ^ m.tab.arr.k) (ho : ∀ j, ¬ own g j) : LiveAt m g (reallyOcc m g) := by
  refine ⟨(List.nodup_range).filter _, fun j hj => ?_⟩
  obtain ⟨h1, h2, h3⟩ := mem_reallyOcc.1 hj
  have h := hs.of_elems he
  rcases h.cell g j ⟨hg, h1, h3⟩ with ⟨h4, _⟩ | ⟨x, h4, _⟩ | ⟨_, _, h4⟩
  · exact absurd h4 h2
  · exact ⟨x, h4⟩
  · exact absurd h4 (ho j)

theorem missPc_ok {m : Mem K V} (o : KOp K V) (c : Nat) : PcOk m (missPc o c) := by
  simp only [missPc]
  split
  · assumption
  · trivial

/-- Steps that change nothing. -/
theorem Quiet.ok {m : Mem K V} {canS canX : Nat → Prop} {p p' : Pc K V} (h : Quiet m canS canX p p')
    {own : Nat → Nat → Prop} (hs : Shape m own) (hf : m.tab.fns.Lawful) (hp : PcOk m p)
    (hcan : ∀ g, canS g ∨ canX g → ∀ j, own g j → p.owns = some (g, j))
    (hlock : ∀ g md, p.locks = some (g, md) → ∀ j, own g j → p.owns = some (g, j))
    (hml : m.tab.arr.hasElems = false → m.tab.ml = 0) : PcOk m p' := by
  cases h with
  | call o => trivial
  | callAgain r o => trivial
  | enter o =>
    simp only [enterPc]
    split
    · assumption
    · exact ⟨PbS.init hf o, fun j hj => List.mem_range.1 hj, fun j hj => by cases hj⟩
  | counter o => exact ⟨PbS.init hf o, fun j hj => List.mem_range.1 hj, fun j hj => by cases hj⟩
  | scanMatch o c pb todo acc j hj hm =>
    refine ⟨hp.1, fun l hl => hp.2.1 l (List.mem_of_mem_erase hl), fun l hl => ?_⟩
    rcases List.mem_cons.1 hl with rfl | hl
    · exact ⟨hp.2.1 _ hj, hm⟩
    · exact hp.2.2 l hl
  | scanMiss o c pb todo acc j hj hm => exact ⟨hp.1, fun l hl => hp.2.1 l (List.mem_of_mem_erase hl), hp.2.2⟩
  | scanNone o c pb => exact hp.1
  | scanSome o c pb acc _ => exact ⟨hp.1, fun l hl => hp.2.2 l (by simpa using (List.mem_filter.1 hl).2)⟩
  | lockS o c pb ms _ _ => exact hp
  | lockX o c pb ms _ _ => exact hp
  | checkEmpty o c pb j ms _ => exact ⟨hp.1, fun l hl => hp.2 l (List.mem_cons_of_mem _ hl)⟩
  | checkBad o c pb j ms hm hn =>
    obtain ⟨y, hy⟩ := hs.occupied (by rw [hp.1.1]; exact pat_lt _ _ _) (hp.2 j List.mem_cons_self) hm
      (fun ho => by have := hlock _ _ rfl j ho; cases this)
    rw [hn] at hy; cases hy
  | checkHit o c pb j ms y hm hy he => exact ⟨hp.1, y, hy, he⟩
  | checkMiss o c pb j ms y _ _ _ => exact ⟨hp.1, fun l hl => hp.2 l (List.mem_cons_of_mem _ hl)⟩
  | checkEnd o c pb => exact hp.1
  | overEnd o c pb _ => exact missPc_ok o c
  | overNext o c pb _ =>
    split
    · rename_i hn
      exact ⟨PbS.next hp hn, fun j hj => List.mem_range.1 hj, fun j hj => by cases hj⟩
    · exact missPc_ok o c
  | hitBad o pb j hn =>
    obtain ⟨_, y, hy, _⟩ := hp
    rw [hn] at hy; cases hy
  | testOk o c n hn =>
    refine ⟨hp.1, ?_, (PbS.init hf o).1, fun i hi => absurd hi (Nat.not_lt_zero _)⟩
    by_contra he
    have := hml (by simpa using he)
    have := hp.2
    omega
  | testFail o c n _ => exact hp.1
  | insLock o c pb _ => exact hp
  | insFindBad o c pb he => rw [hp.2.1] at he; cases he
  | insFindTaken o c pb j js ha hn =>
    have hj := mem_availSlots.1 (by rw [ha]; exact List.mem_cons_self : j ∈ (m.grp pb.pos).availSlots)
    exact hn (hs.avail hp.2.1 (by rw [hp.2.2.1]; exact pat_lt _ _ _) hj.1 hj.2)
  | insNext o c pb =>
    obtain ⟨⟨h1, h2, h3, h4⟩, h5⟩ := hp
    refine ⟨h1, h2, ?_, fun i hi => ?_⟩
    · show (pb.pos + (pb.step + 1)) &&& (2 ^ m.tab.arr.k - 1) = _
      rw [h3, pat_succ]; rfl
    · have hi' : i < pb.step + 1 := hi
      by_cases h : i = pb.step
      · rw [h, ← h3]; exact h5
      · exact h4 i (by omega)
  | rollUnlock o pb => exact hp
  | sweepNone md act _ => trivial
  | sweep md act he => exact ⟨he, Nat.two_pow_pos _⟩
  | swLockS act g r hc =>
    exact ⟨hp.1, hp.2, reallyOcc_live hs hp.1 hp.2 (fun j ho => by have := hcan g (.inl hc) j ho; cases this)⟩
  | swLockX act g r hc =>
    exact ⟨hp.1, hp.2, reallyOcc_live hs hp.1 hp.2 (fun j ho => by have := hcan g (.inr hc) j ho; cases this)⟩
  | swBad md act g j js r hn =>
    obtain ⟨y, hy⟩ := hp.2.2.2 j List.mem_cons_self
    rw [hn] at hy; cases hy
  | swEnd md act g r =>
    split
    · rename_i hg
      have := Nat.two_pow_pos m.tab.arr.k
      exact ⟨hp.1, by simp only [Arrays.mask] at hg; omega⟩
    · trivial
  | unlock g md r => trivial
  | leave r => trivial

theorem slot_call {m : Mem K V} {md : Mode} {g j : Nat} {y : K × V} {v : V} (hy : m.slot g j = some y) (i l : Nat) :
    (∃ x, (m.call md g j y v).slot i l = some x) ↔ ∃ x, m.slot i l = some x := by
  cases md with
  | shared => exact Iff.rfl
  | excl =>
    simp only [Mem.call, Mem.setSlot, Mem.slot, Arrays.setSlot]
    by_cases hc : i = g ∧ l = j
    · obtain ⟨rfl, rfl⟩ := hc
      simp only [Mem.slot] at hy
      simp [hy]
    · simp [hc]

theorem live_call {m : Mem K V} {md : Mode} {g j : Nat} {y : K × V} {v : V} (hy : m.slot g j = some y) {js : List Nat} {g' : Nat}
    (h : LiveAt m g' js) : LiveAt (m.call md g j y v) g' js :=
  ⟨h.1, fun l hl => (slot_call hy g' l).2 (h.2 l hl)⟩

theorem live_take {m : Mem K V} {g j n : Nat} {js : List Nat} (h : LiveAt m g (j :: js)) :
    LiveAt ((m.setSlot g j none).setMl n) g js := by
  have hnd := List.nodup_cons.1 h.1
  refine ⟨hnd.2, fun l hl => ?_⟩
  obtain ⟨y, hy⟩ := h.2 l (List.mem_cons_of_mem _ hl)
  have : l ≠ j := fun he => hnd.1 (he ▸ hl)
  exact ⟨y, by simpa [Mem.slot, Mem.setSlot, Mem.setMl, Arrays.setSlot, this] using hy⟩

theorem call_arr {m : Mem K V} {md : Mode} {g j : Nat} {y : K × V} {v : V} :
    (m.call md g j y v).tab.arr.k = m.tab.arr.k ∧ (m.call md g j y v).tab.arr.hasElems = m.tab.arr.hasElems := by
  cases md <;> exact ⟨rfl, rfl⟩

theorem drop_le_one (m : Mem K V) (g j : Nat) : m.drop g j ≤ 1 := by simp only [Mem.drop]; split <;> omega

/-- Steps that change memory. -/
theorem Eff.ok {m m' : Mem K V} {p p' : Pc K V} (h : Eff m p m' p') {own : Nat → Nat → Prop} (hs : Shape m own)
    (hp : PcOk m p) (hsz : p.hasRes = true ∨ (∃ d, p.er = some d) → 1 ≤ m.tab.size)
    (hml : ∀ g j y, m.slot g j = some y → 1 ≤ m.tab.ml) : PcOk m' p' := by
  have hfr := h.frame
  cases h with
  | visit md k f pb j y hy => trivial
  | found md x f2 f1 pb j y hy => trivial
  | eraseNot k p pb j y v hy _ => trivial
  | erase k p pb j y hy _ hd =>
    have hv := (hs.live hy).2.valid hy
    refine ⟨⟨(hs.live hy).1, hv, ?_, ?_⟩, drop_le_one _ _ _, trivial⟩
    · simp [Mem.slot, Mem.setSlot, Mem.setMl, Arrays.setSlot]
    · have := (hs.live hy).2.md hy
      have h2 := rhash_ge_two (m.tab.fns.hash y.1)
      show 2 ≤ (m.tab.arr.grp pb.pos).md j
      omega
  | eraseWrap k p pb j y hy _ hd =>
    have := hml _ _ _ hy
    have := drop_le_one m pb.pos j
    omega
  | eraseReset g j d cont =>
    refine ⟨hp.2.1, ?_⟩
    cases cont with
    | none => trivial
    | some q => exact hp.2.2
  | eraseSize g d _ => trivial
  | eraseSizeMore g d act js r _ => exact hp.2
  | eraseSizeWrap g d cont h0 => have := hsz (.inr ⟨d, rfl⟩); omega
  | reserve o c => exact ⟨hp, by omega⟩
  | failSize o _ => exact hp
  | failSizeWrap o h0 => have := hsz (.inl rfl); omega
  | insSet o c pb j js h1 h2 h3 =>
    have hj := mem_availSlots.1 (by rw [h2]; exact List.mem_cons_self : j ∈ (m.grp pb.pos).availSlots)
    have hv : Valid m.tab.arr.k pb.pos j := (hs.of_elems h1).valid_of (by rw [hp.2.2.1]; exact pat_lt _ _ _) hj.1
      (by have := hj.2; simp only [Mem.grp] at this; omega)
    have hmd : ((m.setGrp pb.pos ((m.grp pb.pos).set j (m.hashOf o.key))).grp pb.pos).md j = rhash (m.hashOf o.key) := by
      simp [Mem.grp, Mem.setGrp, Arrays.setGrp, Group.set]
    exact ⟨PbI.frame hfr hp, ⟨h1, hv, h3, by rw [hmd]; exact rhash_ge_two _⟩, hmd⟩
  | insFull o c pb h1 h2 =>
    refine ⟨PbI.frame hfr hp, ?_⟩
    simp [Mem.grp, Mem.setGrp, Arrays.setGrp, Group.markOverflow, Mem.hashOf]
  | insert md x f2 f1 c pb j h1 h2 => trivial
  | insertBad o c pb j h1 h2 => exact absurd hp.2.1.2.2.1 h2
  | startOver o c pb j h1 => exact ⟨hp.1.1, hp.2.1⟩
  | rollReset o pb j => exact hp.1
  | rollSize o _ => exact hp
  | rollSizeWrap o h0 => have := hsz (.inl rfl); omega
  | swGo md act g j js r y v add hy _ =>
    refine ⟨call_arr.2.trans hp.1, by rw [call_arr.1]; exact hp.2.1, live_call hy ?_⟩
    exact ⟨(List.nodup_cons.1 hp.2.2.1).2, fun l hl => hp.2.2.2 l (List.mem_cons_of_mem _ hl)⟩
  | swStop md act g j js r y v _ hy _ => trivial
  | swErase act g j js r y hy _ hd =>
    have hv := (hs.live hy).2.valid hy
    refine ⟨⟨hp.1, hv, ?_, ?_⟩, drop_le_one _ _ _, hp.1, hp.2.1, live_take hp.2.2⟩
    · simp [Mem.slot, Mem.setSlot, Mem.setMl, Arrays.setSlot]
    · have := (hs.live hy).2.md hy
      have h2 := rhash_ge_two (m.tab.fns.hash y.1)
      show 2 ≤ (m.tab.arr.grp g).md j
      omega
  | swEraseWrap act g j js r y hy _ hd =>
    have := hml _ _ _ hy
    have := drop_le_one m g j
    omega

/-! ### the search: what has not been looked at yet -/

/-- Every live element equivalent to the key is at a probe index and slot satisfying `Q`. -/
def Ahead (m : Mem K V) (x : K) (Q : Nat → Nat → Prop) : Prop :=
  ∀ g j y i, m.slot g j = some y → m.tab.fns.eq x y.1 = true → i < 2 ^ m.tab.arr.k → g = pat m.tab.arr.k (m.pos0 x) i → Q i j

/-- Live equivalent elements are still ahead of the search. -/
def AheadPc (m : Mem K V) : Pc K V → Prop
  | .scan o _ pb todo acc => Ahead m o.key fun i j => pb.step < i ∨ (i = pb.step ∧ (j ∈ todo ∨ j ∈ acc))
  | .lock o _ pb ms | .check o _ pb ms => Ahead m o.key fun i j => pb.step < i ∨ (i = pb.step ∧ j ∈ ms)
  | .over o _ pb => Ahead m o.key fun i _ => pb.step < i
  | .reserve o _ | .test o _ _ | .insLock o _ _ | .insFind o _ _ | .insNext o _ _ | .insInc o _ _ _ => NoKey m o.key
  | _ => True

theorem Ahead.start {m : Mem K V} {own : Nat → Nat → Prop} (hs : Shape m own) (o : KOp K V) :
    Ahead m o.key fun i j => (probe0 m o).step < i ∨ (i = (probe0 m o).step ∧ (j ∈ List.range N ∨ j ∈ [])) := by
  intro g j y i hy _ _ _
  have hv := (hs.live hy).2.valid hy
  rcases Nat.eq_zero_or_pos i with h | h
  · exact .inr ⟨h, .inl (List.mem_range.2 hv.2.1)⟩
  · exact .inl h

theorem Shape.eq_probe {m : Mem K V} {own : Nat → Nat → Prop} (hs : Shape m own) (hf : m.tab.fns.Lawful) {x : K}
    {g j : Nat} {y : K × V} (hy : m.slot g j = some y) (he : m.tab.fns.eq x y.1 = true) :
    (m.grp g).md j = rhash (m.hashOf x) ∧ ∃ i, i < 2 ^ m.tab.arr.k ∧ g = pat m.tab.arr.k (m.pos0 x) i ∧
      ∀ i' < i, (m.grp (pat m.tab.arr.k (m.pos0 x) i')).ofw.testBit (m.hashOf x % 8) = true := by
  have h := (hs.live hy).2
  have hh : m.tab.fns.hash x = m.tab.fns.hash y.1 := hf.compat _ _ he
  refine ⟨by rw [Mem.grp, h.md hy, Mem.hashOf, hh], ?_⟩
  have := h.probe g j y hy
  rw [← hh] at this
  exact this

/-- A search that ends without a hit, with everything equivalent ahead of it, has seen that there is nothing. -/
theorem over_noKey {m : Mem K V} {own : Nat → Nat → Prop} (hs : Shape m own) (hf : m.tab.fns.Lawful) {o : KOp K V} {c : Nat}
    {pb : Prober} (hp : PbS m o pb) (ha : AheadPc m (.over o c pb))
    (hend : (m.grp pb.pos).isNotOverflowed (m.hashOf o.key) = true ∨ (pb.next m.tab.arr.mask).2 = false) :
    NoKey m o.key := by
  intro g j y hy
  by_contra he
  have he : m.tab.fns.eq o.key y.1 = true := by simpa using he
  obtain ⟨_, i, hi, hg, hb⟩ := hs.eq_probe hf hy he
  have hlt : pb.step < i := ha g j y i hy he hi hg
  rcases hend with h | h
  · have := hb _ hlt
    rw [← hp.1] at this
    simp [Group.isNotOverflowed, this] at h
  · have h2 := Nat.two_pow_pos m.tab.arr.k
    have h' : ¬ pb.step + 1 ≤ 2 ^ m.tab.arr.k - 1 := of_decide_eq_false h
    omega

theorem AheadPc.miss {m : Mem K V} {o : KOp K V} (c : Nat) (h : NoKey m o.key) : AheadPc m (missPc o c) := by
  simp only [missPc]
  split
  · exact h
  · trivial

/-- Steps of the thread that change nothing keep equivalent elements ahead. -/
theorem Quiet.ahead {m : Mem K V} {canS canX : Nat → Prop} {p p' : Pc K V} (h : Quiet m canS canX p p')
    {own : Nat → Nat → Prop} (hs : Shape m own) (hf : m.tab.fns.Lawful) (hp : PcOk m p) (ha : AheadPc m p) :
    AheadPc m p' := by
  cases h with
  | enter o =>
    simp only [enterPc]
    split
    · trivial
    · exact Ahead.start hs o
  | counter o => exact Ahead.start hs o
  | scanMatch o c pb todo acc j hj hm =>
    intro g l y i hy he hi hg
    rcases ha g l y i hy he hi hg with h | ⟨h1, h2⟩
    · exact .inl h
    · refine .inr ⟨h1, ?_⟩
      by_cases hl : l = j
      · subst hl; exact .inr List.mem_cons_self
      · rcases h2 with h2 | h2
        · exact .inl ((List.mem_erase_of_ne hl).2 h2)
        · exact .inr (List.mem_cons_of_mem _ h2)
  | scanMiss o c pb todo acc j hj hm =>
    intro g l y i hy he hi hg
    rcases ha g l y i hy he hi hg with h | ⟨h1, h2⟩
    · exact .inl h
    · refine .inr ⟨h1, ?_⟩
      by_cases hl : l = j
      · exfalso
        subst hl
        have := (hs.eq_probe hf hy he).1
        have hgp : g = pb.pos := by rw [hg, h1, hp.1.1]
        rw [hgp] at this
        exact hm this
      · rcases h2 with h2 | h2
        · exact .inl ((List.mem_erase_of_ne hl).2 h2)
        · exact .inr h2
  | scanNone o c pb =>
    intro g l y i hy he hi hg
    rcases ha g l y i hy he hi hg with h | ⟨h1, h2 | h2⟩
    · exact h
    · cases h2
    · cases h2
  | scanSome o c pb acc _ =>
    intro g l y i hy he hi hg
    rcases ha g l y i hy he hi hg with h | ⟨h1, h2 | h2⟩
    · exact .inl h
    · cases h2
    · refine .inr ⟨h1, List.mem_filter.2 ⟨List.mem_range.2 ?_, by simpa using h2⟩⟩
      exact ((hs.live hy).2.valid hy).2.1
  | lockS o c pb ms _ _ => exact ha
  | lockX o c pb ms _ _ => exact ha
  | checkEmpty o c pb j ms hm =>
    intro g l y i hy he hi hg
    rcases ha g l y i hy he hi hg with h | ⟨h1, h2⟩
    · exact .inl h
    · rcases List.mem_cons.1 h2 with rfl | h2
      · exfalso
        have h3 := (hs.eq_probe hf hy he).1
        have hgp : g = pb.pos := by rw [hg, h1, hp.1.1]
        rw [hgp, hm] at h3
        have := rhash_ge_two (m.hashOf o.key)
        omega
      · exact .inr ⟨h1, h2⟩
  | checkMiss o c pb j ms z hm hz hne =>
    intro g l y i hy he hi hg
    rcases ha g l y i hy he hi hg with h | ⟨h1, h2⟩
    · exact .inl h
    · rcases List.mem_cons.1 h2 with rfl | h2
      · exfalso
        have hgp : g = pb.pos := by rw [hg, h1, hp.1.1]
        rw [hgp, hz] at hy
        cases hy
        rw [hne] at he
        cases he
      · exact .inr ⟨h1, h2⟩
  | checkEnd o c pb =>
    intro g l y i hy he hi hg
    rcases ha g l y i hy he hi hg with h | ⟨h1, h2⟩
    · exact h
    · cases h2
  | overEnd o c pb h => exact AheadPc.miss c (over_noKey hs hf hp ha (.inl h))
  | overNext o c pb h =>
    split
    · intro g l y i hy he hi hg
      have hlt : pb.step < i := ha g l y i hy he hi hg
      have hv := (hs.live hy).2.valid hy
      show pb.step + 1 < i ∨ i = pb.step + 1 ∧ _
      by_cases hi' : i = pb.step + 1
      · exact .inr ⟨hi', .inl (List.mem_range.2 hv.2.1)⟩
      · exact .inl (by omega)
    · rename_i hn
      exact AheadPc.miss c (over_noKey hs hf hp ha (.inr (by simpa using hn)))
  | testOk o c n _ => exact ha
  | insLock o c pb _ => exact ha
  | insNext o c pb => exact ha
  | swEnd md act g r => split <;> trivial
  | _ => trivial

/-- Every element of `m'` equivalent to `x` has its key from the same slot of `m`. -/
def KeysFrom (m m' : Mem K V) (x : K) : Prop :=
  ∀ g j y', m'.slot g j = some y' → m.tab.fns.eq x y'.1 = true → ∃ y, m.slot g j = some y ∧ y.1 = y'.1

theorem Ahead.keep {gx : Option Nat} {m m' : Mem K V} (hf : Frame gx m m') {x : K} {Q : Nat → Nat → Prop} (h : Ahead m x Q)
    (hk : KeysFrom m m' x) : Ahead m' x Q := by
  intro g j y i hy he hi hg
  rw [hf.fns] at he
  rw [hf.k] at hi hg
  rw [hf.pos0] at hg
  obtain ⟨z, hz, hze⟩ := hk g j y hy he
  exact h g j z i hz (by rw [hze]; exact he) hi hg

theorem NoKey.keep {gx : Option Nat} {m m' : Mem K V} (hf : Frame gx m m') {x : K} (h : NoKey m x)
    (hk : KeysFrom m m' x) : NoKey m' x := by
  intro g j y hy
  rw [hf.fns]
  by_contra he
  have he : m.tab.fns.eq x y.1 = true := by simpa using he
  obtain ⟨z, hz, hze⟩ := hk g j y hy he
  have := h g j z hz
  rw [hze, he] at this
  cases this

/-- The key of the operation a thread is working on. -/
def Pc.key? : Pc K V → Option K
  | .scan o _ _ _ _ | .lock o _ _ _ | .check o _ _ _ | .over o _ _ | .reserve o _ | .test o _ _ | .insLock o _ _
  | .insFind o _ _ | .insNext o _ _ | .insInc o _ _ _ => some o.key
  | _ => none

theorem AheadPc.keep {gx : Option Nat} {m m' : Mem K V} (hf : Frame gx m m') {p : Pc K V}
    (hk : ∀ x, p.key? = some x → KeysFrom m m' x) (h : AheadPc m p) : AheadPc m' p := by
  cases p with
  | scan o c pb todo acc => exact Ahead.keep hf h (hk _ rfl)
  | lock o c pb ms => exact Ahead.keep hf h (hk _ rfl)
  | check o c pb ms => exact Ahead.keep hf h (hk _ rfl)
  | over o c pb => exact Ahead.keep hf h (hk _ rfl)
  | reserve o c => exact NoKey.keep hf h (hk _ rfl)
  | test o c n => exact NoKey.keep hf h (hk _ rfl)
  | insLock o c pb => exact NoKey.keep hf h (hk _ rfl)
  | insFind o c pb => exact NoKey.keep hf h (hk _ rfl)
  | insNext o c pb => exact NoKey.keep hf h (hk _ rfl)
  | insInc o c pb j => exact NoKey.keep hf h (hk _ rfl)
  | _ => trivial

theorem keys_call {m : Mem K V} {md : Mode} {g j : Nat} {y : K × V} {v : V} (hy : m.slot g j = some y) (x : K) :
    KeysFrom m (m.call md g j y v) x := by
  intro i l y' h _
  cases md with
  | shared => exact ⟨y', h, rfl⟩
  | excl =>
    simp only [Mem.call, Mem.setSlot, Mem.slot, Arrays.setSlot] at h
    split at h
    · rename_i hc
      obtain ⟨rfl, rfl⟩ := hc
      cases h
      exact ⟨y, hy, rfl⟩
    · exact ⟨y', h, rfl⟩

theorem keys_take {m : Mem K V} {g j n : Nat} (x : K) : KeysFrom m ((m.setSlot g j none).setMl n) x := by
  intro i l y' h _
  simp only [Mem.setSlot, Mem.setMl, Mem.slot, Arrays.setSlot] at h
  split at h
  · cases h
  · exact ⟨y', h, rfl⟩

/-- Only a committed insertion adds a key, and it moves the insertion counter of the key. -/
theorem Eff.keys {m m' : Mem K V} {p p' : Pc K V} (h : Eff m p m' p') (x : K) :
    KeysFrom m m' x ∨ ∃ md y f2 f1 c pb j, p = .insInc (.insert md y f2 f1) c pb j ∧ m.tab.fns.eq x y.1 = true ∧
      m.cnt (m.pos0 y.1) % 2 ^ 32 = c % 2 ^ 32 ∧ m'.cnt (m.pos0 y.1) = m.cnt (m.pos0 y.1) + 1 := by
  cases h with
  | visit md k f pb j y hy => exact .inl (keys_call hy x)
  | found md z f2 f1 pb j y hy => exact .inl (keys_call hy x)
  | eraseNot k p pb j y v hy _ => exact .inl (keys_call hy x)
  | swGo md act g j js r y v add hy _ => exact .inl (keys_call hy x)
  | swStop md act g j js r y v _ hy _ => exact .inl (keys_call hy x)
  | erase k p pb j y hy _ hd => exact .inl (keys_take x)
  | swErase act g j js r y hy _ hd => exact .inl (keys_take x)
  | insert md y f2 f1 c pb j h1 h2 =>
    by_cases he : m.tab.fns.eq x y.1 = true
    · refine .inr ⟨md, y, f2, f1, c, pb, j, rfl, he, h1, ?_⟩
      simp [Mem.setSlot, Mem.incCnt]
    · left
      intro i l y' h he'
      simp only [Mem.setSlot, Mem.incCnt, Mem.slot, Arrays.setSlot] at h
      split at h
      · cases h
        exact absurd he' he
      · exact ⟨y', h, rfl⟩
  | _ => exact .inl fun i l y' h _ => ⟨y', h, rfl⟩

/-- Steps of the thread that change memory. -/
theorem Eff.ahead {m m' : Mem K V} {p p' : Pc K V} (h : Eff m p m' p') (ha : AheadPc m p) : AheadPc m' p' := by
  cases h with
  | reserve o c => exact ha
  | insSet o c pb j js h1 h2 h3 => exact ha
  | insFull o c pb h1 h2 => exact ha
  | _ => trivial

/-- Key and recorded counter of an insertion in progress. -/
def Pc.stamp : Pc K V → Option (K × Nat)
  | .scan o c _ _ _ | .lock o c _ _ | .check o c _ _ | .over o c _ => if o.isInsert then some (o.key, c) else none
  | .reserve o c | .test o c _ | .insLock o c _ | .insFind o c _ | .insNext o c _ | .insInc o c _ _ => some (o.key, c)
  | _ => none

/-- Unless the counter has moved, equivalent elements are ahead of the insertion. -/
def InsOk (m : Mem K V) (p : Pc K V) : Prop :=
  ∀ x c, p.stamp = some (x, c) → c ≤ m.cnt (m.pos0 x) ∧ (m.cnt (m.pos0 x) = c → AheadPc m p)

theorem stamp_key {p : Pc K V} {x : K} {c : Nat} (h : p.stamp = some (x, c)) : p.key? = some x := by
  cases p <;> simp only [Pc.stamp] at h <;> first | (split at h <;> cases h; rfl) | (cases h; rfl) | cases h

theorem Quiet.stamp {m : Mem K V} {canS canX : Nat → Prop} {p p' : Pc K V} (h : Quiet m canS canX p p') :
    p'.stamp = none ∨ p'.stamp = p.stamp ∨ ∃ x, p'.stamp = some (x, m.cnt (m.pos0 x)) ∧ p.stamp = none := by
  have hmiss : ∀ (o : KOp K V) c, (missPc o c).stamp = if o.isInsert then some (o.key, c) else none := by
    intro o c
    simp only [missPc]
    split <;> rfl
  cases h with
  | enter o =>
    left
    simp only [enterPc]
    split
    · rfl
    · rename_i h; simp [Pc.stamp, h]
  | counter o =>
    by_cases ho : o.isInsert = true
    · exact .inr (.inr ⟨o.key, by simp [Pc.stamp, ho], rfl⟩)
    · left; simp [Pc.stamp, ho]
  | overEnd o c pb h => exact .inr (.inl (hmiss o c))
  | overNext o c pb h =>
    right; left
    split
    · rfl
    · exact hmiss o c
  | swEnd md act g r => left; split <;> rfl
  | scanMatch o c pb todo acc j hj hm => exact .inr (.inl rfl)
  | scanMiss o c pb todo acc j hj hm => exact .inr (.inl rfl)
  | scanNone o c pb => exact .inr (.inl rfl)
  | scanSome o c pb acc _ => exact .inr (.inl rfl)
  | lockS o c pb ms _ _ => exact .inr (.inl rfl)
  | lockX o c pb ms _ _ => exact .inr (.inl rfl)
  | checkEmpty o c pb j ms hm => exact .inr (.inl rfl)
  | checkMiss o c pb j ms z hm hz hne => exact .inr (.inl rfl)
  | checkEnd o c pb => exact .inr (.inl rfl)
  | testOk o c n _ => exact .inr (.inl rfl)
  | insLock o c pb _ => exact .inr (.inl rfl)
  | insNext o c pb => exact .inr (.inl rfl)
  | _ => exact .inl rfl

theorem AheadPc.of_nostamp_start {m : Mem K V} {canS canX : Nat → Prop} {p p' : Pc K V} (h : Quiet m canS canX p p')
    {own : Nat → Nat → Prop} (hs : Shape m own) {x : K} (hp' : p'.stamp = some (x, m.cnt (m.pos0 x))) (hp : p.stamp = none) :
    AheadPc m p' := by
  have hmiss : ∀ (o : KOp K V) c, (missPc o c).stamp = if o.isInsert then some (o.key, c) else none := by
    intro o c
    simp only [missPc]
    split <;> rfl
  cases h with
  | counter o => exact Ahead.start hs o
  | enter o =>
    simp only [enterPc] at hp' ⊢
    split
    · trivial
    · exact Ahead.start hs o
  | overEnd o c pb h =>
    rw [hmiss] at hp'
    simp only [Pc.stamp] at hp
    rw [hp] at hp'; cases hp'
  | overNext o c pb h =>
    split at hp'
    · simp only [Pc.stamp] at hp hp'; rw [hp] at hp'; cases hp'
    · rw [hmiss] at hp'
      simp only [Pc.stamp] at hp
      rw [hp] at hp'; cases hp'
  | swEnd md act g r => split <;> trivial
  | scanMatch o c pb todo acc j hj hm => simp only [Pc.stamp] at hp hp'; rw [hp] at hp'; cases hp'
  | scanMiss o c pb todo acc j hj hm => simp only [Pc.stamp] at hp hp'; rw [hp] at hp'; cases hp'
  | scanNone o c pb => simp only [Pc.stamp] at hp hp'; rw [hp] at hp'; cases hp'
  | scanSome o c pb acc _ => simp only [Pc.stamp] at hp hp'; rw [hp] at hp'; cases hp'
  | lockS o c pb ms _ _ => simp only [Pc.stamp] at hp hp'; rw [hp] at hp'; cases hp'
  | lockX o c pb ms _ _ => simp only [Pc.stamp] at hp hp'; rw [hp] at hp'; cases hp'
  | checkEmpty o c pb j ms hm => simp only [Pc.stamp] at hp hp'; rw [hp] at hp'; cases hp'
  | checkMiss o c pb j ms z hm hz hne => simp only [Pc.stamp] at hp hp'; rw [hp] at hp'; cases hp'
  | checkEnd o c pb => simp only [Pc.stamp] at hp hp'; rw [hp] at hp'; cases hp'
  | testOk o c n _ => cases hp
  | insLock o c pb _ => cases hp
  | insNext o c pb => cases hp
  | _ => trivial

theorem Eff.stamp {m m' : Mem K V} {p p' : Pc K V} (h : Eff m p m' p') : p'.stamp = none ∨ (p'.stamp = p.stamp ∧ m'.cnt = m.cnt) := by
  cases h with
  | reserve o c => exact .inr ⟨rfl, rfl⟩
  | insSet o c pb j js h1 h2 h3 => exact .inr ⟨rfl, rfl⟩
  | insFull o c pb h1 h2 => exact .inr ⟨rfl, rfl⟩
  | _ => exact .inl rfl

theorem Quiet.insOk {m : Mem K V} {canS canX : Nat → Prop} {p p' : Pc K V} (h : Quiet m canS canX p p')
    {own : Nat → Nat → Prop} (hs : Shape m own) (hf : m.tab.fns.Lawful) (hp : PcOk m p) (hi : InsOk m p) : InsOk m p' := by
  intro x c hx
  rcases h.stamp with h1 | h1 | ⟨z, h1, h2⟩
  · rw [h1] at hx; cases hx
  · rw [h1] at hx
    exact ⟨(hi x c hx).1, fun hc => h.ahead hs hf hp ((hi x c hx).2 hc)⟩
  · rw [h1] at hx
    cases hx
    exact ⟨le_rfl, fun _ => AheadPc.of_nostamp_start h hs h1 h2⟩

theorem Eff.insOk {m m' : Mem K V} {p p' : Pc K V} (h : Eff m p m' p') (hi : InsOk m p) : InsOk m' p' := by
  intro x c hx
  rcases h.stamp with h1 | ⟨h1, h2⟩
  · rw [h1] at hx; cases hx
  · rw [h1] at hx
    rw [h.frame.pos0, h2]
    exact ⟨(hi x c hx).1, fun hc => h.ahead ((hi x c hx).2 hc)⟩

/-- Steps of other threads. -/
theorem Eff.insOk_other {m m' : Mem K V} {q q' : Pc K V} (h : Eff m q m' q') (hf : m.tab.fns.Lawful) {p : Pc K V}
    (hi : InsOk m p) : InsOk m' p := by
  intro x c hx
  have hfr := h.frame
  rw [hfr.pos0]
  obtain ⟨h1, h2⟩ := hi x c hx
  refine ⟨h1.trans (hfr.cnt _), fun hc => ?_⟩
  have hc0 : m.cnt (m.pos0 x) = c := le_antisymm (by rw [← hc]; exact hfr.cnt _) h1
  refine AheadPc.keep hfr (fun z hz => ?_) (h2 hc0)
  rw [stamp_key hx] at hz
  cases hz
  rcases h.keys x with hk | ⟨_, y, _, _, _, _, _, _, he, _, hinc⟩
  · exact hk
  · exfalso
    have : m.pos0 y.1 = m.pos0 x := by simp only [Mem.pos0, Mem.hashOf, hf.compat _ _ he]
    rw [this] at hinc
    omega

end Conc.Tab

/-
What is known about a thread from where it is in the code, and its preservation by steps of the thread and of others.
Lemmas only; the model is `Verif.Conc.Table`.
-/
import Verif.Conc.TabAcct

namespace Conc.Tab
open Foa
open Conc.Locking (Mode)

variable {K V : Type}

/-- The slot a thread is filling or emptying. -/
def Pc.owns : Pc K V → Option (Nat × Nat)
  | .insInc _ _ pb j | .rollReset _ pb j => some (pb.pos, j)
  | .eraseReset g j _ _ => some (g, j)
  | _ => none

/-- The arrays: in use, or the shared dummy. -/
def Shape (m : Mem K V) (own : Nat → Nat → Prop) : Prop :=
  (m.tab.arr.hasElems = true ∧ CLive m.tab.fns m.tab.arr own) ∨ (m.tab.arr.hasElems = false ∧ IsDummy m.tab.arr)

/-- Prober of a search. -/
def PbS (m : Mem K V) (o : KOp K V) (pb : Prober) : Prop :=
  pb.pos = pat m.tab.arr.k (m.pos0 o.key) pb.step ∧ pb.step < 2 ^ m.tab.arr.k

/-- Prober of an insertion: everything passed is marked. -/
def PbI (m : Mem K V) (o : KOp K V) (pb : Prober) : Prop :=
  o.isInsert = true ∧ m.tab.arr.hasElems = true ∧ pb.pos = pat m.tab.arr.k (m.pos0 o.key) pb.step ∧
  ∀ i < pb.step, (m.grp (pat m.tab.arr.k (m.pos0 o.key) i)).ofw.testBit (m.hashOf o.key % 8) = true

def NotSent (m : Mem K V) (g j : Nat) : Prop := j < 15 ∧ (m.grp g).md j ≠ 1

def LiveAt (m : Mem K V) (g : Nat) (js : List Nat) : Prop := js.Nodup ∧ ∀ j ∈ js, ∃ y, m.slot g j = some y

def ContOk (m : Mem K V) (g : Nat) : Cont K V → Prop
  | none => True
  | some (_, js, _) => m.tab.arr.hasElems = true ∧ g < 2 ^ m.tab.arr.k ∧ LiveAt m g js

def Emptied (m : Mem K V) (g j : Nat) : Prop :=
  m.tab.arr.hasElems = true ∧ Valid m.tab.arr.k g j ∧ m.slot g j = none ∧ 2 ≤ (m.grp g).md j

/-- What is known about memory when a thread is at a place. -/
def PcOk (m : Mem K V) : Pc K V → Prop
  | .bad => False
  | .full o | .counter o | .reserve o _ | .failSize o | .rollUnlock o _ | .rollSize o => o.isInsert = true
  | .scan o _ pb todo acc => PbS m o pb ∧ (∀ j ∈ todo, j < 15) ∧ ∀ j ∈ acc, NotSent m pb.pos j
  | .lock o _ pb ms | .check o _ pb ms => PbS m o pb ∧ ∀ j ∈ ms, NotSent m pb.pos j
  | .over o _ pb => PbS m o pb
  | .hit o pb j => PbS m o pb ∧ ∃ y, m.slot pb.pos j = some y ∧ m.tab.fns.eq o.key y.1 = true
  | .test o _ n => o.isInsert = true ∧ 1 ≤ n
  | .insLock o _ pb | .insFind o _ pb => PbI m o pb
  | .insNext o _ pb => PbI m o pb ∧ (m.grp pb.pos).ofw.testBit (m.hashOf o.key % 8) = true
  | .insInc o _ pb j => PbI m o pb ∧ Emptied m pb.pos j ∧ (m.grp pb.pos).md j = rhash (m.hashOf o.key)
  | .rollReset o pb j => o.isInsert = true ∧ Emptied m pb.pos j
  | .eraseReset g j d cont => Emptied m g j ∧ d ≤ 1 ∧ ContOk m g cont
  | .eraseSize g d cont => d ≤ 1 ∧ ContOk m g cont
  | .swLock _ _ g _ => m.tab.arr.hasElems = true ∧ g < 2 ^ m.tab.arr.k
  | .swAt _ _ g js _ => m.tab.arr.hasElems = true ∧ g < 2 ^ m.tab.arr.k ∧ LiveAt m g js
  | _ => True

/-- The group a thread holds exclusively. -/
def Pc.xgrp (p : Pc K V) : Option Nat :=
  match p.locks with
  | some (g, .excl) => some g
  | _ => none

theorem xgrp_eq {p : Pc K V} {g : Nat} (h : p.locks = some (g, .excl)) : p.xgrp = some g := by simp [Pc.xgrp, h]
theorem xgrp_iff {p : Pc K V} {g : Nat} : p.xgrp = some g ↔ p.locks = some (g, .excl) := by
  constructor
  · intro h
    simp only [Pc.xgrp] at h
    split at h
    · rename_i g' hg'; cases h; exact hg'
    · cases h
  · exact xgrp_eq

/-- A change of memory by a thread holding group `gx` exclusively (or none). -/
structure Frame (gx : Option Nat) (m m' : Mem K V) : Prop where
  k : m'.tab.arr.k = m.tab.arr.k
  hasElems : m'.tab.arr.hasElems = m.tab.arr.hasElems
  fns : m'.tab.fns = m.tab.fns
  al : m'.tab.al = m.tab.al
  aal : m'.tab.arr.al = m.tab.arr.al
  md : ∀ g, gx ≠ some g → ∀ j, (m'.grp g).md j = (m.grp g).md j
  slot : ∀ g, gx ≠ some g → ∀ j, m'.slot g j = m.slot g j
  ofw : ∀ g b, (m.grp g).ofw.testBit b = true → (m'.grp g).ofw.testBit b = true
  ne1 : ∀ g j, (m.grp g).md j ≠ 1 → (m'.grp g).md j ≠ 1
  cnt : ∀ g, m.cnt g ≤ m'.cnt g

theorem Frame.refl (gx : Option Nat) (m : Mem K V) : Frame gx m m :=
  ⟨rfl, rfl, rfl, rfl, rfl, fun _ _ _ => rfl, fun _ _ _ => rfl, fun _ _ h => h, fun _ _ h => h, fun _ => le_rfl⟩

theorem Frame.pos0 {gx : Option Nat} {m m' : Mem K V} (h : Frame gx m m') (x : K) : m'.pos0 x = m.pos0 x := by
  simp only [Mem.pos0, Mem.hashOf, Arrays.posFor, h.k, h.fns]

theorem Frame.hashOf {gx : Option Nat} {m m' : Mem K V} (h : Frame gx m m') (x : K) : m'.hashOf x = m.hashOf x := by
  simp only [Mem.hashOf, h.fns]

theorem PbS.frame {gx : Option Nat} {m m' : Mem K V} (hf : Frame gx m m') {o : KOp K V} {pb : Prober} (h : PbS m o pb) :
    PbS m' o pb := by
  simp only [PbS, hf.pos0, hf.k]; exact h

theorem PbI.frame {gx : Option Nat} {m m' : Mem K V} (hf : Frame gx m m') {o : KOp K V} {pb : Prober} (h : PbI m o pb) :
    PbI m' o pb := by
  refine ⟨h.1, hf.hasElems.trans h.2.1, ?_, fun i hi => ?_⟩
  · rw [hf.pos0, hf.k]; exact h.2.2.1
  · rw [hf.pos0, hf.k, hf.hashOf]; exact hf.ofw _ _ (h.2.2.2 i hi)

theorem NotSent.frame {gx : Option Nat} {m m' : Mem K V} (hf : Frame gx m m') {g j : Nat} (h : NotSent m g j) :
    NotSent m' g j := ⟨h.1, hf.ne1 _ _ h.2⟩

theorem LiveAt.frame {gx : Option Nat} {m m' : Mem K V} (hf : Frame gx m m') {g : Nat} {js : List Nat} (h : LiveAt m g js)
    (hg : gx ≠ some g) : LiveAt m' g js := ⟨h.1, fun j hj => by rw [hf.slot g hg]; exact h.2 j hj⟩

theorem ContOk.frame {gx : Option Nat} {m m' : Mem K V} (hf : Frame gx m m') {g : Nat} {c : Cont K V} (h : ContOk m g c)
    (hg : gx ≠ some g) : ContOk m' g c := by
  cases c with
  | none => trivial
  | some q => exact ⟨hf.hasElems.trans h.1, by rw [hf.k]; exact h.2.1, h.2.2.frame hf hg⟩

theorem Emptied.frame {gx : Option Nat} {m m' : Mem K V} (hf : Frame gx m m') {g j : Nat} (h : Emptied m g j)
    (hg : gx ≠ some g) : Emptied m' g j :=
  ⟨hf.hasElems.trans h.1, by rw [hf.k]; exact h.2.1, by rw [hf.slot g hg]; exact h.2.2.1,
   by rw [hf.md g hg]; exact h.2.2.2⟩

/-- Other threads do not disturb what a thread knows. -/
theorem PcOk.frame {gx : Option Nat} {m m' : Mem K V} (hf : Frame gx m m') {p : Pc K V}
    (hl : ∀ g md, p.locks = some (g, md) → gx ≠ some g) (h : PcOk m p) : PcOk m' p := by
  cases p with
  | scan o c pb todo acc => exact ⟨h.1.frame hf, h.2.1, fun j hj => (h.2.2 j hj).frame hf⟩
  | lock o c pb ms => exact ⟨h.1.frame hf, fun j hj => (h.2 j hj).frame hf⟩
  | check o c pb ms => exact ⟨h.1.frame hf, fun j hj => (h.2 j hj).frame hf⟩
  | over o c pb => exact PbS.frame hf h
  | hit o pb j =>
    obtain ⟨h1, y, h2, h3⟩ := h
    exact ⟨h1.frame hf, y, by rw [hf.slot _ (hl _ _ rfl)]; exact h2, by rw [hf.fns]; exact h3⟩
  | insLock o c pb => exact PbI.frame hf h
  | insFind o c pb => exact PbI.frame hf h
  | insNext o c pb => exact ⟨h.1.frame hf, by rw [hf.hashOf]; exact hf.ofw _ _ h.2⟩
  | insInc o c pb j =>
    exact ⟨h.1.frame hf, h.2.1.frame hf (hl _ _ rfl), by rw [hf.hashOf, hf.md _ (hl _ _ rfl)]; exact h.2.2⟩
  | rollReset o pb j => exact ⟨h.1, h.2.frame hf (hl _ _ rfl)⟩
  | eraseReset g j d cont => exact ⟨h.1.frame hf (hl _ _ rfl), h.2.1, h.2.2.frame hf (hl _ _ rfl)⟩
  | eraseSize g d cont => exact ⟨h.1, h.2.frame hf (hl _ _ rfl)⟩
  | swLock md act g r => exact ⟨hf.hasElems.trans h.1, by rw [hf.k]; exact h.2⟩
  | swAt md act g js r => exact ⟨hf.hasElems.trans h.1, by rw [hf.k]; exact h.2.1, h.2.2.frame hf (hl _ _ rfl)⟩
  | _ => exact h

/-! ### memory after each kind of write -/

theorem frame_size (gx : Option Nat) (m : Mem K V) (n : Nat) : Frame gx m (m.setSize n) :=
  ⟨rfl, rfl, rfl, rfl, rfl, fun _ _ _ => rfl, fun _ _ _ => rfl, fun _ _ h => h, fun _ _ h => h, fun _ => le_rfl⟩

theorem Frame.then_ml {gx : Option Nat} {m m' : Mem K V} (h : Frame gx m m') (n : Nat) : Frame gx m (m'.setMl n) :=
  ⟨h.k, h.hasElems, h.fns, h.al, h.aal, h.md, h.slot, h.ofw, h.ne1, h.cnt⟩

theorem frame_setSlot (m : Mem K V) (g j : Nat) (v : Option (K × V)) : Frame (some g) m (m.setSlot g j v) := by
  refine ⟨rfl, rfl, rfl, rfl, rfl, fun _ _ _ => rfl, fun i hi l => ?_, fun _ _ h => h, fun _ _ h => h, fun _ => le_rfl⟩
  have : ¬ (i = g ∧ l = j) := fun hc => hi (by rw [hc.1])
  simp [Mem.slot, Mem.setSlot, Arrays.setSlot, this]

theorem frame_setGrp (m : Mem K V) (g : Nat) (G : Group)
    (ho : ∀ b, (m.grp g).ofw.testBit b = true → G.ofw.testBit b = true) (h1 : ∀ j, (m.grp g).md j ≠ 1 → G.md j ≠ 1) :
    Frame (some g) m (m.setGrp g G) := by
  refine ⟨rfl, rfl, rfl, rfl, rfl, fun i hi l => ?_, fun _ _ _ => rfl, fun i b hb => ?_, fun i l hn => ?_, fun _ => le_rfl⟩
  · have : ¬ i = g := fun hc => hi (by rw [hc])
    simp [Mem.grp, Mem.setGrp, Arrays.setGrp, this]
  · simp only [Mem.grp, Mem.setGrp, Arrays.setGrp]
    split
    · rename_i hi; subst hi; exact ho b hb
    · exact hb
  · simp only [Mem.grp, Mem.setGrp, Arrays.setGrp]
    split
    · rename_i hi; subst hi; exact h1 l hn
    · exact hn

theorem frame_reset (m : Mem K V) (g j : Nat) : Frame (some g) m (m.setGrp g ((m.grp g).reset j)) := by
  refine frame_setGrp m g _ (fun b hb => hb) fun l hl => ?_
  simp only [Group.reset]
  split
  · omega
  · exact hl

theorem frame_set (m : Mem K V) (g j h : Nat) : Frame (some g) m (m.setGrp g ((m.grp g).set j h)) := by
  refine frame_setGrp m g _ (fun b hb => hb) fun l hl => ?_
  simp only [Group.set]
  split
  · have := rhash_ge_two h; omega
  · exact hl

theorem frame_mark (m : Mem K V) (g h : Nat) : Frame (some g) m (m.setGrp g ((m.grp g).markOverflow h)) := by
  refine frame_setGrp m g _ (fun b hb => ?_) fun l hl => hl
  simp only [Group.markOverflow, testBit_mark, hb, Bool.true_or]

theorem frame_call (m : Mem K V) (md : Mode) (g j : Nat) (y : K × V) (v : V) (gx : Option Nat) (hg : md = .excl → gx = some g) :
    Frame gx m (m.call md g j y v) := by
  cases md with
  | shared => exact Frame.refl _ m
  | excl => rw [hg rfl]; exact frame_setSlot m g j _

theorem Frame.then_cnt {gx : Option Nat} {m m' : Mem K V} (h : Frame gx m m') (g : Nat) : Frame gx m (m'.incCnt g) := by
  refine ⟨h.k, h.hasElems, h.fns, h.al, h.aal, h.md, h.slot, h.ofw, h.ne1, fun i => ?_⟩
  have := h.cnt i
  simp only [Mem.incCnt]
  split
  · rename_i hi; subst hi; omega
  · exact this

/-- Every step that changes memory does so in a group its thread holds exclusively. -/
theorem Eff.frame {m m' : Mem K V} {p p' : Pc K V} (h : Eff m p m' p') : Frame p.xgrp m m' := by
  cases h with
  | visit md k f pb j y hy => exact frame_call m md _ _ _ _ _ (by rintro rfl; exact xgrp_eq rfl)
  | found md x f2 f1 pb j y hy => exact frame_call m md _ _ _ _ _ (by rintro rfl; exact xgrp_eq rfl)
  | eraseNot k p pb j y v hy hp => exact frame_call m .excl _ _ _ _ _ (fun _ => xgrp_eq rfl)
  | erase k p pb j y hy hp hd =>
    rw [show (Pc.hit (.erase k p) pb j).xgrp = some pb.pos from xgrp_eq rfl]
    exact (frame_setSlot m _ _ _).then_ml _
  | eraseReset g j d cont =>
    rw [show (Pc.eraseReset g j d cont).xgrp = some g from xgrp_eq rfl]
    exact frame_reset m g j
  | eraseSize g d _ => exact frame_size _ _ _
  | eraseSizeMore g d act js r _ => exact frame_size _ _ _
  | reserve o c => exact frame_size _ _ _
  | failSize o _ => exact frame_size _ _ _
  | insSet o c pb j js h1 h2 h3 =>
    rw [show (Pc.insFind o c pb).xgrp = some pb.pos from xgrp_eq rfl]
    exact frame_set m _ _ _
  | insFull o c pb h1 h2 =>
    rw [show (Pc.insFind o c pb).xgrp = some pb.pos from xgrp_eq rfl]
    exact frame_mark m _ _
  | insert md x f2 f1 c pb j h1 h2 =>
    rw [show (Pc.insInc (.insert md x f2 f1) c pb j).xgrp = some pb.pos from xgrp_eq rfl]
    exact (frame_setSlot m pb.pos j (some (x.1, f1 x))).then_cnt (m.pos0 x.1)
  | startOver o c pb j h1 => exact (Frame.refl _ m).then_cnt _
  | rollReset o pb j =>
    rw [show (Pc.rollReset o pb j).xgrp = some pb.pos from xgrp_eq rfl]
    exact frame_reset m _ j
  | rollSize o _ => exact frame_size _ _ _
  | swGo md act g j js r y v add hy _ => exact frame_call m md _ _ _ _ _ (by rintro rfl; exact xgrp_eq rfl)
  | swStop md act g j js r y v _ hy _ => exact frame_call m md _ _ _ _ _ (by rintro rfl; exact xgrp_eq rfl)
  | swErase act g j js r y hy _ _ =>
    rw [show (Pc.swAt .excl act g (j :: js) r).xgrp = some g from xgrp_eq rfl]
    exact (frame_setSlot m _ _ _).then_ml _
  | _ => exact Frame.refl _ _

/-! ### the shape after each step -/

theorem Shape.mono {m : Mem K V} {own own' : Nat → Nat → Prop} (h : Shape m own) (ho : ∀ g j, own g j → own' g j) :
    Shape m own' := h.imp (fun h => ⟨h.1, h.2.mono ho⟩) id

theorem Shape.live {m : Mem K V} {own : Nat → Nat → Prop} (h : Shape m own) {g j : Nat} {y : K × V}
    (hy : m.slot g j = some y) : m.tab.arr.hasElems = true ∧ CLive m.tab.fns m.tab.arr own := by
  rcases h with h | ⟨_, h⟩
  · exact h
  · rw [Mem.slot, h.slot] at hy; cases hy

theorem Shape.of_elems {m : Mem K V} {own : Nat → Nat → Prop} (h : Shape m own) (he : m.tab.arr.hasElems = true) :
    CLive m.tab.fns m.tab.arr own := by
  rcases h with h | ⟨h1, _⟩
  · exact h.2
  · rw [he] at h1; cases h1

theorem Shape.call {m : Mem K V} {own : Nat → Nat → Prop} (h : Shape m own) {g j : Nat} {y : K × V}
    (hy : m.slot g j = some y) (md : Mode) (v : V) : Shape (m.call md g j y v) own := by
  cases md with
  | shared => exact h
  | excl => exact .inl ⟨(h.live hy).1, (h.live hy).2.call hy v⟩

/-- No live element is equivalent to the key. -/
def NoKey (m : Mem K V) (x : K) : Prop := ∀ g j y, m.slot g j = some y → m.tab.fns.eq x y.1 = false

theorem Eff.shape {m m' : Mem K V} {p p' : Pc K V} (h : Eff m p m' p') {own own' : Nat → Nat → Prop} (hs : Shape m own)
    (hf : m.tab.fns.Lawful) (hp : PcOk m p) (ho : ∀ g j, own g j → p.owns = some (g, j) ∨ own' g j)
    (ho' : ∀ g j, p'.owns = some (g, j) → own' g j)
    (hno : ∀ md x f2 f1 c pb j, p = .insInc (.insert md x f2 f1) c pb j → m.cnt (m.pos0 x.1) % 2 ^ 32 = c % 2 ^ 32 →
      NoKey m x.1) : Shape m' own' := by
  have hmono : p.owns = none → ∀ g j, own g j → own' g j := fun hn g j hg =>
    (ho g j hg).resolve_left (by rw [hn]; exact fun h => by cases h)
  have hmono' : ∀ {a b}, p.owns = some (a, b) → ∀ g j, own g j → (g = a ∧ j = b) ∨ own' g j := fun hn g j hg =>
    (ho g j hg).imp (fun he => by rw [hn] at he; cases he; exact ⟨rfl, rfl⟩) id
  cases h with
  | visit md k f pb j y hy => exact (hs.call hy md _).mono (hmono rfl)
  | found md x f2 f1 pb j y hy => exact (hs.call hy md _).mono (hmono rfl)
  | eraseNot k p pb j y v hy hp => exact (hs.call hy .excl _).mono (hmono rfl)
  | erase k p pb j y hy _ hd =>
    exact .inl ⟨(hs.live hy).1, (hs.live hy).2.take hy (hmono rfl) (ho' _ _ rfl)⟩
  | eraseReset g j d cont =>
    obtain ⟨⟨h1, h2, h3, h4⟩, _, _⟩ := hp
    exact .inl ⟨h1, (hs.of_elems h1).regroup h2 _ (fun l hl => by simp [Group.reset, hl, Mem.grp]) rfl h3
      (.inl (by simp [Group.reset])) (hmono' rfl)⟩
  | insSet o c pb j js h1 h2 h3 =>
    have hj := mem_availSlots.1 (by rw [h2]; exact List.mem_cons_self : j ∈ (m.grp pb.pos).availSlots)
    have hv : Valid m.tab.arr.k pb.pos j := (hs.of_elems h1).valid_of (by rw [hp.2.2.1]; exact pat_lt _ _ _) hj.1
      (by have := hj.2; simp only [Mem.grp] at this; omega)
    exact .inl ⟨h1, (hs.of_elems h1).regroup hv _ (fun l hl => by simp [Group.set, hl, Mem.grp]) rfl h3
      (.inr ⟨by simp [Group.set, rhash_ge_two], ho' _ _ rfl⟩) (fun g j hg => .inr (hmono rfl g j hg))⟩
  | insFull o c pb h1 h2 => exact .inl ⟨h1, ((hs.of_elems h1).mark _ _).mono (hmono rfl)⟩
  | insert md x f2 f1 c pb j h1 h2 =>
    obtain ⟨⟨_, he, hpos, hbits⟩, ⟨_, hv, _, _⟩, hmd⟩ := hp
    have := hno md x f2 f1 c pb j rfl h1
    refine .inl ⟨he, (hs.of_elems he).put (x := (x.1, f1 x)) hf hv hmd hpos hbits this (hmono' rfl)⟩
  | rollReset o pb j =>
    obtain ⟨_, h1, h2, h3, h4⟩ := hp
    exact .inl ⟨h1, (hs.of_elems h1).regroup h2 _ (fun l hl => by simp [Group.reset, hl, Mem.grp]) rfl h3
      (.inl (by simp [Group.reset])) (hmono' rfl)⟩
  | startOver o c pb j h1 =>
    refine Shape.mono (m := m) (own := own) hs fun g j hg => ?_
    rcases ho g j hg with h | h
    · exact ho' g j h
    · exact h
  | swGo md act g j js r y v add hy _ => exact (hs.call hy md _).mono (hmono rfl)
  | swStop md act g j js r y v _ hy _ => exact (hs.call hy md _).mono (hmono rfl)
  | swErase act g j js r y hy _ _ =>
    exact .inl ⟨(hs.live hy).1, (hs.live hy).2.take hy (hmono rfl) (ho' _ _ rfl)⟩
  | insertBad o c pb j h1 h2 => exact absurd hp.2.1.2.2.1 h2
  | eraseSize g d _ => exact Shape.mono (m := m) hs (hmono rfl)
  | eraseSizeMore g d act js r _ => exact Shape.mono (m := m) hs (hmono rfl)
  | reserve o c => exact Shape.mono (m := m) hs (hmono rfl)
  | failSize o _ => exact Shape.mono (m := m) hs (hmono rfl)
  | rollSize o _ => exact Shape.mono (m := m) hs (hmono rfl)
  | eraseWrap k p pb j y _ _ _ => exact hs.mono (hmono rfl)
  | eraseSizeWrap g d cont _ => exact hs.mono (hmono rfl)
  | failSizeWrap o _ => exact hs.mono (hmono rfl)
  | rollSizeWrap o _ => exact hs.mono (hmono rfl)
  | swEraseWrap act g j js r y _ _ _ => exact hs.mono (hmono rfl)

end Conc.Tab

/-
Ownership of the blocks of `Verif/Foa/Storage.lean`. Lemmas only.
-/
import Verif.Foa.Storage
import Mathlib.Data.List.Perm.Basic
import Mathlib.Data.List.Nodup

namespace Storage

/-- The blocks of a setVar of arrays. -/
def cells (conc : Bool) (al : Nat) (a : Arr) : List Block :=
  if a.elems then (a.id, .elements, al, a.k) :: (if conc then [(a.acc, .accesses, al, a.k)] else []) else []

/-- The blocks of a container. -/
def Box.cells (t : Box) : List Block := Storage.cells t.conc t.al t.arr

/-- The blocks of a variable. -/
def ocells : Option Box → List Block
  | none => []
  | some t => t.cells

/-- Heap sanity: addresses of live blocks are distinct, nonzero and already given out. -/
structure Heap.Ok (h : Heap) : Prop where
  nodup : (h.blocks.map Prod.fst).Nodup
  lt : ∀ b ∈ h.blocks, b.1 < h.next
  pos : ∀ b ∈ h.blocks, 0 < b.1
  next : 0 < h.next

/-- The live blocks are exactly `l`. -/
structure Own (h : Heap) (l : List Block) : Prop where
  ok : h.Ok
  perm : h.blocks.Perm l

/-- Arrays without a block are the static ones. -/
def Good (cfg : Cfg) (a : Arr) : Prop := a.elems = false → a.k = cfg.groups 0 ∧ cfg.fancy = false

theorem Own.congr {h : Heap} {l l' : List Block} (ho : Own h l) (hp : l.Perm l') : Own h l' := ⟨ho.ok, ho.perm.trans hp⟩

theorem Own.ticked {h : Heap} {l : List Block} (ho : Own h l) : Own h.ticked l :=
  ⟨⟨ho.ok.nodup, ho.ok.lt, ho.ok.pos, ho.ok.next⟩, ho.perm⟩

theorem Own.alloc {h : Heap} {l : List Block} (ho : Own h l) (p : Part) (al k : Nat) :
    Own (h.alloc p al k) ((h.next, p, al, k) :: l) := by
  refine ⟨⟨?_, ?_, ?_, Nat.succ_pos _⟩, ho.perm.cons _⟩
  · unfold Heap.alloc
    simp only [List.map_cons, List.nodup_cons]
    refine ⟨fun hm => ?_, ho.ok.nodup⟩
    obtain ⟨b, hb, e⟩ := List.mem_map.1 hm
    have := ho.ok.lt b hb
    omega
  · intro b hb
    unfold Heap.alloc at hb ⊢
    rcases List.mem_cons.1 hb with rfl | hb
    · exact Nat.lt_succ_self _
    · exact Nat.lt_succ_of_lt (ho.ok.lt b hb)
  · intro b hb
    unfold Heap.alloc at hb
    rcases List.mem_cons.1 hb with rfl | hb
    · exact ho.ok.next
    · exact ho.ok.pos b hb

theorem Own.free {h : Heap} {b : Block} {l : List Block} (ho : Own h (b :: l)) : ∃ h', h.free b = some h' ∧ Own h' l := by
  have hm : b ∈ h.blocks := ho.perm.symm.subset (by simp)
  refine ⟨{ h with blocks := h.blocks.erase b }, by unfold Heap.free; rw [if_pos hm], ⟨⟨?_, ?_, ?_, ho.ok.next⟩, ?_⟩⟩
  · exact ((List.erase_sublist).map Prod.fst).nodup ho.ok.nodup
  · exact fun c hc => ho.ok.lt c (List.mem_of_mem_erase hc)
  · exact fun c hc => ho.ok.pos c (List.mem_of_mem_erase hc)
  · have := ho.perm.erase b
    rwa [List.erase_cons_head] at this

theorem rot {α : Type} (a b c : List α) : (a ++ (b ++ c)).Perm (b ++ (a ++ c)) := by
  rw [← List.append_assoc, ← List.append_assoc]
  exact List.perm_append_comm.append_right c

/-! ### Calls -/

/-- Both ways of leaving a call. -/
def Out.Sat {α : Type} (o : Out α) (P Q : α → Heap → Prop) : Prop :=
  match o with
  | .bad => False
  | .ok a h => P a h
  | .exc a h => Q a h

theorem Out.Sat.map {α β : Type} {o : Out α} {f : α → β} {P Q : β → Heap → Prop}
    (h : o.Sat (fun a => P (f a)) (fun a => Q (f a))) : (o.map f).Sat P Q := by
  cases o <;> exact h

variable {cfg : Cfg} {may : Nat → Bool} {l : List Block} {h : Heap}

theorem newElems_sat {al n : Nat} (ho : Own h l) :
    (newElems cfg may al n h).Sat (fun a h' => ∃ b, a = some b ∧ Good cfg b ∧ Own h' (cells false al b ++ l))
      (fun _ h' => Own h' l) := by
  unfold newElems
  split
  · rename_i hc
    exact ⟨_, rfl, fun _ => ⟨rfl, hc.1⟩, ho⟩
  · split
    · exact ho.ticked
    · exact ⟨_, rfl, fun h => by simp at h, ho.alloc _ _ _⟩

theorem deleteElems_own {al : Nat} {a : Arr} (ho : Own h (cells false al a ++ l)) :
    ∃ h', deleteElems al a h = some h' ∧ Own h' l := by
  unfold deleteElems
  unfold cells at ho
  cases he : a.elems <;> rw [he] at ho
  · exact ⟨h, rfl, ho⟩
  · exact ho.free

theorem newAccess_sat {al : Nat} {a : Arr} (hg : Good cfg a) (ho : Own h (cells false al a ++ l)) :
    (newAccess cfg may al a h).Sat
      (fun b h' => ∃ b', b = some b' ∧ Good cfg b' ∧ b'.k = a.k ∧ b'.elems = a.elems ∧ b'.id = a.id ∧
        Own h' (cells true al b' ++ l))
      (fun _ h' => Own h' (cells false al a ++ l)) := by
  unfold newAccess
  split
  · rename_i hc
    refine ⟨_, rfl, hg, rfl, rfl, rfl, ?_⟩
    unfold cells at ho ⊢
    simpa [hc.2] using ho
  · rename_i hc
    have he : a.elems = true := by
      cases he : a.elems
      · exact absurd ⟨(hg he).2, he⟩ hc
      · rfl
    split
    · exact ho.ticked
    · refine ⟨_, rfl, hg, rfl, rfl, rfl, ?_⟩
      have := ho.alloc .accesses al a.k
      refine this.congr ?_
      unfold cells
      simp only [he, if_true]
      exact List.Perm.swap _ _ _

theorem deleteAccess_own {al : Nat} {a : Arr} (ho : Own h (cells true al a ++ l)) :
    ∃ h', deleteAccess al a h = some h' ∧ Own h' (cells false al a ++ l) := by
  unfold deleteAccess
  unfold cells at ho ⊢
  cases he : a.elems <;> rw [he] at ho
  · exact ⟨h, rfl, ho⟩
  · refine Own.free (ho.congr ?_)
    simp only [if_true]
    exact List.Perm.swap _ _ _

theorem newArrays_sat (conc : Bool) {al n : Nat} (ho : Own h l) :
    (newArrays cfg may conc al n h).Sat (fun a h' => ∃ b, a = some b ∧ Good cfg b ∧ Own h' (cells conc al b ++ l))
      (fun _ h' => Own h' l) := by
  unfold newArrays
  have h1 := newElems_sat (cfg := cfg) (may := may) (al := al) (n := n) ho
  generalize newElems cfg may al n h = o at h1
  match o, h1 with
  | .exc _ h', h1 => exact h1
  | .ok a h', h1 =>
    obtain ⟨b, rfl, hg, ho'⟩ := h1
    simp only
    cases conc
    · exact ⟨b, rfl, hg, ho'⟩
    · rw [if_neg (by simp)]
      have h2 := newAccess_sat (cfg := cfg) (may := may) hg ho'
      generalize newAccess cfg may al b h' = o2 at h2
      match o2, h2 with
      | .exc _ h2', h2 =>
        obtain ⟨h3, e3, ho3⟩ := deleteElems_own h2
        simp only [e3]
        exact ho3
      | .ok _ h2', h2 =>
        obtain ⟨b', rfl, g, _, _, _, ho2⟩ := h2
        exact ⟨b', rfl, g, ho2⟩

theorem deleteArrays_own {conc : Bool} {al : Nat} {a : Arr} (ho : Own h (cells conc al a ++ l)) :
    ∃ h', deleteArrays conc al a h = some h' ∧ Own h' l := by
  unfold deleteArrays
  cases conc
  · exact deleteElems_own ho
  · obtain ⟨h1, e1, ho1⟩ := deleteAccess_own ho
    rw [if_pos rfl, e1]
    exact deleteElems_own ho1

theorem failWith_sat {α : Type} {a : α} {o : Option Heap} {P Q : α → Heap → Prop} (ho : ∃ h', o = some h' ∧ Own h' l)
    (hq : ∀ h', Own h' l → Q a h') : (failWith a o).Sat P Q := by
  obtain ⟨h', rfl, ho⟩ := ho
  exact hq h' ho

theorem okWith_sat {α : Type} {a : α} {o : Option Heap} {P Q : α → Heap → Prop} (ho : ∃ h', o = some h' ∧ Own h' l)
    (hp : ∀ h', Own h' l → P a h') : (okWith a o).Sat P Q := by
  obtain ⟨h', rfl, ho⟩ := ho
  exact hp h' ho

theorem create_sat {conc : Bool} {al n : Nat} (ho : Own h l) :
    (create cfg may conc al n h).Sat
      (fun a h' => ∃ t, a = some t ∧ t.conc = conc ∧ t.al = al ∧ Good cfg t.arr ∧ Own h' (t.cells ++ l))
      (fun a h' => a = none ∧ Own h' l) := by
  unfold create
  have h1 := newArrays_sat (cfg := cfg) (may := may) conc (al := al) (n := n) ho
  generalize newArrays cfg may conc al n h = o at h1
  match o, h1 with
  | .exc _ _, h1 => exact ⟨rfl, h1⟩
  | .ok _ _, h1 =>
    obtain ⟨b, rfl, hg, ho'⟩ := h1
    exact ⟨_, rfl, rfl, rfl, hg, ho'⟩

theorem rehashInto_sat {t : Box} {a : Arr} (hg : Good cfg t.arr) (hga : Good cfg a)
    (ho : Own h (cells t.conc t.al a ++ (t.cells ++ l))) :
    (t.rehashInto may a h).Sat (fun t' h' => t'.conc = t.conc ∧ t'.al = t.al ∧ Good cfg t'.arr ∧ Own h' (t'.cells ++ l))
      (fun t' h' => t' = t ∧ Good cfg t'.arr ∧ Own h' (t'.cells ++ l)) := by
  unfold Box.rehashInto
  split
  · exact failWith_sat (deleteArrays_own ho.ticked) (fun h' ho' => ⟨rfl, hg, ho'⟩)
  · exact okWith_sat (deleteArrays_own (ho.ticked.congr (rot _ _ _))) (fun h' ho' => ⟨rfl, rfl, hga, ho'⟩)

theorem rehash_sat {t : Box} {n : Nat} (hg : Good cfg t.arr) (ho : Own h (t.cells ++ l)) :
    (t.rehash cfg may n h).Sat (fun t' h' => t'.conc = t.conc ∧ t'.al = t.al ∧ Good cfg t'.arr ∧ Own h' (t'.cells ++ l))
      (fun t' h' => t' = t ∧ Good cfg t'.arr ∧ Own h' (t'.cells ++ l)) := by
  unfold Box.rehash
  have h1 := newArrays_sat (cfg := cfg) (may := may) t.conc (al := t.al) (n := n) ho
  generalize newArrays cfg may t.conc t.al n h = o at h1
  match o, h1 with
  | .exc _ _, h1 => exact ⟨rfl, hg, h1⟩
  | .ok _ _, h1 =>
    obtain ⟨b, rfl, hgb, ho'⟩ := h1
    exact rehashInto_sat hg hgb ho'

theorem emplaceGrow_sat {t : Box} {n : Nat} (hg : Good cfg t.arr) (ho : Own h (t.cells ++ l)) :
    (t.emplaceGrow cfg may n h).Sat (fun t' h' => t'.conc = t.conc ∧ t'.al = t.al ∧ Good cfg t'.arr ∧ Own h' (t'.cells ++ l))
      (fun t' h' => t' = t ∧ Good cfg t'.arr ∧ Own h' (t'.cells ++ l)) := by
  unfold Box.emplaceGrow
  have h1 := newArrays_sat (cfg := cfg) (may := may) t.conc (al := t.al) (n := n) ho
  generalize newArrays cfg may t.conc t.al n h = o at h1
  match o, h1 with
  | .exc _ _, h1 => exact ⟨rfl, hg, h1⟩
  | .ok _ _, h1 =>
    obtain ⟨b, rfl, hgb, ho'⟩ := h1
    simp only
    split
    · exact failWith_sat (deleteArrays_own ho'.ticked) (fun h' ho' => ⟨rfl, hg, ho'⟩)
    · exact rehashInto_sat hg hgb ho'.ticked

theorem noshrinkReserve_sat {t : Box} {n : Option Nat} (hg : Good cfg t.arr) (ho : Own h (t.cells ++ l)) :
    (t.noshrinkReserve cfg may n h).Sat
      (fun t' h' => t'.conc = t.conc ∧ t'.al = t.al ∧ Good cfg t'.arr ∧ Own h' (t'.cells ++ l))
      (fun t' h' => t' = t ∧ Good cfg t'.arr ∧ Own h' (t'.cells ++ l)) := by
  unfold Box.noshrinkReserve
  match n with
  | none => exact ⟨rfl, rfl, hg, ho⟩
  | some n =>
    have h1 := newArrays_sat (cfg := cfg) (may := may) t.conc (al := t.al) (n := n) ho
    simp only
    generalize newArrays cfg may t.conc t.al n h = o at h1
    match o, h1 with
    | .exc _ _, h1 => exact ⟨rfl, hg, h1⟩
    | .ok _ _, h1 =>
      obtain ⟨b, rfl, hgb, ho'⟩ := h1
      exact okWith_sat (deleteArrays_own (ho'.congr (rot _ _ _))) (fun h' ho' => ⟨rfl, rfl, hgb, ho'⟩)

theorem copy_sat {x : Box} {al n : Nat} (ho : Own h l) :
    (x.copy cfg may al n h).Sat
      (fun a h' => ∃ t, a = some t ∧ t.conc = x.conc ∧ t.al = al ∧ Good cfg t.arr ∧ Own h' (t.cells ++ l))
      (fun a h' => a = none ∧ Own h' l) := by
  unfold Box.copy
  have h1 := create_sat (cfg := cfg) (may := may) (conc := x.conc) (al := al) (n := n) ho
  generalize create cfg may x.conc al n h = o at h1
  match o, h1 with
  | .exc _ _, h1 => exact ⟨rfl, h1.2⟩
  | .ok _ _, h1 =>
    obtain ⟨t, rfl, hc, ha, hg, ho'⟩ := h1
    simp only
    split
    · exact failWith_sat (deleteArrays_own ho'.ticked) (fun h' ho' => ⟨rfl, ho'⟩)
    · exact ⟨t, rfl, hc, ha, hg, ho'.ticked⟩

theorem move_sat {x : Box} (ho : Own h (x.cells ++ l)) :
    (x.move cfg may h).Sat
      (fun a h' => a.1 = some x ∧ a.2.conc = x.conc ∧ a.2.al = x.al ∧ Good cfg a.2.arr ∧
        Own h' (x.cells ++ (a.2.cells ++ l)))
      (fun a h' => a = (none, x) ∧ Own h' (x.cells ++ l)) := by
  unfold Box.move
  have h1 := newArrays_sat (cfg := cfg) (may := may) x.conc (al := x.al) (n := 0) ho
  generalize newArrays cfg may x.conc x.al 0 h = o at h1
  match o, h1 with
  | .exc _ _, h1 => exact ⟨rfl, h1⟩
  | .ok _ _, h1 =>
    obtain ⟨b, rfl, hgb, ho'⟩ := h1
    simp only
    split
    · exact failWith_sat (deleteArrays_own ho'.ticked) (fun h' ho' => ⟨rfl, ho'⟩)
    · exact ⟨rfl, rfl, rfl, hgb, ho'.ticked.congr (rot _ _ _)⟩

theorem moveAl_sat {x : Box} {al : Nat} {n : Option Nat} (hg : Good cfg x.arr) (ho : Own h (x.cells ++ l)) :
    (x.moveAl cfg may al n h).Sat
      (fun a h' => ∃ t, a.1 = some t ∧ t.conc = x.conc ∧ t.al = al ∧ Good cfg t.arr ∧ a.2.conc = x.conc ∧ a.2.al = x.al ∧
        Good cfg a.2.arr ∧ Own h' (t.cells ++ (a.2.cells ++ l)))
      (fun a h' => a = (none, x) ∧ Own h' (x.cells ++ l)) := by
  unfold Box.moveAl
  have h1 := create_sat (cfg := cfg) (may := may) (conc := x.conc) (al := al) (n := 0) ho
  generalize create cfg may x.conc al 0 h = o at h1
  match o, h1 with
  | .exc _ _, h1 => exact ⟨rfl, h1.2⟩
  | .ok _ h', h1 =>
    obtain ⟨t, rfl, hc, ha, hgt, ho'⟩ := h1
    simp only
    split
    · rename_i he
      refine ⟨_, rfl, hc, ha, hg, rfl, rfl, hgt, ?_⟩
      have e1 : t.cells = Box.cells { x with arr := t.arr } := by unfold Box.cells; rw [hc, ha, he]
      have e2 : x.cells = Box.cells { t with arr := x.arr } := by unfold Box.cells; rw [← hc, ← he, ← ha]
      rw [← e1, ← e2]
      exact ho'.congr (rot _ _ _)
    · have h2 : (t.reserve cfg may n h').Sat
          (fun t' h' => t'.conc = t.conc ∧ t'.al = t.al ∧ Good cfg t'.arr ∧ Own h' (t'.cells ++ (x.cells ++ l)))
          (fun t' h' => t' = t ∧ Good cfg t'.arr ∧ Own h' (t'.cells ++ (x.cells ++ l))) := by
        unfold Box.reserve
        cases n
        · exact ⟨rfl, rfl, hgt, ho'⟩
        · exact rehash_sat hgt ho'
      generalize t.reserve cfg may n h' = o2 at h2
      match o2, h2 with
      | .exc _ _, h2 =>
        obtain ⟨rfl, _, ho2⟩ := h2
        exact failWith_sat (deleteArrays_own ho2) (fun h' ho' => ⟨rfl, ho'⟩)
      | .ok t2 _, h2 =>
        obtain ⟨e1, e2, hg2, ho2⟩ := h2
        simp only
        split
        · exact failWith_sat (deleteArrays_own ho2.ticked) (fun h' ho' => ⟨rfl, ho'⟩)
        · exact ⟨t2, rfl, e1.trans hc, e2.trans ha, hg2, rfl, rfl, hg, ho2.ticked⟩

theorem copyAssign_sat {t x : Box} {n : Nat} {m : Option Nat} (hc : t.conc = x.conc)
    (hg : Good cfg t.arr) (ho : Own h (t.cells ++ l)) :
    (t.copyAssign cfg may x n m h).Sat
      (fun t' h' => t'.conc = t.conc ∧ t'.al = (if cfg.pocca then x.al else t.al) ∧ Good cfg t'.arr ∧ Own h' (t'.cells ++ l))
      (fun t' h' => t'.conc = t.conc ∧ Good cfg t'.arr ∧ Own h' (t'.cells ++ l)) := by
  unfold Box.copyAssign
  split
  · exact ⟨rfl, hg, ho.ticked⟩
  · have h1 : (if cfg.pocca = true ∧ t.al ≠ x.al then
        match newArrays cfg may x.conc x.al n h.ticked with
        | .bad => Out.bad
        | .exc _ h => .exc t h
        | .ok none _ => .bad
        | .ok (some a) h => okWith { t with arr := a, al := x.al } (deleteArrays t.conc t.al t.arr h)
      else .ok (if cfg.pocca then { t with al := x.al } else t) h.ticked).Sat
        (fun t' h' => t'.conc = t.conc ∧ t'.al = (if cfg.pocca then x.al else t.al) ∧ Good cfg t'.arr ∧ Own h' (t'.cells ++ l))
        (fun t' h' => t'.conc = t.conc ∧ Good cfg t'.arr ∧ Own h' (t'.cells ++ l)) := by
      split
      · rename_i hcond
        have h1 := newArrays_sat (cfg := cfg) (may := may) x.conc (al := x.al) (n := n) ho.ticked
        generalize newArrays cfg may x.conc x.al n h.ticked = o at h1
        match o, h1 with
        | .exc _ _, h1 => exact ⟨rfl, hg, h1⟩
        | .ok _ _, h1 =>
          obtain ⟨b, rfl, hgb, ho'⟩ := h1
          refine okWith_sat (deleteArrays_own (ho'.congr (rot _ _ _))) (fun h' ho' => ⟨rfl, ?_, hgb, ?_⟩)
          · rw [if_pos hcond.1]
          · unfold Box.cells; simp only; rw [hc]; exact ho'
      · rename_i hcond
        cases hpo : cfg.pocca
        · exact ⟨rfl, rfl, hg, ho.ticked⟩
        · have he : t.al = x.al := by
            by_contra hne
            exact hcond ⟨hpo, hne⟩
          refine ⟨rfl, rfl, hg, ?_⟩
          have : t.cells = Box.cells { t with al := x.al } := by unfold Box.cells; rw [he]
          simp only [if_true]
          rw [← this]
          exact ho.ticked
    revert h1
    generalize (if cfg.pocca = true ∧ t.al ≠ x.al then
        match newArrays cfg may x.conc x.al n h.ticked with
        | .bad => Out.bad
        | .exc _ h => .exc t h
        | .ok none _ => .bad
        | .ok (some a) h => okWith { t with arr := a, al := x.al } (deleteArrays t.conc t.al t.arr h)
      else .ok (if cfg.pocca then { t with al := x.al } else t) h.ticked) = o
    intro h1
    match o, h1 with
    | .exc _ _, h1 => exact h1
    | .ok t1 h1', h1 =>
      obtain ⟨c1, a1, g1, ho1⟩ := h1
      simp only
      have h2 := noshrinkReserve_sat (cfg := cfg) (may := may) (n := m) g1 ho1
      generalize t1.noshrinkReserve cfg may m h1' = o2 at h2
      match o2, h2 with
      | .exc _ _, h2 => obtain ⟨rfl, g2, ho2⟩ := h2; exact ⟨c1, g2, ho2⟩
      | .ok t2 _, h2 =>
        obtain ⟨c2, a2, g2, ho2⟩ := h2
        simp only
        split
        · exact ⟨c2.trans c1, g2, ho2.ticked⟩
        · exact ⟨c2.trans c1, a2.trans a1, g2, ho2.ticked⟩

theorem moveAssign_sat {t x : Box} {m : Option Nat} (hc : t.conc = x.conc) (hg : Good cfg t.arr) (hgx : Good cfg x.arr)
    (ho : Own h (t.cells ++ (x.cells ++ l))) :
    (t.moveAssign cfg may x m h).Sat
      (fun a h' => a.1.conc = t.conc ∧ a.2.conc = t.conc ∧ Good cfg a.1.arr ∧ Good cfg a.2.arr ∧
        Own h' (a.1.cells ++ (a.2.cells ++ l)))
      (fun a h' => a = (t, x) ∧ Own h' (t.cells ++ (x.cells ++ l)) ∨
        a.2 = x ∧ a.1.conc = t.conc ∧ Good cfg a.1.arr ∧ Own h' (a.1.cells ++ (x.cells ++ l))) := by
  unfold Box.moveAssign
  split
  · rename_i hcond
    have h1 := newArrays_sat (cfg := cfg) (may := may) x.conc (al := x.al) (n := 0) ho
    generalize newArrays cfg may x.conc x.al 0 h = o at h1
    match o, h1 with
    | .exc _ _, h1 => exact Or.inl ⟨rfl, h1⟩
    | .ok _ _, h1 =>
      obtain ⟨b, rfl, hgb, ho'⟩ := h1
      refine okWith_sat (deleteArrays_own (ho'.congr (rot _ _ _))) (fun h' ho' => ⟨rfl, hc.symm, hgx, hgb, ?_⟩)
      have e1 : x.cells = Box.cells { t with al := (if cfg.pocma then x.al else t.al), arr := x.arr } := by
        unfold Box.cells
        rcases hcond with hp | he
        · simp only [hp, if_true]; rw [hc]
        · split <;> simp only [hc, he]
      simp only
      rw [← e1]
      exact ho'.congr (rot _ _ _)
  · have h2 := noshrinkReserve_sat (cfg := cfg) (may := may) (n := m) hg ho
    generalize t.noshrinkReserve cfg may m h = o2 at h2
    match o2, h2 with
    | .exc _ _, h2 => obtain ⟨rfl, g2, ho2⟩ := h2; exact Or.inl ⟨rfl, ho2⟩
    | .ok t2 _, h2 =>
      obtain ⟨c2, a2, g2, ho2⟩ := h2
      simp only
      split
      · exact Or.inr ⟨rfl, c2, g2, ho2.ticked⟩
      · exact ⟨c2, hc.symm, g2, hgx, ho2.ticked⟩

theorem swap_own {t x : Box} (hc : t.conc = x.conc) (ha : cfg.pocs = true ∨ t.al = x.al) (hg : Good cfg t.arr)
    (hgx : Good cfg x.arr) (ho : Own h (t.cells ++ (x.cells ++ l))) :
    (t.swap cfg x).1.conc = t.conc ∧ (t.swap cfg x).2.conc = t.conc ∧ Good cfg (t.swap cfg x).1.arr ∧
      Good cfg (t.swap cfg x).2.arr ∧ Own h ((t.swap cfg x).1.cells ++ ((t.swap cfg x).2.cells ++ l)) := by
  unfold Box.swap
  split
  · exact ⟨hc.symm, rfl, hgx, hg, ho.congr (rot _ _ _)⟩
  · rename_i hp
    have he : t.al = x.al := ha.resolve_left hp
    refine ⟨rfl, hc.symm, hgx, hg, ?_⟩
    have e1 : t.cells = Box.cells { x with arr := t.arr } := by unfold Box.cells; rw [hc, he]
    have e2 : x.cells = Box.cells { t with arr := x.arr } := by unfold Box.cells; rw [hc, he]
    rw [← e1, ← e2]
    exact ho.congr (rot _ _ _)

theorem toConcurrent_sat {x : Box} (hc : x.conc = false) (hg : Good cfg x.arr) (ho : Own h (x.cells ++ l)) :
    (x.toConcurrent cfg may h).Sat
      (fun a h' => ∃ t, a.1 = some t ∧ t.conc = true ∧ t.al = x.al ∧ t.arr.k = x.arr.k ∧ t.arr.elems = x.arr.elems ∧
        t.arr.id = x.arr.id ∧ Good cfg t.arr ∧ a.2.conc = false ∧ a.2.al = x.al ∧ Good cfg a.2.arr ∧
        Own h' (t.cells ++ (a.2.cells ++ l)))
      (fun a h' => a = (none, x) ∧ Own h' (x.cells ++ l)) := by
  unfold Box.toConcurrent
  have h1 := newArrays_sat (cfg := cfg) (may := may) false (al := x.al) (n := 0) ho
  generalize newArrays cfg may false x.al 0 h = o at h1
  match o, h1 with
  | .exc _ _, h1 => exact ⟨rfl, h1⟩
  | .ok _ h', h1 =>
    obtain ⟨b, rfl, hgb, ho'⟩ := h1
    simp only
    split
    · exact failWith_sat (deleteArrays_own ho'.ticked) (fun h' ho' => ⟨rfl, ho'⟩)
    · have ho'' : Own h'.ticked (cells false x.al x.arr ++ (cells false x.al b ++ l)) := by
        have := ho'.ticked.congr (rot _ _ _)
        unfold Box.cells at this
        rwa [hc] at this
      have h2 := newAccess_sat (cfg := cfg) (may := may) hg ho''
      generalize newAccess cfg may x.al x.arr h'.ticked = o2 at h2
      match o2, h2 with
      | .exc _ _, h2 =>
        have h2 := h2.congr (rot _ _ _)
        refine failWith_sat (deleteArrays_own (conc := false) h2) (fun h' ho' => ⟨rfl, ?_⟩)
        unfold Box.cells
        rwa [hc]
      | .ok _ _, h2 =>
        obtain ⟨b', rfl, g, e1, e2, e3, ho2⟩ := h2
        refine ⟨_, rfl, rfl, rfl, e1, e2, e3, g, hc, rfl, hgb, ?_⟩
        unfold Box.cells
        simp only
        rwa [hc]

theorem toPlain_sat {x : Box} (hc : x.conc = true) (hg : Good cfg x.arr) (ho : Own h (x.cells ++ l)) :
    (x.toPlain cfg may h).Sat
      (fun a h' => ∃ t, a.1 = some t ∧ t.conc = false ∧ t.al = x.al ∧ t.arr.k = x.arr.k ∧ t.arr.elems = x.arr.elems ∧
        t.arr.id = x.arr.id ∧ Good cfg t.arr ∧ a.2.conc = true ∧ a.2.al = x.al ∧ Good cfg a.2.arr ∧
        Own h' (t.cells ++ (a.2.cells ++ l)))
      (fun a h' => a = (none, x) ∧ Own h' (x.cells ++ l)) := by
  unfold Box.toPlain
  have h1 := newArrays_sat (cfg := cfg) (may := may) true (al := x.al) (n := 0) ho
  generalize newArrays cfg may true x.al 0 h = o at h1
  match o, h1 with
  | .exc _ _, h1 => exact ⟨rfl, h1⟩
  | .ok _ h', h1 =>
    obtain ⟨b, rfl, hgb, ho'⟩ := h1
    simp only
    split
    · exact failWith_sat (deleteArrays_own ho'.ticked) (fun h' ho' => ⟨rfl, ho'⟩)
    · have ho'' : Own h'.ticked (cells true x.al x.arr ++ (cells true x.al b ++ l)) := by
        have := ho'.ticked.congr (rot _ _ _)
        unfold Box.cells at this
        rwa [hc] at this
      refine okWith_sat (deleteAccess_own ho'') (fun h' ho' => ⟨_, rfl, rfl, rfl, rfl, rfl, rfl, hg, hc, rfl, hgb, ?_⟩)
      unfold Box.cells
      simp only
      rw [hc]
      exact ho'

/-! ### Variables -/

/-- The blocks of the variables below `R`. -/
def all (R : Nat) (f : Nat → Option Box) : List Block := (List.range R).flatMap (fun r => ocells (f r))

theorem all_congr {R : Nat} {f g : Nat → Option Box} (h : ∀ r < R, f r = g r) : all R f = all R g := by
  unfold all
  rw [List.flatMap_congr]
  intro r hr
  rw [h r (List.mem_range.1 hr)]

theorem all_succ (R : Nat) (f : Nat → Option Box) : all (R + 1) f = all R f ++ ocells (f R) := by
  unfold all
  rw [List.range_succ, List.flatMap_append]
  simp

theorem all_split {R r : Nat} (hr : r < R) (f : Nat → Option Box) : (all R f).Perm (ocells (f r) ++ all R (setVar f r none)) := by
  induction R with
  | zero => omega
  | succ R ih =>
    rw [all_succ, all_succ]
    by_cases e : r = R
    · subst e
      have h1 : all r (setVar f r none) = all r f := all_congr (fun q hq => by unfold setVar; rw [if_neg (by omega)])
      rw [h1]
      unfold setVar
      simp only [if_true, ocells, List.append_nil]
      exact List.perm_append_comm
    · have h1 : setVar f r none R = f R := by unfold setVar; rw [if_neg (by omega)]
      rw [h1, ← List.append_assoc]
      exact (ih (by omega)).append_right _

theorem all_set {R r : Nat} (hr : r < R) (f : Nat → Option Box) (x : Option Box) :
    (all R (setVar f r x)).Perm (ocells x ++ all R (setVar f r none)) := by
  have h := all_split hr (setVar f r x)
  have e1 : setVar f r x r = x := by unfold setVar; rw [if_pos rfl]
  have e2 : setVar (setVar f r x) r none = setVar f r none := by
    funext q; unfold setVar; split <;> simp_all
  rwa [e1, e2] at h

theorem all_split2 {R r q : Nat} (hr : r < R) (hq : q < R) (hne : r ≠ q) (f : Nat → Option Box) :
    (all R f).Perm (ocells (f r) ++ (ocells (f q) ++ all R (setVar (setVar f r none) q none))) := by
  refine (all_split hr f).trans (List.Perm.append_left _ ?_)
  have h := all_split hq (setVar f r none)
  have e : setVar f r none q = f q := by unfold setVar; rw [if_neg (fun h => hne h.symm)]
  rwa [e] at h

theorem all_set2 {R r q : Nat} (hr : r < R) (hq : q < R) (hne : r ≠ q) (f : Nat → Option Box) (x y : Option Box) :
    (all R (setVar (setVar f r x) q y)).Perm (ocells x ++ (ocells y ++ all R (setVar (setVar f r none) q none))) := by
  have h := all_split2 hr hq hne (setVar (setVar f r x) q y)
  have e1 : setVar (setVar f r x) q y r = x := by unfold setVar; simp [hne]
  have e2 : setVar (setVar f r x) q y q = y := by unfold setVar; simp
  have e3 : setVar (setVar (setVar (setVar f r x) q y) r none) q none = setVar (setVar f r none) q none := by
    funext p; unfold setVar; split <;> simp_all
  rwa [e1, e2, e3] at h

/-- The invariant of a program. -/
structure Inv (cfg : Cfg) (R : Nat) (s : St) : Prop where
  own : Own s.heap (all R s.vars)
  good : ∀ r t, s.vars r = some t → Good cfg t.arr
  out : ∀ r, R ≤ r → s.vars r = none

theorem Inv.init (cfg : Cfg) (R : Nat) : Inv cfg R init := by
  refine ⟨⟨⟨by simp [Storage.init], by simp [Storage.init], by simp [Storage.init], by decide⟩, ?_⟩,
    fun r t h => by simp [Storage.init] at h, fun _ _ => rfl⟩
  have : all R Storage.init.vars = [] := by
    unfold all
    induction R with
    | zero => rfl
    | succ R ih => rw [List.range_succ, List.flatMap_append, ih]; rfl
  rw [this]
  exact List.Perm.refl _

/-- what a call does to one variable -/
theorem Inv.on1 {R : Nat} {s : St} (hi : Inv cfg R s) {r : Nat} (hr : r < R) {o : Out (Option Box)}
    (ho : o.Sat (fun x h' => (∀ t, x = some t → Good cfg t.arr) ∧ Own h' (ocells x ++ all R (setVar s.vars r none)))
      (fun x h' => (∀ t, x = some t → Good cfg t.arr) ∧ Own h' (ocells x ++ all R (setVar s.vars r none)))) :
    ∃ s' b, Storage.on1 s r o = some (s', b) ∧ Inv cfg R s' := by
  have key : ∀ x h', (∀ t, x = some t → Good cfg t.arr) ∧ Own h' (ocells x ++ all R (setVar s.vars r none)) →
      Inv cfg R ⟨setVar s.vars r x, h'⟩ := by
    intro x h' hx
    refine ⟨hx.2.congr (all_set hr _ _).symm, ?_, ?_⟩
    · intro q t e
      simp only [setVar] at e
      split at e
      · exact hx.1 t e
      · exact hi.good q t e
    · intro q hq
      simp only [setVar]
      rw [if_neg (by omega)]
      exact hi.out q hq
  match o, ho with
  | .ok x h', ho => exact ⟨_, _, rfl, key x h' ho⟩
  | .exc x h', ho => exact ⟨_, _, rfl, key x h' ho⟩

/-- what a call does to two variables -/
theorem Inv.on2 {R : Nat} {s : St} (hi : Inv cfg R s) {r q : Nat} (hr : r < R) (hq : q < R) (hne : r ≠ q)
    {o : Out (Option Box × Option Box)}
    (ho : o.Sat (fun x h' => (∀ t, x.1 = some t → Good cfg t.arr) ∧ (∀ t, x.2 = some t → Good cfg t.arr) ∧
        Own h' (ocells x.1 ++ (ocells x.2 ++ all R (setVar (setVar s.vars r none) q none))))
      (fun x h' => (∀ t, x.1 = some t → Good cfg t.arr) ∧ (∀ t, x.2 = some t → Good cfg t.arr) ∧
        Own h' (ocells x.1 ++ (ocells x.2 ++ all R (setVar (setVar s.vars r none) q none))))) :
    ∃ s' b, Storage.on2 s r q o = some (s', b) ∧ Inv cfg R s' := by
  have key : ∀ (x : Option Box × Option Box) h', ((∀ t, x.1 = some t → Good cfg t.arr) ∧ (∀ t, x.2 = some t → Good cfg t.arr) ∧
        Own h' (ocells x.1 ++ (ocells x.2 ++ all R (setVar (setVar s.vars r none) q none)))) →
      Inv cfg R ⟨setVar (setVar s.vars r x.1) q x.2, h'⟩ := by
    intro x h' hx
    refine ⟨hx.2.2.congr (all_set2 hr hq hne _ _ _).symm, ?_, ?_⟩
    · intro p t e
      simp only [setVar] at e
      split at e
      · exact hx.2.1 t e
      · split at e
        · exact hx.1 t e
        · exact hi.good p t e
    · intro p hp
      simp only [setVar]
      rw [if_neg (by omega), if_neg (by omega)]
      exact hi.out p hp
  match o, ho with
  | .ok x h', ho => exact ⟨_, _, rfl, key x h' ho⟩
  | .exc x h', ho => exact ⟨_, _, rfl, key x h' ho⟩

theorem Out.Sat.imp {α : Type} {o : Out α} {P Q P' Q' : α → Heap → Prop} (h : o.Sat P Q) (hp : ∀ a h, P a h → P' a h)
    (hq : ∀ a h, Q a h → Q' a h) : o.Sat P' Q' := by
  cases o
  · exact hp _ _ h
  · exact hq _ _ h
  · exact h

theorem some_good {t : Box} (h : Good cfg t.arr) : ∀ u, some t = some u → Good cfg u.arr := by
  intro u e; cases e; exact h

theorem none_good : ∀ u : Box, (none : Option Box) = some u → Good cfg u.arr := by intro u e; cases e

theorem Inv.own1 {R : Nat} {s : St} (hi : Inv cfg R s) {r : Nat} (hr : r < R) {t : Box} (e : s.vars r = some t) :
    Own s.heap (t.cells ++ all R (setVar s.vars r none)) := by
  have := hi.own.congr (all_split hr s.vars)
  rwa [e] at this

theorem Inv.own0 {R : Nat} {s : St} (hi : Inv cfg R s) {r : Nat} (hr : r < R) (e : s.vars r = none) :
    Own s.heap (all R (setVar s.vars r none)) := by
  have := hi.own.congr (all_split hr s.vars)
  rwa [e] at this

theorem Inv.own2 {R : Nat} {s : St} (hi : Inv cfg R s) {r q : Nat} (hr : r < R) (hq : q < R) (hne : r ≠ q) {t x : Box}
    (e : s.vars r = some t) (e' : s.vars q = some x) :
    Own s.heap (t.cells ++ (x.cells ++ all R (setVar (setVar s.vars r none) q none))) := by
  have := hi.own.congr (all_split2 hr hq hne s.vars)
  rwa [e, e'] at this

theorem Inv.own02 {R : Nat} {s : St} (hi : Inv cfg R s) {r q : Nat} (hr : r < R) (hq : q < R) (hne : r ≠ q) {x : Box}
    (e : s.vars r = none) (e' : s.vars q = some x) :
    Own s.heap (x.cells ++ all R (setVar (setVar s.vars r none) q none)) := by
  have := hi.own.congr (all_split2 hr hq hne s.vars)
  rwa [e, e'] at this

theorem step_inv {R : Nat} {s : St} (hi : Inv cfg R s) (c : Call) : ∃ s' b, step cfg may R s c = some (s', b) ∧ Inv cfg R s' := by
  have skip : ∃ s' b, (some (s, false) : Option (St × Bool)) = some (s', b) ∧ Inv cfg R s' := ⟨s, false, rfl, hi⟩
  cases c with
  | create r conc al n =>
    simp only [step]
    split
    · rename_i hc
      refine hi.on1 hc.1 ((create_sat (hi.own0 hc.1 hc.2)).imp ?_ ?_)
      · rintro _ h' ⟨t, rfl, _, _, hg, ho⟩; exact ⟨some_good hg, ho⟩
      · rintro _ h' ⟨rfl, ho⟩; exact ⟨none_good, ho⟩
    · exact skip
  | destroy r =>
    simp only [step]
    split
    · exact skip
    · rename_i t e
      split at e
      · rename_i hr
        obtain ⟨h', e1, ho⟩ := deleteArrays_own (hi.own1 hr e)
        refine ⟨⟨setVar s.vars r none, h'⟩, false, by unfold Box.destroy; rw [e1]; rfl, ho, ?_, ?_⟩
        · intro q u eq
          simp only [setVar] at eq
          split at eq
          · cases eq
          · exact hi.good q u eq
        · intro q hq
          simp only [setVar]
          split
          · rfl
          · exact hi.out q hq
      · cases e
  | copy r q al n =>
    simp only [step]
    split
    · exact skip
    · rename_i x e
      split at e
      · rename_i hc
        refine hi.on1 hc.1 ((copy_sat (hi.own0 hc.1 hc.2.2.2)).imp ?_ ?_)
        · rintro _ h' ⟨t, rfl, _, _, hg, ho⟩; exact ⟨some_good hg, ho⟩
        · rintro _ h' ⟨rfl, ho⟩; exact ⟨none_good, ho⟩
      · cases e
  | move r q =>
    simp only [step]
    split
    · exact skip
    · rename_i x e
      split at e
      · rename_i hc
        obtain ⟨hr, hq, hne, en⟩ := hc
        have hg := hi.good q x e
        refine hi.on2 hr hq hne (((move_sat (hi.own02 hr hq hne en e)).imp ?_ ?_).map)
        · rintro ⟨a1, a2⟩ h' ⟨rfl, _, _, hg', ho⟩; exact ⟨some_good hg, some_good hg', ho⟩
        · rintro _ h' ⟨rfl, ho⟩; exact ⟨none_good, some_good hg, ho⟩
      · cases e
  | moveAl r q al n =>
    simp only [step]
    split
    · exact skip
    · rename_i x e
      split at e
      · rename_i hc
        obtain ⟨hr, hq, hne, en⟩ := hc
        have hg := hi.good q x e
        refine hi.on2 hr hq hne (((moveAl_sat hg (hi.own02 hr hq hne en e)).imp ?_ ?_).map)
        · rintro ⟨a1, a2⟩ h' ⟨t, rfl, _, _, hgt, _, _, hg', ho⟩; exact ⟨some_good hgt, some_good hg', ho⟩
        · rintro _ h' ⟨rfl, ho⟩; exact ⟨none_good, some_good hg, ho⟩
      · cases e
  | copyAssign r q n m =>
    simp only [step]
    split
    · rename_i t x e e'
      split at e
      · rename_i hc
        obtain ⟨hr, hq, hne⟩ := hc
        split
        · rename_i hcc
          refine hi.on1 hr (((copyAssign_sat hcc (hi.good r t e) (hi.own1 hr e)).imp ?_ ?_).map)
          · rintro a h' ⟨_, _, hg, ho⟩; exact ⟨some_good hg, ho⟩
          · rintro a h' ⟨_, hg, ho⟩; exact ⟨some_good hg, ho⟩
        · exact skip
      · cases e
    · exact skip
  | moveAssign r q m =>
    simp only [step]
    split
    · rename_i t x e e'
      split at e
      · rename_i hc
        obtain ⟨hr, hq, hne⟩ := hc
        have hg := hi.good r t e
        have hgx := hi.good q x e'
        split
        · rename_i hcc
          refine hi.on2 hr hq hne (((moveAssign_sat hcc hg hgx (hi.own2 hr hq hne e e')).imp ?_ ?_).map)
          · rintro a h' ⟨_, _, hg, hg', ho⟩; exact ⟨some_good hg, some_good hg', ho⟩
          · rintro ⟨a1, a2⟩ h' hh
            rcases hh with ⟨e1, ho⟩ | ⟨rfl, _, hg', ho⟩
            · cases e1; exact ⟨some_good hg, some_good hgx, ho⟩
            · exact ⟨some_good hg', some_good hgx, ho⟩
        · exact skip
      · cases e
    · exact skip
  | swap r q =>
    simp only [step]
    split
    · rename_i t x e e'
      split at e
      · rename_i hc
        obtain ⟨hr, hq, hne⟩ := hc
        split
        · rename_i hcc
          have := swap_own hcc.1 hcc.2 (hi.good r t e) (hi.good q x e') (hi.own2 hr hq hne e e')
          exact hi.on2 hr hq hne ⟨some_good this.2.2.1, some_good this.2.2.2.1, this.2.2.2.2⟩
        · exact skip
      · cases e
    · exact skip
  | rehash r n =>
    simp only [step]
    split
    · exact skip
    · rename_i t e
      split at e
      · rename_i hr
        refine hi.on1 hr (((rehash_sat (hi.good r t e) (hi.own1 hr e)).imp ?_ ?_).map)
        · rintro a h' ⟨_, _, hg, ho⟩; exact ⟨some_good hg, ho⟩
        · rintro a h' ⟨_, hg, ho⟩; exact ⟨some_good hg, ho⟩
      · cases e
  | emplaceGrow r n =>
    simp only [step]
    split
    · exact skip
    · rename_i t e
      split at e
      · rename_i hr
        refine hi.on1 hr (((emplaceGrow_sat (hi.good r t e) (hi.own1 hr e)).imp ?_ ?_).map)
        · rintro a h' ⟨_, _, hg, ho⟩; exact ⟨some_good hg, ho⟩
        · rintro a h' ⟨_, hg, ho⟩; exact ⟨some_good hg, ho⟩
      · cases e
  | toConcurrent r q =>
    simp only [step]
    split
    · exact skip
    · rename_i x e
      split at e
      · rename_i hc
        obtain ⟨hr, hq, hne, en⟩ := hc
        have hg := hi.good q x e
        split
        · rename_i hcc
          refine hi.on2 hr hq hne (((toConcurrent_sat hcc hg (hi.own02 hr hq hne en e)).imp ?_ ?_).map)
          · rintro ⟨a1, a2⟩ h' ⟨t, rfl, _, _, _, _, _, hgt, _, _, hg', ho⟩; exact ⟨some_good hgt, some_good hg', ho⟩
          · rintro _ h' ⟨rfl, ho⟩; exact ⟨none_good, some_good hg, ho⟩
        · exact skip
      · cases e
  | toPlain r q =>
    simp only [step]
    split
    · exact skip
    · rename_i x e
      split at e
      · rename_i hc
        obtain ⟨hr, hq, hne, en⟩ := hc
        have hg := hi.good q x e
        split
        · rename_i hcc
          refine hi.on2 hr hq hne (((toPlain_sat hcc hg (hi.own02 hr hq hne en e)).imp ?_ ?_).map)
          · rintro ⟨a1, a2⟩ h' ⟨t, rfl, _, _, _, _, _, hgt, _, _, hg', ho⟩; exact ⟨some_good hgt, some_good hg', ho⟩
          · rintro _ h' ⟨rfl, ho⟩; exact ⟨none_good, some_good hg, ho⟩
        · exact skip
      · cases e

theorem run_inv {R : Nat} : ∀ (cs : List Call) (s : St), Inv cfg R s →
    ∃ s' bs, run cfg may R cs s = some (s', bs) ∧ Inv cfg R s' := by
  intro cs
  induction cs with
  | nil => intro s hi; exact ⟨s, [], rfl, hi⟩
  | cons c cs ih =>
    intro s hi
    obtain ⟨s1, b, e1, hi1⟩ := step_inv (may := may) hi c
    obtain ⟨s2, bs, e2, hi2⟩ := ih s1 hi1
    refine ⟨s2, b :: bs, ?_, hi2⟩
    unfold run
    rw [e1]
    simp only [e2, Option.map_some]

theorem finish_own {f : Nat → Option Box} : ∀ (R : Nat) (h : Heap), Own h (all R f) →
    ∃ h', finish f R h = some h' ∧ h'.blocks = [] := by
  intro R
  induction R with
  | zero => intro h ho; exact ⟨h, rfl, ho.perm.eq_nil⟩
  | succ R ih =>
    intro h ho
    rw [all_succ] at ho
    simp only [finish]
    cases e : f R with
    | none =>
      rw [e] at ho
      exact ih h (by simpa [ocells] using ho)
    | some t =>
      rw [e] at ho
      obtain ⟨h', e1, ho'⟩ := deleteArrays_own (ho.congr List.perm_append_comm)
      simp only [Box.destroy]
      rw [e1]
      exact ih h' ho'

end Storage

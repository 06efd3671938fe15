/-
Ownership of the blocks of `Verif/Fca/Storage.lean`. Lemmas only.
-/
import Verif.Fca.Storage
import Mathlib.Data.List.Perm.Basic
import Mathlib.Data.List.Nodup

namespace FcaStorage

/-- The blocks of a bucket array. -/
def Arr.cells (N al : Nat) (a : Arr) : List Block :=
  (if a.bks = 0 then [] else [(a.bks, .buckets, al, a.size + 1)]) ++
    (if a.grs = 0 then [] else [(a.grs, .groups, al, a.size / N + 1)])

/-- The block of a node. -/
def nodeCell (al p : Nat) : Block := (p, .node, al, 1)

/-- The blocks of a container. -/
def Box.cells (N : Nat) (t : Box) : List Block := t.arr.cells N t.al ++ t.nodes.map (nodeCell t.al)

/-- The block of a handle. -/
def Hnd.cells (x : Hnd) : List Block :=
  match x.p with
  | none => []
  | some p => [nodeCell (x.a.getD 0) p]

/-- Heap sanity: addresses of live blocks are distinct, nonzero and already given out. -/
structure Heap.Ok (h : Heap) : Prop where
  nodup : (h.blocks.map Prod.fst).Nodup
  lt : ∀ b ∈ h.blocks, b.1 < h.next
  pos : ∀ b ∈ h.blocks, 0 < b.1
  next : 0 < h.next

/-- The live blocks are exactly `l`. -/
structure Own (h : Heap) (l : List Block) : Prop where
  ok : h.Ok
  perm : h.blocks.Perm l

/-- Without buckets there are no groups, and the bucket count is zero. -/
def Whole (a : Arr) : Prop := a.bks = 0 → a = .empty

theorem Whole.empty : Whole .empty := fun _ => rfl

/-- Two lists of blocks that are permutations of each other by counting. -/
macro "perm_count" : tactic => `(tactic| (
  rw [List.perm_iff_count]
  intro b
  simp only [Box.cells, Hnd.cells, List.map_append, List.map_cons, List.map_nil, List.count_append, List.count_cons, List.count_nil,
    List.append_assoc, List.append_nil, List.nil_append, nodeCell, Option.getD_some]
  try omega))

theorem Own.congr {h : Heap} {l l' : List Block} (ho : Own h l) (hp : l.Perm l') : Own h l' := ⟨ho.ok, ho.perm.trans hp⟩

theorem Own.ticked {h : Heap} {l : List Block} (ho : Own h l) : Own h.ticked l :=
  ⟨⟨ho.ok.nodup, ho.ok.lt, ho.ok.pos, ho.ok.next⟩, ho.perm⟩

theorem Own.free {h : Heap} {b : Block} {l : List Block} (ho : Own h (b :: l)) : ∃ h', h.free b = some h' ∧ Own h' l := by
  have hm : b ∈ h.blocks := ho.perm.symm.subset (by simp)
  refine ⟨{ h with blocks := h.blocks.erase b }, by unfold Heap.free; rw [if_pos hm], ⟨⟨?_, ?_, ?_, ho.ok.next⟩, ?_⟩⟩
  · exact ((List.erase_sublist).map Prod.fst).nodup ho.ok.nodup
  · exact fun c hc => ho.ok.lt c (List.mem_of_mem_erase hc)
  · exact fun c hc => ho.ok.pos c (List.mem_of_mem_erase hc)
  · have := ho.perm.erase b
    rwa [List.erase_cons_head] at this

theorem rot {α : Type} (a b c : List α) : (a ++ (b ++ c)).Perm (b ++ (a ++ c)) := by
  rw [← List.append_assoc, ← List.append_assoc]
  exact List.perm_append_comm.append_right c

/-- Both ways of leaving a call. -/
def Out.Sat {α : Type} (o : Out α) (P Q : α → Heap → Prop) : Prop :=
  match o with
  | .bad => False
  | .ok a h => P a h
  | .exc a h => Q a h

theorem Out.Sat.map {α β : Type} {o : Out α} {f : α → β} {P Q : β → Heap → Prop}
    (h : o.Sat (fun a => P (f a)) (fun a => Q (f a))) : (o.map f).Sat P Q := by
  cases o <;> exact h

theorem Out.Sat.imp {α : Type} {o : Out α} {P Q P' Q' : α → Heap → Prop} (h : o.Sat P Q) (hp : ∀ a h, P a h → P' a h)
    (hq : ∀ a h, Q a h → Q' a h) : o.Sat P' Q' := by
  cases o
  · exact hp _ _ h
  · exact hq _ _ h
  · exact h

theorem Out.Sat.bind {α β : Type} {o : Out α} {f g : α → Heap → Out β} {P Q : α → Heap → Prop} {P' Q' : β → Heap → Prop}
    (h : o.Sat P Q) (hp : ∀ a h, P a h → (f a h).Sat P' Q') (hq : ∀ a h, Q a h → (g a h).Sat P' Q') : (o.bind f g).Sat P' Q' := by
  cases o
  · exact hp _ _ h
  · exact hq _ _ h
  · exact h

variable {cfg : Cfg} {may : Kind → Nat → Bool} {l : List Block} {h : Heap}

theorem failWith_sat {α : Type} {a : α} {o : Option Heap} {P Q : α → Heap → Prop} (ho : ∃ h', o = some h' ∧ Own h' l)
    (hq : ∀ h', Own h' l → Q a h') : (failWith a o).Sat P Q := by
  obtain ⟨h', rfl, ho⟩ := ho
  exact hq h' ho

theorem okWith_sat {α : Type} {a : α} {o : Option Heap} {P Q : α → Heap → Prop} (ho : ∃ h', o = some h' ∧ Own h' l)
    (hp : ∀ h', Own h' l → P a h') : (okWith a o).Sat P Q := by
  obtain ⟨h', rfl, ho⟩ := ho
  exact hp h' ho

/-- After `user`: what holds if it throws. -/
theorem user_sat (ho : Own h l) : (user may h).Sat (fun _ h' => Own h' l) (fun _ h' => Own h' l ∧ ∃ n, may .user n = true) := by
  unfold user
  split
  · rename_i e; exact ⟨ho.ticked, _, e⟩
  · exact ho.ticked

theorem alloc_sat {p : Part} {al k : Nat} (ho : Own h l) :
    (alloc may p al k h).Sat (fun a h' => a ≠ 0 ∧ Own h' ((a, p, al, k) :: l)) (fun _ h' => Own h' l) := by
  unfold alloc
  split
  · exact ho.ticked
  · refine ⟨Nat.pos_iff_ne_zero.1 ho.ok.next, ⟨?_, ?_, ?_, Nat.succ_pos _⟩, ho.perm.cons _⟩
    · simp only [List.map_cons, List.nodup_cons]
      refine ⟨fun hm => ?_, ho.ok.nodup⟩
      obtain ⟨b, hb, e⟩ := List.mem_map.1 hm
      have := ho.ok.lt b hb
      omega
    · intro b hb
      rcases List.mem_cons.1 hb with rfl | hb
      · exact Nat.lt_succ_self _
      · exact Nat.lt_succ_of_lt (ho.ok.lt b hb)
    · intro b hb
      rcases List.mem_cons.1 hb with rfl | hb
      · exact ho.ok.next
      · exact ho.ok.pos b hb

theorem newArr_sat {al n : Nat} (ho : Own h l) :
    (newArr cfg may al n h).Sat (fun a h' => Whole a ∧ Own h' (a.cells cfg.N al ++ l)) (fun _ h' => Own h' l) := by
  unfold newArr
  split
  · exact ⟨Whole.empty, by simpa [Arr.cells, Arr.empty] using ho⟩
  · refine (alloc_sat ho).bind ?_ (fun _ _ h => h)
    rintro b h1 ⟨hb, ho1⟩
    refine (alloc_sat ho1).bind ?_ ?_
    · rintro g h2 ⟨hg, ho2⟩
      refine ⟨fun h => absurd h hb, ho2.congr ?_⟩
      unfold Arr.cells
      rw [if_neg hb, if_neg hg]
      perm_count
    · intro _ h2 ho2
      exact failWith_sat ho2.free (fun _ h => h)

theorem dealloc_own {a : Arr} {al : Nat} (ho : Own h (a.cells cfg.N al ++ l)) :
    ∃ h', a.dealloc cfg al h = some h' ∧ Own h' l := by
  unfold Arr.dealloc
  unfold Arr.cells at ho
  have h1 : ∃ h', (if a.bks = 0 then some h else h.free (a.bks, .buckets, al, a.size + 1)) = some h' ∧
      Own h' ((if a.grs = 0 then [] else [(a.grs, Part.groups, al, a.size / cfg.N + 1)]) ++ l) := by
    by_cases e : a.bks = 0
    · rw [if_pos e] at ho ⊢
      exact ⟨h, rfl, by simpa using ho⟩
    · rw [if_neg e] at ho ⊢
      exact Own.free (by simpa using ho)
  obtain ⟨h1, e1, ho1⟩ := h1
  rw [e1]
  simp only [Option.bind_some]
  by_cases e : a.grs = 0
  · rw [if_pos e] at ho1 ⊢
    exact ⟨h1, rfl, by simpa using ho1⟩
  · rw [if_neg e] at ho1 ⊢
    exact Own.free (by simpa using ho1)

theorem takeArr_sat {a a' : Arr} {al : Nat} {P Q : Arr → Heap → Prop} (ho : Own h (a.cells cfg.N al ++ l))
    (hp : ∀ h', Own h' l → P a' h') : (takeArr cfg al a al a' h).Sat P Q := by
  unfold takeArr
  rw [if_pos rfl]
  exact okWith_sat (dealloc_own ho) hp

theorem newNode_sat {al : Nat} (ho : Own h l) :
    (newNode may al h).Sat (fun p h' => Own h' (nodeCell al p :: l)) (fun _ h' => Own h' l) := by
  unfold newNode
  refine (alloc_sat ho).bind ?_ (fun _ _ h => h)
  rintro p h1 ⟨_, ho1⟩
  split
  · exact failWith_sat ho1.ticked.free (fun _ h => h)
  · exact ho1.ticked

theorem deleteNode_own {al p : Nat} (ho : Own h (nodeCell al p :: l)) : ∃ h', deleteNode al p h = some h' ∧ Own h' l := ho.free

theorem deleteNodes_own {al : Nat} : ∀ {ps : List Nat} {h : Heap}, Own h (ps.map (nodeCell al) ++ l) →
    ∃ h', deleteNodes al ps h = some h' ∧ Own h' l
  | [], h, ho => ⟨h, rfl, ho⟩
  | p :: ps, h, ho => by
    obtain ⟨h1, e1, ho1⟩ := deleteNode_own (l := ps.map (nodeCell al) ++ l) (by simpa using ho)
    simp only [deleteNodes, e1, Option.bind_some]
    exact deleteNodes_own ho1

theorem deleteBuckets_own {t : Box} (ho : Own h (t.cells cfg.N ++ l)) : ∃ h', t.deleteBuckets cfg h = some h' ∧ Own h' l := by
  unfold Box.deleteBuckets
  obtain ⟨h1, e1, ho1⟩ := deleteNodes_own (al := t.al) (ps := t.nodes) (l := t.arr.cells cfg.N t.al ++ l) (h := h)
    (ho.congr (by perm_count))
  rw [e1]
  exact dealloc_own ho1

/-- Container `t` is in order and owns its blocks, the rest of the live blocks being `l`. -/
def Has (cfg : Cfg) (h : Heap) (t : Box) (l : List Block) : Prop := Whole t.arr ∧ Own h (t.cells cfg.N ++ l)

theorem clear_sat {t : Box} (ho : Has cfg h t l) :
    (t.clear h).Sat (fun t' h' => t'.al = t.al ∧ t'.nodes = [] ∧ t'.arr = t.arr ∧ Has cfg h' t' l) (fun _ _ => False) := by
  unfold Box.clear
  refine okWith_sat (l := t.arr.cells cfg.N t.al ++ l) (deleteNodes_own (ho.2.congr (by perm_count))) ?_
  intro h' ho'
  exact ⟨rfl, rfl, rfl, ho.1, ho'.congr (by perm_count)⟩

theorem transfer_sat : ∀ (rest done : List Nat) {h : Heap}, Own h l →
    (transfer may rest done h).Sat (fun m h' => m = (done ++ rest, []) ∧ Own h' l)
      (fun m h' => m.1 ++ m.2 = done ++ rest ∧ Own h' l ∧ ∃ n, may .user n = true)
  | [], done, h, ho => by simp only [transfer]; exact ⟨by simp, ho⟩
  | p :: rest, done, h, ho => by
    simp only [transfer]
    split
    · rename_i e; exact ⟨rfl, ho.ticked, _, e⟩
    · have := transfer_sat rest (done ++ [p]) ho.ticked
      simpa using this

/-- What a growing step guarantees: the nodes stay; if it throws, nothing changes, unless user code threw, which may cost nodes. -/
theorem rehashImpl_sat {t : Box} {n : Nat} (ho : Has cfg h t l) :
    (t.rehashImpl cfg may n h).Sat (fun t' h' => t'.al = t.al ∧ t'.nodes = t.nodes ∧ Has cfg h' t' l)
      (fun t' h' => t'.al = t.al ∧ t'.arr = t.arr ∧ t'.nodes <:+ t.nodes ∧ ((∀ n, may .user n = false) → t' = t) ∧ Has cfg h' t' l) := by
  unfold Box.rehashImpl
  refine (newArr_sat ho.2).bind ?_ ?_
  · rintro a h1 ⟨hw, ho1⟩
    refine (transfer_sat t.nodes [] ho1).bind ?_ ?_
    · rintro _ h2 ⟨rfl, ho2⟩
      refine Out.Sat.map ?_
      refine takeArr_sat (l := a.cells cfg.N t.al ++ (t.nodes.map (nodeCell t.al) ++ l)) (ho2.congr (by perm_count)) ?_
      intro h3 ho3
      exact ⟨rfl, rfl, hw, ho3.congr (by perm_count)⟩
    · rintro ⟨m1, m2⟩ h2 ⟨e, ho2, hm⟩
      simp only [List.nil_append] at e
      obtain ⟨h3, e3, ho3⟩ := deleteNodes_own (al := t.al) (ps := m1)
        (l := a.cells cfg.N t.al ++ (t.arr.cells cfg.N t.al ++ (m2.map (nodeCell t.al) ++ l))) (h := h2) (ho2.congr (by
          simp only [Box.cells, ← e]
          perm_count))
      simp only
      rw [e3]
      refine failWith_sat (dealloc_own ho3) ?_
      intro h4 ho4
      refine ⟨rfl, rfl, ⟨m1, e⟩, ?_, ho.1, ho4.congr (by perm_count)⟩
      obtain ⟨n, hn⟩ := hm
      intro hf
      rw [hf n] at hn
      cases hn
  · intro _ h1 ho1
    exact ⟨rfl, rfl, List.suffix_refl _, fun _ => rfl, ho.1, ho1⟩

/-- Condition after an exception: like before if no user code throws. -/
def Kept (may : Kind → Nat → Bool) (t t' : Box) : Prop :=
  t'.al = t.al ∧ t'.arr = t.arr ∧ t'.nodes <:+ t.nodes ∧ ((∀ n, may .user n = false) → t' = t)

theorem Kept.refl (t : Box) : Kept may t t := ⟨rfl, rfl, List.suffix_refl _, fun _ => rfl⟩

theorem grow_sat {t : Box} {n : Option Nat} (ho : Has cfg h t l) :
    (t.grow cfg may n h).Sat (fun t' h' => t'.al = t.al ∧ t'.nodes = t.nodes ∧ Has cfg h' t' l)
      (fun t' h' => Kept may t t' ∧ Has cfg h' t' l) := by
  unfold Box.grow
  cases n with
  | none => exact ⟨rfl, rfl, ho⟩
  | some n =>
    exact (rehashImpl_sat ho).imp (fun _ _ h => h) (fun _ _ ⟨h1, h2, h3, h4, h5⟩ => ⟨⟨h1, h2, h3, h4⟩, h5⟩)

theorem link_sat {t : Box} {p : Nat} {g : Option Nat} (ho : Has cfg h t (nodeCell t.al p :: l)) :
    (t.link cfg may p g h).Sat (fun t' h' => t'.al = t.al ∧ t'.nodes = p :: t.nodes ∧ Has cfg h' t' l)
      (fun t' h' => Kept may t t' ∧ Has cfg h' t' l) := by
  unfold Box.link
  refine (grow_sat ho).bind ?_ ?_
  · rintro t1 h1 ⟨e1, e2, hw, ho1⟩
    refine ⟨e1, by simp only [e2], hw, ho1.congr ?_⟩
    simp only [Box.cells, e1]
    perm_count
  · rintro t1 h1 ⟨hk, hw, ho1⟩
    refine failWith_sat (l := t1.cells cfg.N ++ l) (deleteNode_own (ho1.congr ?_)) (fun h' ho' => ⟨hk, hw, ho'⟩)
    rw [hk.1]
    perm_count

theorem emplaceKey_sat {t : Box} {dup : Bool} {g : Option Nat} (ho : Has cfg h t l) :
    (t.emplaceKey cfg may dup g h).Sat
      (fun t' h' => t'.al = t.al ∧ (if dup then t' = t else ∃ p, t'.nodes = p :: t.nodes) ∧ Has cfg h' t' l)
      (fun t' h' => Kept may t t' ∧ Has cfg h' t' l) := by
  unfold Box.emplaceKey
  refine (user_sat ho.2).bind ?_ (fun _ _ h => ⟨Kept.refl _, ho.1, h.1⟩)
  intro _ h1 ho1
  cases dup
  · refine (newNode_sat ho1).bind ?_ (fun _ _ h => ⟨Kept.refl _, ho.1, h⟩)
    intro p h2 ho2
    refine (link_sat ⟨ho.1, ho2.congr (by perm_count)⟩).imp ?_ (fun _ _ h => h)
    rintro t' h' ⟨e1, e2, hh⟩
    exact ⟨e1, ⟨p, e2⟩, hh⟩
  · exact ⟨rfl, rfl, ho.1, ho1⟩

theorem emplaceNode_sat {t : Box} {dup : Bool} {g : Option Nat} (ho : Has cfg h t l) :
    (t.emplaceNode cfg may dup g h).Sat
      (fun t' h' => t'.al = t.al ∧ (if dup then t' = t else ∃ p, t'.nodes = p :: t.nodes) ∧ Has cfg h' t' l)
      (fun t' h' => Kept may t t' ∧ Has cfg h' t' l) := by
  unfold Box.emplaceNode
  refine (newNode_sat ho.2).bind ?_ (fun _ _ h => ⟨Kept.refl _, ho.1, h⟩)
  intro p h1 ho1
  refine (user_sat ho1).bind ?_ ?_
  · intro _ h2 ho2
    cases dup
    · refine (link_sat ⟨ho.1, ho2.congr (by perm_count)⟩).imp ?_ (fun _ _ h => h)
      rintro t' h' ⟨e1, e2, hh⟩
      exact ⟨e1, ⟨p, e2⟩, hh⟩
    · exact okWith_sat (deleteNode_own ho2) (fun h' ho' => ⟨rfl, rfl, ho.1, ho'⟩)
  · rintro _ h2 ⟨ho2, _⟩
    exact failWith_sat (deleteNode_own ho2) (fun h' ho' => ⟨Kept.refl _, ho.1, ho'⟩)

theorem insertLoop_sat : ∀ (xs : List (Bool × Option Nat)) {t : Box} {h : Heap}, Has cfg h t l →
    (t.insertLoop cfg may xs h).Sat (fun t' h' => t'.al = t.al ∧ Has cfg h' t' l) (fun t' h' => t'.al = t.al ∧ Has cfg h' t' l)
  | [], t, h, ho => ⟨rfl, ho⟩
  | x :: xs, t, h, ho => by
    simp only [Box.insertLoop]
    refine (emplaceNode_sat ho).bind ?_ (fun _ _ h => ⟨h.1.1, h.2⟩)
    rintro t1 h1 ⟨e1, _, ho1⟩
    exact (insertLoop_sat xs ho1).imp (fun _ _ h => ⟨h.1.trans e1, h.2⟩) (fun _ _ h => ⟨h.1.trans e1, h.2⟩)

theorem insertRange_sat {t : Box} {g : Option Nat} {xs : List (Bool × Option Nat)} (ho : Has cfg h t l) :
    (t.insertRange cfg may g xs h).Sat (fun t' h' => t'.al = t.al ∧ Has cfg h' t' l)
      (fun t' h' => t'.al = t.al ∧ Has cfg h' t' l) := by
  unfold Box.insertRange
  refine (grow_sat ho).bind ?_ (fun _ _ h => ⟨h.1.1, h.2⟩)
  rintro t1 h1 ⟨e1, _, ho1⟩
  exact (insertLoop_sat xs ho1).imp (fun _ _ h => ⟨h.1.trans e1, h.2⟩) (fun _ _ h => ⟨h.1.trans e1, h.2⟩)

theorem fill_sat : ∀ (n : Nat) {t : Box} {h : Heap}, Has cfg h t l →
    (t.fill may n h).Sat (fun t' h' => t'.al = t.al ∧ t'.nodes.length = t.nodes.length + n ∧ Has cfg h' t' l)
      (fun t' h' => t'.al = t.al ∧ Has cfg h' t' l)
  | 0, t, h, ho => ⟨rfl, rfl, ho⟩
  | n + 1, t, h, ho => by
    simp only [Box.fill]
    refine (user_sat ho.2).bind ?_ (fun _ _ h => ⟨rfl, ho.1, h.1⟩)
    intro _ h1 ho1
    refine (newNode_sat ho1).bind ?_ (fun _ _ h => ⟨rfl, ho.1, h⟩)
    intro p h2 ho2
    refine (user_sat ho2).bind ?_ ?_
    · intro _ h3 ho3
      have hh : Has cfg h3 { t with nodes := p :: t.nodes } l := ⟨ho.1, ho3.congr (by perm_count)⟩
      refine (fill_sat n hh).imp ?_ (fun _ _ h => ⟨h.1, h.2⟩)
      rintro t' h' ⟨e1, e2, ho'⟩
      exact ⟨e1, by rw [e2]; simp only [List.length_cons]; omega, ho'⟩
    · rintro _ h3 ⟨ho3, _⟩
      exact failWith_sat (deleteNode_own ho3) (fun h' ho' => ⟨rfl, ho.1, ho'⟩)

theorem copyBuckets_sat {t : Box} {n : Nat} {g : Option Nat} (ho : Has cfg h t l) :
    (t.copyBuckets cfg may n g h).Sat (fun t' h' => t'.al = t.al ∧ t'.nodes.length = t.nodes.length + n ∧ Has cfg h' t' l)
      (fun t' h' => t'.al = t.al ∧ Has cfg h' t' l) := by
  unfold Box.copyBuckets
  refine (grow_sat ho).bind ?_ (fun _ _ h => ⟨h.1.1, h.2⟩)
  rintro t1 h1 ⟨e1, e2, ho1⟩
  exact (fill_sat n ho1).imp (fun _ _ h => ⟨h.1.trans e1, by rw [h.2.1, e2], h.2.2⟩) (fun _ _ h => ⟨h.1.trans e1, h.2⟩)

theorem create_sat {al n : Nat} (ho : Own h l) :
    (create cfg may al n h).Sat (fun a h' => ∃ t, a = some t ∧ t.al = al ∧ t.nodes = [] ∧ Has cfg h' t l)
      (fun a h' => a = none ∧ Own h' l) := by
  unfold create
  refine (user_sat ho).bind ?_ (fun _ _ h => ⟨rfl, h.1⟩)
  intro _ h1 ho1
  refine (newArr_sat ho1).bind ?_ (fun _ _ h => ⟨rfl, h⟩)
  rintro a h2 ⟨hw, ho2⟩
  exact ⟨_, rfl, rfl, rfl, hw, ho2.congr (by perm_count)⟩

theorem orDestroy_sat {o : Out Box} {P : Box → Prop} (ho : o.Sat (fun t h' => P t ∧ Has cfg h' t l) (fun t h' => Has cfg h' t l)) :
    (Out.orDestroy cfg o).Sat (fun a h' => ∃ t, a = some t ∧ P t ∧ Has cfg h' t l) (fun a h' => a = none ∧ Own h' l) := by
  unfold Out.orDestroy
  refine Out.Sat.bind ho (fun t h' hh => ⟨t, rfl, hh⟩) ?_
  intro t h' hh
  exact failWith_sat (deleteBuckets_own hh.2) (fun _ h => ⟨rfl, h⟩)

theorem fromRange_sat {al n : Nat} {g : Option Nat} {xs : List (Bool × Option Nat)} (ho : Own h l) :
    (fromRange cfg may al n g xs h).Sat (fun a h' => ∃ t, a = some t ∧ t.al = al ∧ Has cfg h' t l)
      (fun a h' => a = none ∧ Own h' l) := by
  unfold fromRange
  refine (create_sat ho).bind ?_ (fun _ _ h => ⟨rfl, h.2⟩)
  rintro _ h1 ⟨t, rfl, e, _, ho1⟩
  refine (orDestroy_sat (P := fun t' => t'.al = al) ((insertRange_sat ho1).imp ?_ (fun _ _ h => h.2))).imp (fun _ _ h => h) (fun _ _ h => h)
  rintro t' h' ⟨e', hh⟩
  exact ⟨e'.trans e, hh⟩

theorem copy_sat {x : Box} {al : Nat} {g : Option Nat} (ho : Own h l) :
    (x.copy cfg may al g h).Sat (fun a h' => ∃ t, a = some t ∧ (t.al = al ∧ t.nodes.length = x.nodes.length) ∧ Has cfg h' t l)
      (fun a h' => a = none ∧ Own h' l) := by
  unfold Box.copy
  refine (create_sat ho).bind ?_ (fun _ _ h => ⟨rfl, h.2⟩)
  rintro _ h1 ⟨t, rfl, e, e', ho1⟩
  simp only
  split
  · rename_i ex
    exact ⟨t, rfl, ⟨e, by rw [e', ex]⟩, ho1⟩
  · refine orDestroy_sat (P := fun t => t.al = al ∧ t.nodes.length = x.nodes.length)
      ((copyBuckets_sat ho1).imp ?_ (fun _ _ h => h.2))
    rintro t' h' ⟨e1, e2, hh⟩
    exact ⟨⟨e1.trans e, by rw [e2, e']; simp⟩, hh⟩

/-- The empty container an emptied one becomes. -/
def Box.emptied (x : Box) : Box := { x with arr := .empty, nodes := [] }

theorem emptied_cells (x : Box) (N : Nat) : x.emptied.cells N = [] := rfl

theorem move_sat {x : Box} (ho : Own h (x.cells cfg.N ++ l)) :
    (x.move may h).Sat (fun a h' => a = (some x, x.emptied) ∧ Own h' (x.cells cfg.N ++ l))
      (fun a h' => a = (none, x) ∧ Own h' (x.cells cfg.N ++ l)) := by
  unfold Box.move
  exact (user_sat ho).bind (fun _ _ h => ⟨rfl, h⟩) (fun _ _ h => ⟨rfl, h.1⟩)

theorem moveBucketsFrom_sat {t x : Box} {Q : Box × Box → Heap → Prop} (e : t.al = x.al) (ht : t.nodes = [])
    (ho : Own h (t.cells cfg.N ++ (x.cells cfg.N ++ l))) :
    (t.moveBucketsFrom cfg x h).Sat
      (fun a h' => a = (⟨t.al, x.arr, x.nodes⟩, x.emptied) ∧ Own h' (a.1.cells cfg.N ++ l)) Q := by
  unfold Box.moveBucketsFrom
  refine Out.Sat.map ?_
  have hs : takeArr cfg t.al t.arr x.al x.arr h = takeArr cfg t.al t.arr t.al x.arr h := by rw [e]
  rw [hs]
  refine takeArr_sat (l := x.cells cfg.N ++ l) (ho.congr (by simp only [Box.cells, ht]; perm_count)) ?_
  intro h' ho'
  refine ⟨rfl, ho'.congr ?_⟩
  simp only [Box.cells, e]
  exact List.Perm.refl _

theorem moveAl_sat {x : Box} {al : Nat} {g : Option Nat} (hx : Has cfg h x l) :
    (x.moveAl cfg may al g h).Sat
      (fun a h' => ∃ t, a.1 = some t ∧ t.al = al ∧ (if al = x.al then t.arr = x.arr ∧ t.nodes = x.nodes ∧ a.2 = x.emptied
          else t.nodes.length = x.nodes.length ∧ a.2 = x) ∧
        Whole t.arr ∧ Own h' (t.cells cfg.N ++ (a.2.cells cfg.N ++ l)))
      (fun a h' => a = (none, x) ∧ Own h' (x.cells cfg.N ++ l)) := by
  unfold Box.moveAl
  refine (create_sat hx.2).bind ?_ (fun _ _ h => ⟨rfl, h.2⟩)
  rintro _ h1 ⟨t, rfl, e, e', hw, ho1⟩
  simp only
  by_cases ha : al = x.al
  · rw [if_pos ha]
    refine Out.Sat.map ((moveBucketsFrom_sat (e.trans ha) e' ho1).imp ?_ (fun _ _ h => h))
    rintro _ h' ⟨rfl, ho'⟩
    refine ⟨_, rfl, e, ?_, hx.1, ho'⟩
    rw [if_pos ha]
    exact ⟨rfl, rfl, rfl⟩
  · rw [if_neg ha]
    split
    · rename_i ex
      exact ⟨t, rfl, e, ⟨by rw [e', ex], rfl⟩, hw, ho1⟩
    · refine Out.Sat.map ((orDestroy_sat (P := fun t => t.al = al ∧ t.nodes.length = x.nodes.length)
        ((copyBuckets_sat (l := x.cells cfg.N ++ l) ⟨hw, ho1⟩).imp ?_ (fun _ _ h => h.2))).imp ?_ ?_)
      · rintro t' h' ⟨e1, e2, hh⟩
        exact ⟨⟨e1.trans e, by rw [e2, e']; simp⟩, hh⟩
      · rintro _ h' ⟨t', rfl, ⟨e1, e2⟩, hw', ho'⟩
        exact ⟨t', rfl, e1, ⟨e2, rfl⟩, hw', ho'⟩
      · rintro _ h' ⟨rfl, ho'⟩
        exact ⟨rfl, ho'⟩

theorem assignSame_sat {t x : Box} {g g' : Option Nat} (ho : Has cfg h t l) :
    (t.assignSame cfg may x g g' h).Sat (fun t' h' => t'.al = t.al ∧ t'.nodes.length = x.nodes.length ∧ Has cfg h' t' l)
      (fun t' h' => t'.al = t.al ∧ Has cfg h' t' l) := by
  unfold Box.assignSame
  refine (user_sat ho.2).bind ?_ (fun _ _ h => ⟨rfl, ho.1, h.1⟩)
  intro _ h1 ho1
  refine (grow_sat (t := t) ⟨ho.1, ho1⟩).bind ?_ (fun _ _ h => ⟨h.1.1, h.2⟩)
  rintro t1 h2 ⟨e1, _, ho2⟩
  refine (clear_sat ho2).bind ?_ (fun _ _ h => h.elim)
  rintro t2 h3 ⟨e2, e3, _, ho3⟩
  refine (copyBuckets_sat ho3).imp ?_ ?_
  · rintro t3 h4 ⟨e4, e5, hh⟩
    exact ⟨e4.trans (e2.trans e1), by rw [e5, e3]; simp, hh⟩
  · rintro t3 h4 ⟨e4, hh⟩
    exact ⟨e4.trans (e2.trans e1), hh⟩

theorem copyAssign_sat {t x : Box} {g g' : Option Nat} (ho : Has cfg h t l) :
    (t.copyAssign cfg may x g g' h).Sat
      (fun t' h' => t'.al = (if cfg.pocca then x.al else t.al) ∧ t'.nodes.length = x.nodes.length ∧ Has cfg h' t' l)
      (fun t' h' => Has cfg h' t' l) := by
  unfold Box.copyAssign
  by_cases hc : cfg.pocca = false
  · rw [if_pos hc]
    refine (assignSame_sat ho).imp ?_ (fun _ _ h => h.2)
    rintro t' h' ⟨e, hh⟩
    exact ⟨by rw [hc]; exact e, hh⟩
  rw [if_neg hc]
  have hc' : cfg.pocca = true := by simpa using hc
  by_cases ha : t.al = x.al
  · rw [if_pos ha]
    have ht : ({ t with al := x.al } : Box) = t := by rw [← ha]
    rw [ht]
    refine (assignSame_sat ho).imp ?_ (fun _ _ h => h.2)
    rintro t' h' ⟨e, hh⟩
    exact ⟨by rw [hc', if_pos rfl, ← ha]; exact e, hh⟩
  · rw [if_neg ha]
    refine (newArr_sat ho.2).bind ?_ (fun _ _ h => ⟨ho.1, h⟩)
    rintro a h1 ⟨hw, ho1⟩
    refine (user_sat ho1).bind ?_ (fun _ _ h => failWith_sat (dealloc_own h.1) (fun _ h => ⟨ho.1, h⟩))
    intro _ h2 ho2
    obtain ⟨h3, e3, ho3⟩ := deleteBuckets_own (cfg := cfg) (t := t) (l := a.cells cfg.N x.al ++ l) (ho2.congr (by perm_count))
    simp only [e3]
    refine (takeArr_sat (P := fun b h' => b = a ∧ Own h' (a.cells cfg.N x.al ++ l)) (Q := fun _ _ => False) (a := .empty)
      (l := a.cells cfg.N x.al ++ l) ho3 (fun _ h => ⟨rfl, h⟩)).bind ?_ (fun _ _ h => h.elim)
    rintro _ h4 ⟨rfl, ho4⟩
    refine (grow_sat (t := ⟨x.al, _, []⟩) ⟨hw, ho4.congr (by perm_count)⟩).bind ?_ (fun _ _ h => h.2)
    rintro t1 h5 ⟨e1, e2, ho5⟩
    simp only at e1 e2
    split
    · rename_i ex
      exact ⟨e1, by rw [e2, ex], ho5⟩
    · refine (copyBuckets_sat ho5).imp ?_ (fun _ _ h => h.2)
      rintro t2 h6 ⟨e4, e5, hh⟩
      exact ⟨e4.trans e1, by rw [e5, e2]; simp, hh⟩

theorem moveAssign_sat {t x : Box} {g : Option Nat} (ht : Whole t.arr) (hx : Whole x.arr)
    (ho : Own h (t.cells cfg.N ++ (x.cells cfg.N ++ l))) :
    (t.moveAssign cfg may x g h).Sat
      (fun a h' => a.1.al = (if cfg.pocma then x.al else t.al) ∧
        (if cfg.pocma = true ∨ t.al = x.al then a.1.arr = x.arr ∧ a.1.nodes = x.nodes ∧ a.2 = x.emptied
          else a.1.nodes.length = x.nodes.length ∧ a.2 = x) ∧
        Whole a.1.arr ∧ Own h' (a.1.cells cfg.N ++ (a.2.cells cfg.N ++ l)))
      (fun a h' => a.2 = x ∧ a.1.al = t.al ∧ Whole a.1.arr ∧ Own h' (a.1.cells cfg.N ++ (x.cells cfg.N ++ l))) := by
  unfold Box.moveAssign
  refine (user_sat ho).bind ?_ (fun _ _ h => ⟨rfl, rfl, ht, h.1⟩)
  intro _ h1 ho1
  by_cases hc : cfg.pocma = true ∨ t.al = x.al
  · simp only [if_pos hc]
    obtain ⟨h2, e2, ho2⟩ := deleteBuckets_own ho1
    simp only [e2]
    refine (moveBucketsFrom_sat (l := l) (t := ⟨if cfg.pocma then x.al else t.al, .empty, []⟩) ?_ rfl ho2).imp ?_
      (fun _ _ h => h)
    · simp only
      split
      · rfl
      · rename_i hp; exact hc.resolve_left hp
    · rintro _ h' ⟨rfl, ho'⟩
      exact ⟨rfl, ⟨rfl, rfl, rfl⟩, hx, ho'⟩
  · simp only [if_neg hc]
    refine (grow_sat (t := t) (l := x.cells cfg.N ++ l) ⟨ht, ho1⟩).bind ?_ (fun _ _ h => ⟨rfl, h.1.1, h.2⟩)
    rintro t1 h2 ⟨e1, _, ho2⟩
    refine Out.Sat.map ?_
    refine (clear_sat ho2).bind ?_ (fun _ _ h => h.elim)
    rintro t2 h3 ⟨e2, e3, _, ho3⟩
    refine (fill_sat x.nodes.length ho3).imp ?_ ?_
    · rintro t3 h4 ⟨e4, e5, hw, ho4⟩
      refine ⟨?_, ⟨by rw [e5, e3]; simp, rfl⟩, hw, ho4⟩
      rw [if_neg (fun h => hc (Or.inl h))]
      exact e4.trans (e2.trans e1)
    · rintro t3 h4 ⟨e4, hw, ho4⟩
      exact ⟨rfl, e4.trans (e2.trans e1), hw, ho4⟩

theorem swap_sat {t x : Box} (hc : cfg.pocs = true ∨ t.al = x.al) (ho : Own h (t.cells cfg.N ++ (x.cells cfg.N ++ l))) :
    (t.swap cfg may x h).Sat
      (fun a h' => a.1.arr = x.arr ∧ a.1.nodes = x.nodes ∧ a.2.arr = t.arr ∧ a.2.nodes = t.nodes ∧
        a.1.al = (if cfg.pocs then x.al else t.al) ∧ a.2.al = (if cfg.pocs then t.al else x.al) ∧
        Own h' (a.1.cells cfg.N ++ (a.2.cells cfg.N ++ l)))
      (fun a h' => a = (t, x) ∧ Own h' (t.cells cfg.N ++ (x.cells cfg.N ++ l))) := by
  unfold Box.swap
  rw [if_neg (by rintro ⟨h1, h2⟩; rcases hc with h | h; · rw [h] at h1; cases h1
                 · exact h2 h)]
  refine (user_sat ho).bind ?_ (fun _ _ h => ⟨rfl, h.1⟩)
  intro _ h1 ho1
  refine ⟨rfl, rfl, rfl, rfl, rfl, rfl, ?_⟩
  have e1 : (if cfg.pocs then x.al else t.al) = x.al := by
    split
    · rfl
    · rename_i hp; exact hc.resolve_left hp
  have e2 : (if cfg.pocs then t.al else x.al) = t.al := by
    split
    · rfl
    · rename_i hp; exact (hc.resolve_left hp).symm
  simp only [e1, e2]
  exact ho1.congr (by perm_count)

theorem perm_getElem {ps : List Nat} {i p : Nat} (e : ps[i]? = some p) : ps.Perm (p :: ps.eraseIdx i) := by
  obtain ⟨hi, rfl⟩ := List.getElem?_eq_some_iff.1 e
  exact (List.getElem_cons_eraseIdx_perm hi).symm

theorem erase_sat {t : Box} {i : Nat} (ho : Has cfg h t l) :
    (t.erase may i h).Sat (fun t' h' => t' = { t with nodes := t.nodes.eraseIdx i } ∧ Has cfg h' t' l)
      (fun t' h' => t' = t ∧ Has cfg h' t' l) := by
  unfold Box.erase
  refine (user_sat ho.2).bind ?_ (fun _ _ h => ⟨rfl, ho.1, h.1⟩)
  intro _ h1 ho1
  split
  · rename_i e
    have : t.nodes.eraseIdx i = t.nodes := List.eraseIdx_of_length_le (by simpa using e)
    exact ⟨by rw [this], ho.1, ho1⟩
  · rename_i p e
    refine okWith_sat (l := Box.cells cfg.N { t with nodes := t.nodes.eraseIdx i } ++ l) (deleteNode_own (ho1.congr ?_))
      (fun h' ho' => ⟨rfl, ho.1, ho'⟩)
    have := (perm_getElem e).map (nodeCell t.al)
    refine List.Perm.trans (((this.append_left _).append_right _)) ?_
    perm_count

theorem eraseLoop_sat {al : Nat} : ∀ (ps : List Nat) (mask : List Bool) {l : List Block} {h : Heap},
    Own h (ps.map (nodeCell al) ++ l) →
    (eraseLoop may al ps mask h).Sat (fun ps' h' => ps'.Sublist ps ∧ Own h' (ps'.map (nodeCell al) ++ l))
      (fun ps' h' => ps'.Sublist ps ∧ Own h' (ps'.map (nodeCell al) ++ l))
  | [], mask, l, h, ho => ⟨List.Sublist.refl _, ho⟩
  | p :: ps, mask, l, h, ho => by
    simp only [eraseLoop]
    split
    · exact ⟨List.Sublist.refl _, ho.ticked⟩
    · split
      · obtain ⟨h1, e1, ho1⟩ := deleteNode_own (l := ps.map (nodeCell al) ++ l) (h := h.ticked) (by simpa using ho.ticked)
        simp only [e1]
        exact (eraseLoop_sat ps mask.tail ho1).imp (fun _ _ h => ⟨h.1.cons _, h.2⟩) (fun _ _ h => ⟨h.1.cons _, h.2⟩)
      · have ho' : Own h.ticked (ps.map (nodeCell al) ++ (nodeCell al p :: l)) := ho.ticked.congr (by perm_count)
        refine Out.Sat.map ((eraseLoop_sat ps mask.tail ho').imp ?_ ?_)
        · rintro a h' ⟨h1, h2⟩; exact ⟨h1.cons_cons _, h2.congr (by perm_count)⟩
        · rintro a h' ⟨h1, h2⟩; exact ⟨h1.cons_cons _, h2.congr (by perm_count)⟩

theorem eraseMany_sat {t : Box} {mask : List Bool} (ho : Has cfg h t l) :
    (t.eraseMany may mask h).Sat (fun t' h' => t'.al = t.al ∧ t'.arr = t.arr ∧ t'.nodes.Sublist t.nodes ∧ Has cfg h' t' l)
      (fun t' h' => t'.al = t.al ∧ t'.arr = t.arr ∧ t'.nodes.Sublist t.nodes ∧ Has cfg h' t' l) := by
  unfold Box.eraseMany
  refine Out.Sat.map ((eraseLoop_sat (l := t.arr.cells cfg.N t.al ++ l) t.nodes mask (ho.2.congr (by perm_count))).imp ?_ ?_)
  · rintro a h' ⟨h1, h2⟩; exact ⟨rfl, rfl, h1, ho.1, h2.congr (by perm_count)⟩
  · rintro a h' ⟨h1, h2⟩; exact ⟨rfl, rfl, h1, ho.1, h2.congr (by perm_count)⟩

/-- A handle with a node has an allocator. -/
def Hnd.Good (x : Hnd) : Prop := x.p ≠ none → x.a ≠ none

theorem extract_sat {t : Box} {i : Nat} (ho : Has cfg h t l) :
    (t.extract may i h).Sat
      (fun a h' => a = ({ t with nodes := t.nodes.eraseIdx i }, some ⟨t.nodes[i]?, some t.al⟩) ∧
        Own h' (a.1.cells cfg.N ++ (Hnd.cells ⟨t.nodes[i]?, some t.al⟩ ++ l)))
      (fun a h' => a = (t, none) ∧ Own h' (t.cells cfg.N ++ l)) := by
  unfold Box.extract
  refine (user_sat ho.2).bind ?_ (fun _ _ h => ⟨rfl, h.1⟩)
  intro _ h1 ho1
  refine ⟨rfl, ho1.congr ?_⟩
  cases e : t.nodes[i]? with
  | none =>
    have : t.nodes.eraseIdx i = t.nodes := List.eraseIdx_of_length_le (by simpa using e)
    simp only [this, Hnd.cells]
    exact List.Perm.refl _
  | some p =>
    refine List.Perm.trans ((((perm_getElem e).map (nodeCell t.al)).append_left _).append_right _) ?_
    perm_count

theorem insertNode_sat {t : Box} {x : Hnd} {dup : Bool} {g : Option Nat} (hx : x.p ≠ none → x.a = some t.al) (ht : Whole t.arr)
    (ho : Own h (t.cells cfg.N ++ (x.cells ++ l))) :
    (t.insertNode cfg may x dup g h).Sat
      (fun a h' => a.1.al = t.al ∧ a.2.a = x.a ∧
        (∀ p, x.p = some p → if dup then a.1 = t ∧ a.2 = x else a.1.nodes = p :: t.nodes ∧ a.2.p = none) ∧
        (x.p = none → a = (t, x)) ∧ Whole a.1.arr ∧ Own h' (a.1.cells cfg.N ++ (a.2.cells ++ l)))
      (fun a h' => a.2 = x ∧ a.1.al = t.al ∧ a.1.nodes <:+ t.nodes ∧ ((∀ n, may .user n = false) → a.1 = t) ∧ Whole a.1.arr ∧ Own h' (a.1.cells cfg.N ++ (x.cells ++ l))) := by
  unfold Box.insertNode
  obtain ⟨xp, xa⟩ := x
  cases xp with
  | none => exact ⟨rfl, rfl, (fun p e => by cases e), fun _ => rfl, ht, ho⟩
  | some p =>
    have hxa : xa = some t.al := hx (by simp)
    subst hxa
    simp only
    refine (user_sat ho).bind ?_ (fun _ _ h => ⟨rfl, rfl, List.suffix_refl _, fun _ => rfl, ht, h.1⟩)
    intro _ h1 ho1
    cases dup
    · simp only [Bool.false_eq_true, if_false]
      refine (grow_sat (t := t) ⟨ht, ho1⟩).bind ?_ (fun _ _ h => ⟨rfl, h.1.1, h.1.2.2.1, h.1.2.2.2, h.2⟩)
      rintro t1 h2 ⟨e1, e2, hw, ho2⟩
      refine (user_sat ho2).bind ?_ ?_
      · intro _ h3 ho3
        refine ⟨e1, rfl, ?_, (fun e => by cases e), hw, ho3.congr ?_⟩
        · intro q e
          cases e
          exact ⟨by simp only [e2], rfl⟩
        · simp only [Box.cells, e1]
          perm_count
      · rintro _ h3 ⟨ho3, n, hn⟩
        exact ⟨rfl, e1, e2 ▸ List.suffix_refl _, fun hf => absurd hn (by rw [hf n]; simp), hw, ho3⟩
    · exact ⟨rfl, rfl, fun q _ => ⟨rfl, rfl⟩, (fun e => by cases e), ht, ho1⟩

theorem mergeLoop_sat : ∀ (ps passed mine : List Nat) (mask : List Bool) {h : Heap}, Own h l →
    (mergeLoop may ps passed mine mask h).Sat (fun m h' => (m.1 ++ m.2).Perm (mine ++ (passed ++ ps)) ∧ Own h' l)
      (fun m h' => (m.1 ++ m.2).Perm (mine ++ (passed ++ ps)) ∧ Own h' l)
  | [], passed, mine, mask, h, ho => by
    simp only [mergeLoop]
    exact ⟨by simp, ho⟩
  | p :: ps, passed, mine, mask, h, ho => by
    simp only [mergeLoop]
    split
    · exact ⟨List.Perm.refl _, ho.ticked⟩
    · have e1 : ((p :: mine) ++ (passed ++ ps)).Perm (mine ++ (passed ++ p :: ps)) := by perm_count
      have e2 : (mine ++ (passed ++ [p] ++ ps)).Perm (mine ++ (passed ++ p :: ps)) := by perm_count
      split
      · exact (mergeLoop_sat ps passed (p :: mine) mask.tail ho.ticked).imp (fun _ _ h => ⟨h.1.trans e1, h.2⟩)
          (fun _ _ h => ⟨h.1.trans e1, h.2⟩)
      · exact (mergeLoop_sat ps (passed ++ [p]) mine mask.tail ho.ticked).imp (fun _ _ h => ⟨h.1.trans e2, h.2⟩)
          (fun _ _ h => ⟨h.1.trans e2, h.2⟩)

/-- Two containers owning their blocks. -/
def Has2 (cfg : Cfg) (h : Heap) (t x : Box) (l : List Block) : Prop :=
  Whole t.arr ∧ Whole x.arr ∧ Own h (t.cells cfg.N ++ (x.cells cfg.N ++ l))

theorem mergeUnique_sat {t x : Box} {g : Option Nat} {mask : List Bool} (e : t.al = x.al) (ho : Has2 cfg h t x l) :
    (t.mergeUnique cfg may x g mask h).Sat
      (fun a h' => a.1.al = t.al ∧ a.2.al = x.al ∧ a.2.arr = x.arr ∧ (a.1.nodes ++ a.2.nodes).Perm (t.nodes ++ x.nodes) ∧
        Has2 cfg h' a.1 a.2 l)
      (fun a h' => a.1.al = t.al ∧ a.2.al = x.al ∧ a.2.arr = x.arr ∧
        ((∀ n, may .user n = false) → (a.1.nodes ++ a.2.nodes).Perm (t.nodes ++ x.nodes)) ∧ Has2 cfg h' a.1 a.2 l) := by
  unfold Box.mergeUnique
  rw [if_neg (by simp [e])]
  split
  · exact ⟨rfl, rfl, rfl, List.Perm.refl _, ho⟩
  · refine (grow_sat (t := t) (l := x.cells cfg.N ++ l) ⟨ho.1, ho.2.2⟩).bind ?_ ?_
    · rintro t1 h1 ⟨e1, e2, hw, ho1⟩
      have key : ∀ (m : List Nat × List Nat) h', (m.1 ++ m.2).Perm (t1.nodes ++ ([] ++ x.nodes)) →
          Own h' (t1.cells cfg.N ++ (x.cells cfg.N ++ l)) →
          Has2 cfg h' { t1 with nodes := m.1 } { x with nodes := m.2 } l := by
        intro m h' hp ho'
        refine ⟨hw, ho.2.1, ho'.congr ?_⟩
        have hp' := hp.map (nodeCell x.al)
        simp only [List.map_append, List.nil_append] at hp'
        rw [List.perm_iff_count] at hp' ⊢
        intro b
        have := hp' b
        simp only [Box.cells, List.count_append, e1, e] at this ⊢
        omega
      refine Out.Sat.map ((mergeLoop_sat x.nodes [] t1.nodes mask ho1).imp ?_ ?_)
      · rintro m h' ⟨hp, ho'⟩
        exact ⟨e1, rfl, rfl, by simpa [e2] using hp, key m h' hp ho'⟩
      · rintro m h' ⟨hp, ho'⟩
        exact ⟨e1, rfl, rfl, fun _ => by simpa [e2] using hp, key m h' hp ho'⟩
    · rintro t1 h1 ⟨hk, hw, ho1⟩
      exact ⟨hk.1, rfl, rfl, fun hf => by rw [hk.2.2.2 hf], hw, ho.2.1, ho1⟩

theorem hdestroy_own {x : Hnd} (hx : x.Good) (ho : Own h (x.cells ++ l)) : ∃ h', x.destroy h = some h' ∧ Own h' l := by
  obtain ⟨xp, xa⟩ := x
  unfold Hnd.destroy
  cases xp with
  | none => exact ⟨h, rfl, ho⟩
  | some p =>
    cases xa with
    | none => exact absurd rfl (hx (by simp))
    | some al => exact deleteNode_own ho

theorem mergeMultiLoop_sat : ∀ (ps : List Nat) (gs : List (Option Nat)) {t : Box} {h : Heap}, Whole t.arr →
    Own h (t.cells cfg.N ++ (ps.map (nodeCell t.al) ++ l)) →
    (mergeMultiLoop cfg may t t.al ps gs h).Sat
      (fun a h' => a.1.al = t.al ∧ a.2 = [] ∧ a.1.nodes = ps.reverse ++ t.nodes ∧ Whole a.1.arr ∧ Own h' (a.1.cells cfg.N ++ l))
      (fun a h' => a.1.al = t.al ∧ Whole a.1.arr ∧ Own h' (a.1.cells cfg.N ++ (a.2.map (nodeCell t.al) ++ l)))
  | [], gs, t, h, hw, ho => ⟨rfl, rfl, rfl, hw, ho⟩
  | p :: ps, gs, t, h, hw, ho => by
    simp only [mergeMultiLoop]
    refine (insertNode_sat (t := t) (x := ⟨some p, some t.al⟩) (l := ps.map (nodeCell t.al) ++ l) (fun _ => rfl) hw
      (ho.congr (by perm_count))).bind ?_ ?_
    · rintro ⟨t1, y⟩ h1 ⟨e1, _, e2, _, hw1, ho1⟩
      simp only at e1 e2 hw1 ho1
      have e2 := e2 p rfl
      rw [if_neg (by simp)] at e2
      obtain ⟨h2, e3, ho2⟩ := hdestroy_own (x := y) (l := t1.cells cfg.N ++ (ps.map (nodeCell t.al) ++ l))
        (fun h => absurd e2.2 h) (ho1.congr (rot _ _ _))
      simp only [e3]
      rw [← e1]
      rw [← e1] at ho2
      refine (mergeMultiLoop_sat ps gs.tail hw1 ho2).imp ?_ ?_
      · rintro a h' ⟨f1, f2, f3, hh⟩
        exact ⟨f1, f2, by rw [f3, e2.1]; simp, hh⟩
      · rintro a h' hh
        exact hh
    · rintro ⟨t1, y⟩ h1 ⟨e0, e1, _, _, hw1, ho1⟩
      simp only at e0 e1 hw1 ho1
      subst e0
      obtain ⟨h2, e3, ho2⟩ := hdestroy_own (x := ⟨some p, some t.al⟩) (l := t1.cells cfg.N ++ (ps.map (nodeCell t.al) ++ l))
        (fun _ => by simp) (ho1.congr (rot _ _ _))
      simp only [e3]
      exact ⟨e1, hw1, ho2⟩

theorem mergeMulti_sat {t x : Box} {gs : List (Option Nat)} (e : t.al = x.al) (ho : Has2 cfg h t x l) :
    (t.mergeMulti cfg may x gs h).Sat
      (fun a h' => a.1.al = t.al ∧ a.2.al = x.al ∧ a.2.arr = x.arr ∧ a.2.nodes = [] ∧ a.1.nodes = x.nodes.reverse ++ t.nodes ∧
        Has2 cfg h' a.1 a.2 l)
      (fun a h' => a.1.al = t.al ∧ a.2.al = x.al ∧ a.2.arr = x.arr ∧ Has2 cfg h' a.1 a.2 l) := by
  unfold Box.mergeMulti
  rw [← e]
  have ho' : Own h (t.cells cfg.N ++ (x.nodes.map (nodeCell t.al) ++ (x.arr.cells cfg.N x.al ++ l))) :=
    ho.2.2.congr (by rw [e]; perm_count)
  refine Out.Sat.map ((mergeMultiLoop_sat x.nodes gs ho.1 ho').imp ?_ ?_)
  · rintro a h' ⟨f1, f2, f3, hw, ho1⟩
    refine ⟨f1, rfl, rfl, f2, f3, hw, ho.2.1, ho1.congr ?_⟩
    simp only [f2, e]
    perm_count
  · rintro a h' ⟨f1, hw, ho1⟩
    refine ⟨f1, rfl, rfl, hw, ho.2.1, ho1.congr ?_⟩
    rw [e]
    perm_count

/-! ### Handles -/

theorem hassign_sat {y x : Hnd} (hc : okAssign cfg y x = true) (hy : y.Good) (hx : x.Good) (ho : Own h (y.cells ++ (x.cells ++ l))) :
    (y.assign cfg x h).Sat
      (fun a h' => a.1.p = x.p ∧ a.2.p = none ∧ a.1.Good ∧ a.2.Good ∧ Own h' (a.1.cells ++ (a.2.cells ++ l))) (fun _ _ => False) := by
  unfold Hnd.assign
  unfold okAssign at hc
  rw [if_pos (by
    simp only [Bool.or_eq_true, Bool.and_eq_true, Option.isNone_iff_eq_none, beq_iff_eq, Option.isSome_iff_ne_none] at hc
    rcases hc with (h | h) | h
    · exact Or.inl h
    · exact Or.inr (Or.inl h)
    · exact Or.inr (Or.inr h))]
  refine okWith_sat (hdestroy_own hy ho) ?_
  intro h' ho'
  by_cases hp : y.a = none ∨ cfg.pocma = true
  · rw [if_pos hp]
    exact ⟨rfl, rfl, hx, fun h => absurd rfl h, ho'⟩
  · rw [if_neg hp]
    have hyx : y.a = x.a := by
      simp only [Bool.or_eq_true, Bool.and_eq_true, Option.isNone_iff_eq_none, beq_iff_eq] at hc
      rcases hc with (h | h) | h
      · exact absurd (Or.inl h) hp
      · exact absurd (Or.inr h) hp
      · exact h.2
    refine ⟨rfl, rfl, ?_, fun h => absurd rfl h, ?_⟩
    · intro h; simp only [hyx]; exact hx h
    · simp only [hyx]; exact ho'

theorem hswap_sat {y x : Hnd} (hc : okSwap cfg y x = true) (hy : y.Good) (hx : x.Good) (ho : Own h (y.cells ++ (x.cells ++ l))) :
    (y.swap cfg x h).Sat
      (fun a h' => a.1.p = x.p ∧ a.2.p = y.p ∧ a.1.Good ∧ a.2.Good ∧ Own h' (a.1.cells ++ (a.2.cells ++ l))) (fun _ _ => False) := by
  unfold Hnd.swap
  unfold okSwap at hc
  simp only [Bool.or_eq_true, Option.isNone_iff_eq_none, beq_iff_eq] at hc
  have hsw : (y.cells ++ (x.cells ++ l)).Perm (x.cells ++ (y.cells ++ l)) := by
    rw [← List.append_assoc, ← List.append_assoc]
    exact List.perm_append_comm.append_right l
  rw [if_pos (by rcases hc with ((h | h) | h) | h <;> simp [h])]
  by_cases hp : cfg.pocs = true ∨ y.a = none ∨ x.a = none
  · rw [if_pos hp]
    exact ⟨rfl, rfl, hx, hy, ho.congr hsw⟩
  · rw [if_neg hp]
    have hyx : y.a = x.a := by
      rcases hc with ((h | h) | h) | h
      · exact absurd (Or.inr (Or.inl h)) hp
      · exact absurd (Or.inr (Or.inr h)) hp
      · exact absurd (Or.inl h) hp
      · exact h
    refine ⟨rfl, rfl, ?_, ?_, ?_⟩
    · intro h; simp only [hyx]; exact hx h
    · intro h; simp only [← hyx]; exact hy h
    · have e1 : Hnd.cells ⟨x.p, y.a⟩ = x.cells := by rw [hyx]
      have e2 : Hnd.cells ⟨y.p, x.a⟩ = y.cells := by rw [← hyx]
      have ho' := ho.congr hsw
      rw [← e1, ← e2] at ho'
      exact ho'

/-! ### Programs -/

/-- The blocks of a variable. -/
def ocells (N : Nat) : Option Obj → List Block
  | none => []
  | some (.box t) => t.cells N
  | some (.hnd x) => x.cells

/-- An object in order. -/
def GoodO : Option Obj → Prop
  | none => True
  | some (.box t) => Whole t.arr
  | some (.hnd x) => x.Good

/-- The blocks of all variables. -/
def all (N R : Nat) (f : Nat → Option Obj) : List Block := (List.range R).flatMap (fun r => ocells N (f r))

theorem all_succ (N R : Nat) (f : Nat → Option Obj) : all N (R + 1) f = all N R f ++ ocells N (f R) := by
  unfold all
  rw [List.range_succ, List.flatMap_append]
  simp

theorem all_congr {N : Nat} {f g : Nat → Option Obj} : ∀ {R : Nat}, (∀ r < R, f r = g r) → all N R f = all N R g
  | 0, _ => rfl
  | R + 1, hfg => by
    rw [all_succ, all_succ, all_congr (fun r hr => hfg r (by omega)), hfg R (by omega)]

theorem all_split {N : Nat} {r : Nat} (f : Nat → Option Obj) : ∀ {R : Nat}, r < R →
    (all N R f).Perm (ocells N (f r) ++ all N R (setVar f r none))
  | R + 1, hr => by
    rw [all_succ, all_succ]
    by_cases e : r = R
    · subst e
      have : all N r (setVar f r none) = all N r f := all_congr (fun q hq => by unfold setVar; rw [if_neg (by omega)])
      rw [this]
      have h2 : setVar f r none r = none := by simp [setVar]
      rw [h2]
      simp only [ocells, List.append_nil]
      exact List.perm_append_comm
    · have h2 : setVar f r none R = f R := by unfold setVar; rw [if_neg (by omega)]
      rw [h2, ← List.append_assoc]
      exact (all_split f (by omega)).append_right _

theorem set_set (f : Nat → Option Obj) (r : Nat) (x y : Option Obj) : setVar (setVar f r x) r y = setVar f r y := by
  funext q
  unfold setVar
  split <;> rfl

theorem set_comm (f : Nat → Option Obj) {r q : Nat} (hne : r ≠ q) (x y : Option Obj) :
    setVar (setVar f r x) q y = setVar (setVar f q y) r x := by
  funext p
  unfold setVar
  by_cases h1 : p = q
  · rw [if_pos h1, if_neg (by omega), if_pos h1]
  · rw [if_neg h1]
    by_cases h2 : p = r
    · rw [if_pos h2, if_pos h2]
    · rw [if_neg h2, if_neg h2, if_neg h1]

theorem all_set {N : Nat} {r R : Nat} (hr : r < R) (f : Nat → Option Obj) (x : Option Obj) :
    (all N R (setVar f r x)).Perm (ocells N x ++ all N R (setVar f r none)) := by
  have := all_split (N := N) (setVar f r x) hr
  rw [set_set] at this
  simpa [setVar] using this

theorem all_split2 {N : Nat} {r q R : Nat} (hr : r < R) (hq : q < R) (hne : r ≠ q) (f : Nat → Option Obj) :
    (all N R f).Perm (ocells N (f r) ++ (ocells N (f q) ++ all N R (setVar (setVar f r none) q none))) := by
  refine (all_split f hr).trans (List.Perm.append_left _ ?_)
  have := all_split (N := N) (setVar f r none) hq
  have e : setVar f r none q = f q := by unfold setVar; rw [if_neg (Ne.symm hne)]
  rwa [e] at this

theorem all_set2 {N : Nat} {r q R : Nat} (hr : r < R) (hq : q < R) (hne : r ≠ q) (f : Nat → Option Obj) (x y : Option Obj) :
    (all N R (setVar (setVar f r x) q y)).Perm
      (ocells N x ++ (ocells N y ++ all N R (setVar (setVar f r none) q none))) := by
  refine (all_set hq _ y).trans ?_
  rw [set_comm f hne x none]
  refine ((all_set hr _ x).append_left _).trans ?_
  rw [set_comm f hne none none]
  rw [← List.append_assoc, ← List.append_assoc]
  exact List.perm_append_comm.append_right _

/-- The invariant of programs. -/
structure Inv (cfg : Cfg) (R : Nat) (s : St) : Prop where
  own : Own s.heap (all cfg.N R s.vars)
  good : ∀ r, GoodO (s.vars r)
  out : ∀ r, R ≤ r → s.vars r = none

theorem Inv.init (cfg : Cfg) (R : Nat) : Inv cfg R FcaStorage.init := by
  refine ⟨⟨⟨List.nodup_nil, (fun b hb => by cases hb), (fun b hb => by cases hb), Nat.one_pos⟩, ?_⟩, fun r => trivial, fun r _ => rfl⟩
  have : all cfg.N R FcaStorage.init.vars = [] := by
    unfold all
    rw [List.flatMap_eq_nil_iff]
    intro r _
    rfl
  rw [this]
  exact List.Perm.refl _

variable {R : Nat} {s : St}

theorem Inv.set1 (hi : Inv cfg R s) {r : Nat} (hr : r < R) {x : Option Obj} {h' : Heap} (hx : GoodO x)
    (ho : Own h' (ocells cfg.N x ++ all cfg.N R (setVar s.vars r none))) : Inv cfg R ⟨setVar s.vars r x, h'⟩ := by
  refine ⟨ho.congr (all_set hr _ _).symm, ?_, ?_⟩
  · intro p
    simp only [setVar]
    split
    · exact hx
    · exact hi.good p
  · intro p hp
    simp only [setVar]
    rw [if_neg (by omega)]
    exact hi.out p hp

theorem Inv.set2 (hi : Inv cfg R s) {r q : Nat} (hr : r < R) (hq : q < R) (hne : r ≠ q) {x y : Option Obj} {h' : Heap}
    (hx : GoodO x) (hy : GoodO y)
    (ho : Own h' (ocells cfg.N x ++ (ocells cfg.N y ++ all cfg.N R (setVar (setVar s.vars r none) q none)))) :
    Inv cfg R ⟨setVar (setVar s.vars r x) q y, h'⟩ := by
  refine ⟨ho.congr (all_set2 hr hq hne _ _ _).symm, ?_, ?_⟩
  · intro p
    simp only [setVar]
    split
    · exact hy
    · split
      · exact hx
      · exact hi.good p
  · intro p hp
    simp only [setVar]
    rw [if_neg (by omega), if_neg (by omega)]
    exact hi.out p hp

theorem Inv.on1 (hi : Inv cfg R s) {r : Nat} (hr : r < R) {o : Out (Option Obj)}
    (ho : o.Sat (fun x h' => GoodO x ∧ Own h' (ocells cfg.N x ++ all cfg.N R (setVar s.vars r none)))
      (fun x h' => GoodO x ∧ Own h' (ocells cfg.N x ++ all cfg.N R (setVar s.vars r none)))) :
    ∃ s' b, FcaStorage.on1 s r o = some (s', b) ∧ Inv cfg R s' := by
  match o, ho with
  | .ok x h', ho => exact ⟨_, _, rfl, hi.set1 hr ho.1 ho.2⟩
  | .exc x h', ho => exact ⟨_, _, rfl, hi.set1 hr ho.1 ho.2⟩

theorem Inv.on2 (hi : Inv cfg R s) {r q : Nat} (hr : r < R) (hq : q < R) (hne : r ≠ q) {o : Out (Option Obj × Option Obj)}
    (ho : o.Sat (fun x h' => GoodO x.1 ∧ GoodO x.2 ∧
        Own h' (ocells cfg.N x.1 ++ (ocells cfg.N x.2 ++ all cfg.N R (setVar (setVar s.vars r none) q none))))
      (fun x h' => GoodO x.1 ∧ GoodO x.2 ∧
        Own h' (ocells cfg.N x.1 ++ (ocells cfg.N x.2 ++ all cfg.N R (setVar (setVar s.vars r none) q none))))) :
    ∃ s' b, FcaStorage.on2 s r q o = some (s', b) ∧ Inv cfg R s' := by
  match o, ho with
  | .ok x h', ho => exact ⟨_, _, rfl, hi.set2 hr hq hne ho.1 ho.2.1 ho.2.2⟩
  | .exc x h', ho => exact ⟨_, _, rfl, hi.set2 hr hq hne ho.1 ho.2.1 ho.2.2⟩

theorem box_some {r : Nat} {t : Box} (e : s.box R r = some t) : r < R ∧ s.vars r = some (.box t) := by
  unfold St.box at e
  split at e
  · rename_i hr
    refine ⟨hr, ?_⟩
    split at e
    · rename_i u hu; cases e; exact hu
    · cases e
  · cases e

theorem hnd_some {r : Nat} {x : Hnd} (e : s.hnd R r = some x) : r < R ∧ s.vars r = some (.hnd x) := by
  unfold St.hnd at e
  split at e
  · rename_i hr
    refine ⟨hr, ?_⟩
    split at e
    · rename_i u hu; cases e; exact hu
    · cases e
  · cases e

theorem Inv.own1 (hi : Inv cfg R s) {r : Nat} (hr : r < R) :
    Own s.heap (ocells cfg.N (s.vars r) ++ all cfg.N R (setVar s.vars r none)) := hi.own.congr (all_split _ hr)

theorem Inv.own2 (hi : Inv cfg R s) {r q : Nat} (hr : r < R) (hq : q < R) (hne : r ≠ q) :
    Own s.heap (ocells cfg.N (s.vars r) ++ (ocells cfg.N (s.vars q) ++ all cfg.N R (setVar (setVar s.vars r none) q none))) :=
  hi.own.congr (all_split2 hr hq hne _)

theorem Inv.has (hi : Inv cfg R s) {r : Nat} {t : Box} (e : s.box R r = some t) :
    Has cfg s.heap t (all cfg.N R (setVar s.vars r none)) := by
  obtain ⟨hr, e⟩ := box_some e
  have h1 := hi.own1 hr
  have h2 := hi.good r
  rw [e] at h1 h2
  exact ⟨h2, h1⟩

theorem Inv.has2 (hi : Inv cfg R s) {r q : Nat} {t x : Box} (e : s.box R r = some t) (e' : s.box R q = some x) (hne : r ≠ q) :
    Has2 cfg s.heap t x (all cfg.N R (setVar (setVar s.vars r none) q none)) := by
  obtain ⟨hr, e⟩ := box_some e
  obtain ⟨hq, e'⟩ := box_some e'
  have h1 := hi.own2 hr hq hne
  have h2 := hi.good r
  have h3 := hi.good q
  rw [e] at h1 h2
  rw [e'] at h1 h3
  exact ⟨h2, h3, h1⟩

theorem one_inv (hi : Inv cfg R s) {r : Nat} {f : Box → Heap → Out Box}
    (hf : ∀ t l, Has cfg s.heap t l → (f t s.heap).Sat (fun t' h' => Has cfg h' t' l) (fun t' h' => Has cfg h' t' l)) :
    ∃ s' b, one R s r f = some (s', b) ∧ Inv cfg R s' := by
  unfold one
  cases e : s.box R r with
  | none => exact ⟨s, false, rfl, hi⟩
  | some t =>
    exact hi.on1 (box_some e).1 (Out.Sat.map (hf t _ (hi.has e)))

theorem two_inv (hi : Inv cfg R s) {r q : Nat} {f : Box → Box → Heap → Out (Box × Box)}
    (hf : ∀ t x l, Has2 cfg s.heap t x l →
      (f t x s.heap).Sat (fun a h' => Has2 cfg h' a.1 a.2 l) (fun a h' => Has2 cfg h' a.1 a.2 l)) :
    ∃ s' b, two R s r q f = some (s', b) ∧ Inv cfg R s' := by
  unfold two
  cases e : s.box R r with
  | none => exact ⟨s, false, rfl, hi⟩
  | some t =>
    cases e' : s.box R q with
    | none => exact ⟨s, false, rfl, hi⟩
    | some x =>
      simp only
      split
      · exact ⟨s, false, rfl, hi⟩
      · rename_i hne
        exact hi.on2 (box_some e).1 (box_some e').1 hne (Out.Sat.map (hf t x _ (hi.has2 e e' hne)))

theorem build_inv (hi : Inv cfg R s) {r q : Nat} {f : Box → Heap → Out (Option Box × Box)}
    (hf : ∀ x l, Has cfg s.heap x l →
      (f x s.heap).Sat
        (fun a h' => ∃ t, a.1 = some t ∧ Has2 cfg h' t a.2 l)
        (fun a h' => a = (none, x) ∧ Own h' (x.cells cfg.N ++ l))) :
    ∃ s' b, build R s r q f = some (s', b) ∧ Inv cfg R s' := by
  unfold build
  cases e : s.box R q with
  | none => exact ⟨s, false, rfl, hi⟩
  | some x =>
    simp only
    split
    · rename_i hc
      obtain ⟨hq, eq⟩ := box_some e
      have hne : r ≠ q := by
        rintro rfl
        rw [hc.2] at eq
        cases eq
      have ho := hi.own2 hc.1 hq hne
      have hg := hi.good q
      rw [eq] at ho hg
      rw [hc.2] at ho
      refine hi.on2 hc.1 hq hne (Out.Sat.map ((hf x _ ⟨hg, ho⟩).imp ?_ ?_))
      · rintro ⟨a1, a2⟩ h' ⟨t, e1, hw, hw', ho'⟩
        simp only at e1 hw' ho'
        subst e1
        exact ⟨hw, hw', ho'⟩
      · rintro _ h' ⟨rfl, ho'⟩
        exact ⟨trivial, hg, ho'⟩
    · exact ⟨s, false, rfl, hi⟩

theorem hTwo_inv (hi : Inv cfg R s) {k j : Nat} {f : Hnd → Hnd → Heap → Out (Hnd × Hnd)}
    (hf : ∀ y x l, y.Good → x.Good → Own s.heap (y.cells ++ (x.cells ++ l)) →
      (f y x s.heap).Sat (fun a h' => a.1.Good ∧ a.2.Good ∧ Own h' (a.1.cells ++ (a.2.cells ++ l))) (fun _ _ => False)) :
    ∃ s' b, hTwo R s k j f = some (s', b) ∧ Inv cfg R s' := by
  unfold hTwo
  cases e : s.hnd R k with
  | none => exact ⟨s, false, rfl, hi⟩
  | some y =>
    cases e' : s.hnd R j with
    | none => exact ⟨s, false, rfl, hi⟩
    | some x =>
      simp only
      split
      · exact ⟨s, false, rfl, hi⟩
      · rename_i hne
        obtain ⟨hk, ek⟩ := hnd_some e
        obtain ⟨hj, ej⟩ := hnd_some e'
        have ho := hi.own2 hk hj hne
        have h1 := hi.good k
        have h2 := hi.good j
        rw [ek] at ho h1
        rw [ej] at ho h2
        exact hi.on2 hk hj hne (Out.Sat.map ((hf y x _ h1 h2 ho).imp (fun _ _ h => h) (fun _ _ h => h.elim)))

theorem step_inv (hi : Inv cfg R s) (c : Call) : ∃ s' b, step cfg may R s c = some (s', b) ∧ Inv cfg R s' := by
  have skip : ∃ s' b, (some (s, false) : Option (St × Bool)) = some (s', b) ∧ Inv cfg R s' := ⟨s, false, rfl, hi⟩
  have fresh : ∀ {r : Nat}, r < R → s.vars r = none → Own s.heap (all cfg.N R (setVar s.vars r none)) := by
    intro r hr e
    have := hi.own1 hr
    rwa [e] at this
  cases c with
  | create r al n =>
    simp only [step]
    split
    · rename_i hc
      refine hi.on1 hc.1 (Out.Sat.map ((create_sat (fresh hc.1 hc.2)).imp ?_ ?_))
      · rintro _ h' ⟨t, rfl, _, _, hw, ho⟩; exact ⟨hw, ho⟩
      · rintro _ h' ⟨rfl, ho⟩; exact ⟨trivial, ho⟩
    · exact skip
  | fromRange r al n g xs =>
    simp only [step]
    split
    · rename_i hc
      refine hi.on1 hc.1 (Out.Sat.map ((fromRange_sat (fresh hc.1 hc.2)).imp ?_ ?_))
      · rintro _ h' ⟨t, rfl, _, hw, ho⟩; exact ⟨hw, ho⟩
      · rintro _ h' ⟨rfl, ho⟩; exact ⟨trivial, ho⟩
    · exact skip
  | copy r q al g =>
    simp only [step]
    refine build_inv hi (fun x l hx => Out.Sat.map ((copy_sat hx.2).imp ?_ ?_))
    · rintro _ h' ⟨t, rfl, _, hw, ho⟩; exact ⟨t, rfl, hw, hx.1, ho⟩
    · rintro _ h' ⟨rfl, ho⟩; exact ⟨rfl, ho⟩
  | move r q =>
    simp only [step]
    refine build_inv hi (fun x l hx => (move_sat hx.2).imp ?_ (fun _ _ h => h))
    rintro _ h' ⟨rfl, ho⟩; exact ⟨x, rfl, hx.1, Whole.empty, ho⟩
  | moveAl r q al g =>
    simp only [step]
    refine build_inv hi (fun x l hx => (moveAl_sat hx).imp ?_ (fun _ _ h => h))
    rintro ⟨a1, a2⟩ h' ⟨t, e, _, e2, hw, ho⟩
    refine ⟨t, e, hw, ?_, ho⟩
    split at e2
    · rw [e2.2.2]; exact Whole.empty
    · rw [e2.2]; exact hx.1
  | destroy r =>
    simp only [step]
    cases e : s.box R r with
    | some t =>
      obtain ⟨h', e1, ho⟩ := deleteBuckets_own (hi.has e).2
      simp only [Box.destroy, e1, Option.map_some]
      exact ⟨_, _, rfl, hi.set1 (box_some e).1 trivial ho⟩
    | none =>
      cases e' : s.hnd R r with
      | none => exact skip
      | some x =>
        obtain ⟨hr, er⟩ := hnd_some e'
        have ho := hi.own1 hr
        have hg := hi.good r
        rw [er] at ho hg
        obtain ⟨h', e1, ho⟩ := hdestroy_own hg ho
        simp only [e1, Option.map_some]
        exact ⟨_, _, rfl, hi.set1 hr trivial ho⟩
  | copyAssign r q g g' =>
    simp only [step]
    refine two_inv hi (fun t x l ht => Out.Sat.map ((copyAssign_sat (l := x.cells cfg.N ++ l) ⟨ht.1, ht.2.2⟩).imp ?_ ?_))
    · rintro t' h' ⟨_, _, hw, ho⟩; exact ⟨hw, ht.2.1, ho⟩
    · rintro t' h' ⟨hw, ho⟩; exact ⟨hw, ht.2.1, ho⟩
  | moveAssign r q g =>
    simp only [step]
    refine two_inv hi (fun t x l ht => (moveAssign_sat ht.1 ht.2.1 ht.2.2).imp ?_ ?_)
    · rintro a h' ⟨_, e2, hw, ho⟩
      refine ⟨hw, ?_, ho⟩
      split at e2
      · rw [e2.2.2]; exact Whole.empty
      · rw [e2.2]; exact ht.2.1
    · rintro a h' ⟨e, _, hw, ho⟩
      refine ⟨hw, by rw [e]; exact ht.2.1, by rw [e]; exact ho⟩
  | swap r q =>
    simp only [step]
    refine two_inv hi (fun t x l ht => ?_)
    split
    · rename_i hc
      refine (swap_sat hc ht.2.2).imp ?_ ?_
      · rintro a h' ⟨e1, _, e2, _, _, _, ho⟩; exact ⟨by rw [e1]; exact ht.2.1, by rw [e2]; exact ht.1, ho⟩
      · rintro _ h' ⟨rfl, ho⟩; exact ⟨ht.1, ht.2.1, ho⟩
    · exact ht
  | clear r =>
    simp only [step]
    exact one_inv hi (fun t l ht => (clear_sat ht).imp (fun _ _ h => h.2.2.2) (fun _ _ h => h.elim))
  | rehash r g =>
    simp only [step]
    exact one_inv hi (fun t l ht => (grow_sat ht).imp (fun _ _ h => h.2.2) (fun _ _ h => h.2))
  | emplaceKey r dup g =>
    simp only [step]
    exact one_inv hi (fun t l ht => (emplaceKey_sat ht).imp (fun _ _ h => h.2.2) (fun _ _ h => h.2))
  | emplaceNode r dup g =>
    simp only [step]
    exact one_inv hi (fun t l ht => (emplaceNode_sat ht).imp (fun _ _ h => h.2.2) (fun _ _ h => h.2))
  | insertRange r g xs =>
    simp only [step]
    exact one_inv hi (fun t l ht => (insertRange_sat ht).imp (fun _ _ h => h.2) (fun _ _ h => h.2))
  | erase r i =>
    simp only [step]
    exact one_inv hi (fun t l ht => (erase_sat ht).imp (fun _ _ h => h.2) (fun _ _ h => h.2))
  | eraseMany r mask =>
    simp only [step]
    exact one_inv hi (fun t l ht => (eraseMany_sat ht).imp (fun _ _ h => h.2.2.2) (fun _ _ h => h.2.2.2))
  | extract r i k =>
    simp only [step]
    cases e : s.box R r with
    | none => exact skip
    | some t =>
      simp only
      split
      · rename_i hc
        obtain ⟨hr, er⟩ := box_some e
        have hne : r ≠ k := by
          rintro rfl
          rw [hc.2] at er
          cases er
        have ho := hi.own2 hr hc.1 hne
        have hg := hi.good r
        rw [er] at ho hg
        rw [hc.2] at ho
        refine hi.on2 hr hc.1 hne (Out.Sat.map ((extract_sat ⟨hg, ho⟩).imp ?_ ?_))
        · rintro _ h' ⟨rfl, ho'⟩
          exact ⟨hg, fun _ => by simp, ho'⟩
        · rintro _ h' ⟨rfl, ho'⟩
          exact ⟨hg, trivial, ho'⟩
      · exact skip
  | insertNode r k dup g =>
    simp only [step]
    cases e : s.box R r with
    | none => exact skip
    | some t =>
      cases e' : s.hnd R k with
      | none => exact skip
      | some x =>
        simp only
        split
        · exact skip
        · rename_i hc
          obtain ⟨hr, er⟩ := box_some e
          obtain ⟨hk, ek⟩ := hnd_some e'
          have hne : r ≠ k := by
            rintro rfl
            rw [er] at ek
            cases ek
          have ho := hi.own2 hr hk hne
          have hg := hi.good r
          have hgk := hi.good k
          rw [er] at ho hg
          rw [ek] at ho hgk
          have hx : x.p ≠ none → x.a = some t.al := fun h => Classical.byContradiction (fun h' => hc ⟨h, h'⟩)
          refine hi.on2 hr hk hne (Out.Sat.map ((insertNode_sat hx hg ho).imp ?_ ?_))
          · rintro ⟨a1, a2⟩ h' ⟨_, e2, _, e4, hw, ho'⟩
            refine ⟨hw, ?_, ho'⟩
            intro hp
            simp only at e2
            rw [e2]
            by_cases hxp : x.p = none
            · have := e4 hxp
              simp only [Prod.mk.injEq] at this
              rw [this.2] at hp
              exact absurd hxp hp
            · exact hgk hxp
          · rintro ⟨a1, a2⟩ h' ⟨e0, _, _, _, hw, ho'⟩
            simp only at e0
            subst e0
            exact ⟨hw, hgk, ho'⟩
  | mergeUnique r q g mask =>
    simp only [step]
    refine two_inv hi (fun t x l ht => ?_)
    split
    · rename_i hc
      exact (mergeUnique_sat hc ht).imp (fun _ _ h => h.2.2.2.2) (fun _ _ h => h.2.2.2.2)
    · exact ht
  | mergeMulti r q gs =>
    simp only [step]
    refine two_inv hi (fun t x l ht => ?_)
    split
    · rename_i hc
      exact (mergeMulti_sat hc ht).imp (fun _ _ h => h.2.2.2.2.2) (fun _ _ h => h.2.2.2)
    · exact ht
  | hNew k =>
    simp only [step]
    split
    · rename_i hc
      exact hi.on1 hc.1 ⟨fun h => absurd rfl h, fresh hc.1 hc.2⟩
    · exact skip
  | hMove k j =>
    simp only [step]
    cases e : s.hnd R j with
    | none => exact skip
    | some x =>
      simp only
      split
      · rename_i hc
        obtain ⟨hj, ej⟩ := hnd_some e
        have hne : k ≠ j := by
          rintro rfl
          rw [hc.2] at ej
          cases ej
        have ho := hi.own2 hc.1 hj hne
        have hg := hi.good j
        rw [ej] at ho hg
        rw [hc.2] at ho
        exact hi.on2 hc.1 hj hne ⟨hg, fun h => absurd rfl h, ho⟩
      · exact skip
  | hAssign k j =>
    simp only [step]
    refine hTwo_inv hi (fun y x l hy hx ho => ?_)
    split
    · rename_i hc
      exact (hassign_sat hc hy hx ho).imp (fun _ _ h => h.2.2) (fun _ _ h => h)
    · exact ⟨hy, hx, ho⟩
  | hSwap k j =>
    simp only [step]
    refine hTwo_inv hi (fun y x l hy hx ho => ?_)
    split
    · rename_i hc
      exact (hswap_sat hc hy hx ho).imp (fun _ _ h => h.2.2) (fun _ _ h => h)
    · exact ⟨hy, hx, ho⟩
  | order r ns =>
    simp only [step]
    refine one_inv hi (fun t l ht => ?_)
    simp only [Out.Sat]
    split
    · rename_i hp
      have hp : ns.Perm t.nodes := List.isPerm_iff.1 hp
      refine ⟨ht.1, ht.2.congr ?_⟩
      exact List.Perm.append_right _ (List.Perm.append_left _ (hp.symm.map _))
    · exact ht

theorem run_inv : ∀ (cs : List Call) (s : St), Inv cfg R s → ∃ s' bs, run cfg may R cs s = some (s', bs) ∧ Inv cfg R s' := by
  intro cs
  induction cs with
  | nil => intro s hi; exact ⟨s, [], rfl, hi⟩
  | cons c cs ih =>
    intro s hi
    obtain ⟨s1, b, e1, hi1⟩ := step_inv (may := may) hi c
    obtain ⟨s2, bs, e2, hi2⟩ := ih s1 hi1
    refine ⟨s2, b :: bs, ?_, hi2⟩
    unfold run
    rw [e1]
    simp only [e2, Option.map_some]

theorem finish_own {f : Nat → Option Obj} (hg : ∀ r, GoodO (f r)) : ∀ (R : Nat) (h : Heap), Own h (all cfg.N R f) →
    ∃ h', finish cfg f R h = some h' ∧ h'.blocks = [] := by
  intro R
  induction R with
  | zero => intro h ho; exact ⟨h, rfl, ho.perm.eq_nil⟩
  | succ R ih =>
    intro h ho
    rw [all_succ] at ho
    have hgR := hg R
    simp only [finish]
    cases e : f R with
    | none =>
      rw [e] at ho
      exact ih h (by simpa [ocells] using ho)
    | some x =>
      rw [e] at ho hgR
      have ho := ho.congr List.perm_append_comm
      cases x with
      | box t =>
        obtain ⟨h', e1, ho'⟩ := deleteBuckets_own ho
        simp only [Obj.destroy, Box.destroy, e1]
        exact ih h' ho'
      | hnd x =>
        obtain ⟨h', e1, ho'⟩ := hdestroy_own hgR ho
        simp only [Obj.destroy, e1]
        exact ih h' ho'

end FcaStorage

/-
The heap-aware operations of `Verif/Foa/Heap.lean` compute the containers of `Verif/Foa/Table.lean`, and every container keeps
owning exactly its block. Lemmas only.
-/
import Verif.Foa.Heap
import Verif.Foa.Refine

namespace Foa
open Spec (Op Res upd)
variable {K V : Type}

/-! ### Arrays that share a block -/

/-- same block parameters -/
def Same (a b : Arrays K V) : Prop := a.k = b.k ∧ a.hasElems = b.hasElems ∧ a.al = b.al

theorem Same.refl (a : Arrays K V) : Same a a := ⟨rfl, rfl, rfl⟩
theorem Same.trans {a b c : Arrays K V} (h : Same a b) (h' : Same b c) : Same a c :=
  ⟨h.1.trans h'.1, h.2.1.trans h'.2.1, h.2.2.trans h'.2.2⟩
theorem Same.symm {a b : Arrays K V} (h : Same a b) : Same b a := ⟨h.1.symm, h.2.1.symm, h.2.2.symm⟩

theorem emplaceLoop_same {hs : Nat} {x : K × V} : ∀ {gs : List Nat} {a a' : Arrays K V} {p : Pos},
    Arrays.emplaceLoop hs x a gs = some (a', p) → Same a' a := by
  intro gs
  induction gs with
  | nil => intro a a' p h; simp [Arrays.emplaceLoop] at h
  | cons g gs ih =>
    intro a a' p h
    unfold Arrays.emplaceLoop at h
    split at h
    · split at h
      · cases h; exact ⟨rfl, rfl, rfl⟩
      · cases h
    · split at h
      · exact (ih h).trans ⟨rfl, rfl, rfl⟩
      · cases h

theorem emplace_same {hs : Nat} {x : K × V} {a a' : Arrays K V} {p : Pos} (h : a.emplace hs x = some (a', p)) : Same a' a :=
  emplaceLoop_same h

theorem transferAll_same {f : Fns K} {src : Arrays K V} : ∀ {ps : List Pos} {d d' : Arrays K V},
    Arrays.transferAll f src ps d = some d' → Same d' d := by
  intro ps
  induction ps with
  | nil => intro d d' h; cases h; exact Same.refl _
  | cons p ps ih =>
    intro d d' h
    unfold Arrays.transferAll at h
    split at h
    · cases h
    · split at h
      · cases h
      · rename_i d1 _ h1
        exact (ih h).trans (emplace_same h1)

theorem uncheckedInsert_same {t t' : Table K V} {x : K × V} {p : Pos} (h : t.uncheckedInsert x = some (t', p)) :
    Same t'.arr t.arr := by
  unfold Table.uncheckedInsert at h
  split at h
  · cases h
  · rename_i a q h1
    cases h; exact emplace_same h1

theorem insertAll_same {src : Arrays K V} : ∀ {ps : List Pos} {t t' : Table K V},
    Table.insertAll src ps t = some t' → Same t'.arr t.arr := by
  intro ps
  induction ps with
  | nil => intro t t' h; cases h; exact Same.refl _
  | cons p ps ih =>
    intro t t' h
    unfold Table.insertAll at h
    split at h
    · cases h
    · split at h
      · cases h
      · rename_i t1 _ h1
        exact (ih h).trans (uncheckedInsert_same h1)

theorem copyElementsFrom_same {t x t' : Table K V} (h : t.copyElementsFrom x = some t') : Same t'.arr t.arr := by
  unfold Table.copyElementsFrom at h
  split at h
  · split at h <;> cases h
    · exact ⟨rfl, rfl, rfl⟩
    · exact Same.refl _
  · exact insertAll_same h

theorem eraseAt_same {t t' : Table K V} {p : Pos} (h : t.eraseAt p = some t') : Same t'.arr t.arr := by
  unfold Table.eraseAt at h
  split at h
  · cases h
  · rw [Option.ite_none_right_eq_some] at h
    cases h.2; exact ⟨rfl, rfl, rfl⟩

theorem hassignAt_same {t t' : Table K V} {p : Pos} {v : V} (h : t.assignAt p v = some t') : Same t'.arr t.arr := by
  unfold Table.assignAt at h
  split at h <;> cases h
  exact ⟨rfl, rfl, rfl⟩

theorem clear_same (t : Table K V) : Same t.clear.arr t.arr := by
  unfold Table.clear
  split
  · exact ⟨rfl, rfl, rfl⟩
  · exact Same.refl _

theorem clear_al (t : Table K V) : t.clear.al = t.al := by unfold Table.clear; split <;> rfl

theorem eraseIfLoop_same {pr : K × V → Bool} : ∀ {ps : List Pos} {t t' : Table K V},
    Table.eraseIfLoop pr ps t = some t' → Same t'.arr t.arr := by
  intro ps
  induction ps with
  | nil => intro t t' h; cases h; exact Same.refl _
  | cons p ps ih =>
    intro t t' h
    unfold Table.eraseIfLoop at h
    split at h
    · cases h
    · split at h
      · split at h
        · cases h
        · rename_i t1 h1; exact (ih h).trans (eraseAt_same h1)
      · exact ih h

theorem eraseKey_same {t t' : Table K V} {k : K} {n : Nat} (h : t.eraseKey k = some (t', n)) : Same t'.arr t.arr := by
  unfold Table.eraseKey at h
  split at h
  · cases h
  · cases h; exact Same.refl _
  · simp only [Option.map_eq_some_iff, Prod.mk.injEq] at h
    obtain ⟨_, h1, rfl, _⟩ := h
    exact eraseAt_same h1

theorem opExtract_same {t t' : Table K V} {k : K} {r : Res K V} (h : t.opExtract k = some (t', r)) : Same t'.arr t.arr := by
  unfold Table.opExtract at h
  split at h
  · cases h
  · cases h; exact Same.refl _
  · split at h
    · cases h
    · split at h
      · cases h
      · rename_i h1; cases h; exact eraseAt_same h1

theorem eraseBytes_same {t t' : Table K V} {pc p : Nat} (h : t.eraseBytes pc p = some t') : Same t'.arr t.arr := by
  unfold Table.eraseBytes at h
  split at h
  · cases h
  · rw [Option.ite_none_right_eq_some] at h
    cases h.2; exact ⟨rfl, rfl, rfl⟩

theorem eraseIt_same {rg : Bool} {t t' : Table K V} {it it' : It} (h : t.eraseIt rg it = some (t', it')) :
    Same t'.arr t.arr := by
  unfold Table.eraseIt at h
  split at h
  · cases h
  · split at h
    · cases h
    · split at h
      · cases h
      · cases h; rename_i h1 _ _; exact eraseBytes_same (by assumption)

theorem opEraseIt_same {t t' : Table K V} {k : K} (h : t.opEraseIt k = some t') : Same t'.arr t.arr := by
  unfold Table.opEraseIt at h
  split at h
  · cases h
  · cases h; exact Same.refl _
  · exact eraseBytes_same h

theorem eraseWalk_same {rg : Bool} {pr : K × V → Bool} : ∀ {n : Nat} {t t' : Table K V} {it : It} {l : List (K × V)},
    t.eraseWalk rg pr n it = some (t', l) → Same t'.arr t.arr := by
  intro n
  induction n with
  | zero =>
    intro t t' it l h
    unfold Table.eraseWalk at h
    split at h
    · cases h; exact Same.refl _
    · cases h
  | succ n ih =>
    intro t t' it l h
    unfold Table.eraseWalk at h
    split at h
    · cases h; exact Same.refl _
    · simp only at h
      split at h
      · cases h
      · split at h
        · split at h
          · cases h
          · rename_i h1
            simp only [Option.map_eq_some_iff] at h
            obtain ⟨r, h2, h3⟩ := h
            cases h3
            exact (ih h2).trans (eraseIt_same h1)
        · split at h
          · cases h
          · simp only [Option.map_eq_some_iff] at h
            obtain ⟨r, h2, h3⟩ := h
            cases h3
            exact ih h2

theorem opEraseWalk_same {rg : Bool} {pr : K × V → Bool} {t t' : Table K V} {r : Res K V}
    (h : t.opEraseWalk rg pr = some (t', r)) : Same t'.arr t.arr := by
  unfold Table.opEraseWalk at h
  split at h
  · cases h
  · simp only [Option.map_eq_some_iff] at h
    obtain ⟨y, h1, h2⟩ := h
    cases h2
    exact eraseWalk_same h1

/-! ### Ownership -/

/-- the block of some arrays -/
def cell (a : Arrays K V) (id : Nat) : List (Nat × Nat × Nat) := if a.hasElems then [(id, a.al, a.k)] else []

def HTable.cells (t : HTable K V) : List (Nat × Nat × Nat) := cell t.t.arr t.id

theorem Same.cell {a b : Arrays K V} (h : Same a b) (id : Nat) : Foa.cell a id = Foa.cell b id := by
  unfold Foa.cell; rw [h.1, h.2.1, h.2.2]

/-- no two live blocks have the same address; addresses from `next` on are fresh; 0 is null -/
structure Heap.Ok (h : Heap) : Prop where
  nodup : (h.blocks.map Prod.fst).Nodup
  lt : ∀ b ∈ h.blocks, b.1 < h.next
  pos : ∀ b ∈ h.blocks, 0 < b.1
  next : 0 < h.next

/-- the live blocks are exactly those of `l` -/
structure Own (h : Heap) (l : List (Nat × Nat × Nat)) : Prop where
  ok : h.Ok
  perm : h.blocks.Perm l

theorem Own.congr {h : Heap} {l l' : List (Nat × Nat × Nat)} (ho : Own h l) (hp : l.Perm l') : Own h l' :=
  ⟨ho.ok, ho.perm.trans hp⟩

theorem Heap.Ok.free {h h' : Heap} {id al k : Nat} (ho : h.Ok) (hf : h.free id al k = some h') : h'.Ok := by
  unfold Heap.free at hf
  split at hf <;> cases hf
  exact ⟨ho.nodup.sublist ((List.erase_sublist).map _), fun b hb => ho.lt b (List.mem_of_mem_erase hb),
    fun b hb => ho.pos b (List.mem_of_mem_erase hb), ho.next⟩

theorem Heap.Ok.alloc {h : Heap} (ho : h.Ok) (al k : Nat) : (h.alloc al k).Ok := by
  refine ⟨?_, ?_, ?_, Nat.succ_pos _⟩
  · simp only [Heap.alloc, List.map_cons, List.nodup_cons]
    refine ⟨fun hc => ?_, ho.nodup⟩
    obtain ⟨b, hb, he⟩ := List.mem_map.1 hc
    have := ho.lt b hb
    omega
  · intro b hb
    rcases List.mem_cons.1 hb with rfl | hb
    · exact Nat.lt_succ_self _
    · exact Nat.lt_succ_of_lt (ho.lt b hb)
  · intro b hb
    rcases List.mem_cons.1 hb with rfl | hb
    · exact ho.next
    · exact ho.pos b hb

theorem newH_fst (cfg : Cfg) (al n : Nat) (h : Heap) : (newH cfg al n h : (Arrays K V × Nat) × Heap).1.1 = Arrays.new_ cfg al n := by
  unfold newH; simp only; split <;> rfl

theorem newH_own {cfg : Cfg} {al n : Nat} {h : Heap} {l : List (Nat × Nat × Nat)} (ho : Own h l) :
    Own (newH (K := K) (V := V) cfg al n h).2
      (cell (Arrays.new_ cfg al n : Arrays K V) (newH (K := K) (V := V) cfg al n h).1.2 ++ l) := by
  unfold newH cell
  simp only
  split
  · rename_i he
    refine ⟨ho.ok.alloc _ _, ?_⟩
    rw [new_al]
    exact ho.perm.cons _
  · exact ho

theorem deleteH_own {al : Nat} {a : Arrays K V} {id : Nat} {h : Heap} {l : List (Nat × Nat × Nat)}
    (ho : Own h (cell a id ++ l)) (hd : a.delete_ al = some ()) : ∃ h', deleteH al a id h = some h' ∧ Own h' l := by
  unfold Arrays.delete_ at hd
  unfold deleteH
  unfold cell at ho
  split at hd
  · cases hd
  · rename_i hn
    split
    · rename_i he
      simp only [he, true_and, ne_eq, not_not] at hn
      rw [if_pos he, hn] at ho
      have hm : (id, al, a.k) ∈ h.blocks := ho.perm.symm.subset (by simp)
      refine ⟨_, by unfold Heap.free; rw [if_pos hm], ?_, ?_⟩
      · exact ho.ok.free (by unfold Heap.free; rw [if_pos hm])
      · have := ho.perm.erase (id, al, a.k)
        simpa using this
    · rename_i he
      rw [if_neg he] at ho
      exact ⟨h, rfl, ho⟩

theorem delete_eq {al : Nat} {a : Arrays K V} {u : Unit} (h : a.delete_ al = some u) : a.delete_ al = some () := h

/-! ### Operations -/

namespace HTable

theorem destroy_own {t : HTable K V} {h : Heap} {l : List (Nat × Nat × Nat)} (ho : Own h (t.cells ++ l))
    (hd : t.t.destroy = some ()) : ∃ h', t.destroy h = some h' ∧ Own h' l := deleteH_own ho hd

theorem mk_own (cfg : Cfg) (f : Fns K) (al n : Nat) {h : Heap} {l : List (Nat × Nat × Nat)} (ho : Own h l) :
    (mk_ cfg f al n h : HTable K V × Heap).1.t = Table.mk_ cfg f al n ∧
    Own (mk_ cfg f al n h : HTable K V × Heap).2 ((mk_ cfg f al n h : HTable K V × Heap).1.cells ++ l) := by
  unfold mk_ Table.mk_ cells
  simp only [newH_fst]
  exact ⟨trivial, newH_own ho⟩

theorem uncheckedRehash_own {t : HTable K V} {new : Arrays K V} {id : Nat} {h : Heap} {l : List (Nat × Nat × Nat)}
    (ho : Own h (t.cells ++ (cell new id ++ l))) {t' : Table K V} (hb : t.t.uncheckedRehash new = some t') :
    ∃ t1 h', t.uncheckedRehash new id h = some (t1, h') ∧ t1.t = t' ∧ Own h' (t1.cells ++ l) := by
  unfold Table.uncheckedRehash at hb
  unfold uncheckedRehash
  split at hb
  · cases hb
  · rename_i a ha
    split at hb
    · cases hb
    · rename_i hd
      cases hb
      obtain ⟨h', h1, h2⟩ := deleteH_own ho hd
      simp only [ha, h1]
      refine ⟨_, _, rfl, rfl, ?_⟩
      unfold cells
      rw [(transferAll_same ha).cell]
      exact h2

theorem rot {α : Type} (a b c : List α) : (a ++ (b ++ c)).Perm (b ++ (a ++ c)) := by
  rw [← List.append_assoc, ← List.append_assoc]
  exact List.perm_append_comm.append_right _

theorem emplaceIntoNew_own {cfg : Cfg} {t : HTable K V} {x : K × V} {n : Nat} {h : Heap} {l : List (Nat × Nat × Nat)}
    (ho : Own h (t.cells ++ l)) {t' : Table K V} {p : Pos}
    (hb : t.t.emplaceIntoNew x (Arrays.new_ cfg t.t.al n) = some (t', p)) :
    ∃ t1 h', t.emplaceIntoNew cfg x n h = some ((t1, p), h') ∧ t1.t = t' ∧ Own h' (t1.cells ++ l) := by
  have hn := newH_own (K := K) (V := V) (cfg := cfg) (al := t.t.al) (n := n) ho
  have hf := newH_fst (K := K) (V := V) cfg t.t.al n h
  unfold emplaceIntoNew
  simp only
  rw [hf]
  revert hb hn
  generalize newH (K := K) (V := V) cfg t.t.al n h = r
  generalize (Arrays.new_ cfg t.t.al n : Arrays K V) = a0
  intro hb hn
  unfold Table.emplaceIntoNew at hb
  split at hb
  · cases hb
  · rename_i a q ha
    split at hb
    · cases hb
    · rename_i t2 h2
      cases hb
      rw [← (emplace_same ha).cell] at hn
      obtain ⟨t1, h', e1, e2, e3⟩ := uncheckedRehash_own (hn.congr (rot _ _ _)) h2
      simp only [ha, e1]
      exact ⟨_, _, rfl, by rw [e2], e3⟩

theorem emplaceWithRehash_own {cfg : Cfg} {t : HTable K V} {x : K × V} {h : Heap} {l : List (Nat × Nat × Nat)}
    (ho : Own h (t.cells ++ l)) {t' : Table K V} {p : Pos} (hb : t.t.emplaceWithRehash cfg x = some (t', p)) :
    ∃ t1 h', t.emplaceWithRehash cfg x h = some ((t1, p), h') ∧ t1.t = t' ∧ Own h' (t1.cells ++ l) :=
  emplaceIntoNew_own ho hb

theorem emplaceImpl_own {cfg : Cfg} {t : HTable K V} {x : K × V} {h : Heap} {l : List (Nat × Nat × Nat)}
    (ho : Own h (t.cells ++ l)) {t' : Table K V} {p : Pos} {b : Bool} (hb : t.t.emplaceImpl cfg x = some (t', p, b)) :
    ∃ t1 h', t.emplaceImpl cfg x h = some ((t1, p, b), h') ∧ t1.t = t' ∧ Own h' (t1.cells ++ l) := by
  unfold Table.emplaceImpl at hb
  unfold emplaceImpl
  split at hb
  · cases hb
  · rename_i q hq
    cases hb
    simp only [hq]
    exact ⟨_, _, rfl, rfl, ho⟩
  · rename_i hq
    simp only [hq]
    split at hb
    · rename_i hs
      simp only [hs, if_true]
      simp only [Option.map_eq_some_iff, Prod.mk.injEq] at hb
      obtain ⟨⟨t2, q⟩, h1, rfl, rfl, rfl⟩ := hb
      refine ⟨⟨t2, t.id⟩, h, by rw [h1]; rfl, rfl, ?_⟩
      unfold cells
      simp only
      rw [(uncheckedInsert_same h1).cell]
      exact ho
    · rename_i hs
      simp only [hs, if_false]
      simp only [Option.map_eq_some_iff, Prod.mk.injEq] at hb
      obtain ⟨⟨t2, q⟩, h1, rfl, rfl, rfl⟩ := hb
      obtain ⟨t1, h', e1, e2, e3⟩ := emplaceWithRehash_own ho h1
      exact ⟨t1, h', by rw [e1]; rfl, e2, e3⟩

theorem rehashTo_own {cfg : Cfg} {t : HTable K V} {n : Nat} {h : Heap} {l : List (Nat × Nat × Nat)}
    (ho : Own h (t.cells ++ l)) {t' : Table K V}
    (hb : (if n ≠ t.t.capacity then t.t.uncheckedRehash (Arrays.new_ cfg t.t.al n) else some t.t) = some t') :
    ∃ t1 h', t.rehashTo cfg n h = some (t1, h') ∧ t1.t = t' ∧ Own h' (t1.cells ++ l) := by
  have hn := newH_own (K := K) (V := V) (cfg := cfg) (al := t.t.al) (n := n) ho
  have hf := newH_fst (K := K) (V := V) cfg t.t.al n h
  unfold rehashTo
  simp only
  rw [hf]
  revert hb hn
  generalize newH (K := K) (V := V) cfg t.t.al n h = r
  generalize (Arrays.new_ cfg t.t.al n : Arrays K V) = a0
  intro hb hn
  split at hb
  · rename_i hc
    rw [if_pos hc]
    exact uncheckedRehash_own (hn.congr (rot _ _ _)) hb
  · rename_i hc
    rw [if_neg hc]
    cases hb
    exact ⟨_, _, rfl, rfl, ho⟩

theorem rehash_own {cfg : Cfg} {t : HTable K V} {n : Nat} {h : Heap} {l : List (Nat × Nat × Nat)}
    (ho : Own h (t.cells ++ l)) {t' : Table K V} (hb : t.t.rehash cfg n = some t') :
    ∃ t1 h', t.rehash cfg n h = some (t1, h') ∧ t1.t = t' ∧ Own h' (t1.cells ++ l) := rehashTo_own ho hb

theorem reserve_own {cfg : Cfg} {t : HTable K V} {n : Nat} {h : Heap} {l : List (Nat × Nat × Nat)}
    (ho : Own h (t.cells ++ l)) {t' : Table K V} (hb : t.t.reserve cfg n = some t') :
    ∃ t1 h', t.reserve cfg n h = some (t1, h') ∧ t1.t = t' ∧ Own h' (t1.cells ++ l) := rehash_own ho hb

theorem replaceArrays_own {cfg : Cfg} {t : HTable K V} {n : Nat} {h : Heap} {l : List (Nat × Nat × Nat)}
    (ho : Own h (t.cells ++ l)) {t' : Table K V}
    (hb : (if n > t.t.capacity then
        match t.t.arr.delete_ t.t.al with
        | none => none
        | some _ => some { t.t with arr := Arrays.new_ cfg t.t.al n, ml := Table.initMl (Arrays.new_ cfg t.t.al n : Arrays K V) }
      else some t.t) = some t') :
    ∃ t1 h', t.replaceArrays cfg n h = some (t1, h') ∧ t1.t = t' ∧ Own h' (t1.cells ++ l) := by
  have hn := newH_own (K := K) (V := V) (cfg := cfg) (al := t.t.al) (n := n) ho
  have hf := newH_fst (K := K) (V := V) cfg t.t.al n h
  unfold replaceArrays
  simp only
  rw [hf]
  revert hb hn
  generalize newH (K := K) (V := V) cfg t.t.al n h = r
  generalize (Arrays.new_ cfg t.t.al n : Arrays K V) = a0
  intro hb hn
  split at hb
  · rename_i hc2
    rw [if_pos hc2]
    split at hb
    · cases hb
    · rename_i hd
      cases hb
      obtain ⟨h', h1, h2⟩ := deleteH_own (hn.congr (rot _ _ _)) hd
      simp only [h1]
      exact ⟨_, _, rfl, rfl, h2⟩
  · rename_i hc2
    rw [if_neg hc2]
    cases hb
    exact ⟨_, _, rfl, rfl, ho⟩

theorem noshrinkReserve_own {cfg : Cfg} {t : HTable K V} {n : Nat} {h : Heap} {l : List (Nat × Nat × Nat)}
    (ho : Own h (t.cells ++ l)) {t' : Table K V} (hb : t.t.noshrinkReserve cfg n = some t') :
    ∃ t1 h', t.noshrinkReserve cfg n h = some (t1, h') ∧ t1.t = t' ∧ Own h' (t1.cells ++ l) := by
  unfold Table.noshrinkReserve at hb
  unfold noshrinkReserve
  by_cases hc : n ≠ 0
  · rw [if_pos hc] at hb ⊢
    exact replaceArrays_own ho hb
  · rw [if_neg hc] at hb ⊢
    cases hb
    exact ⟨_, _, rfl, rfl, ho⟩

theorem copyCtorN_own {cfg : Cfg} {x : HTable K V} {al n : Nat} {h : Heap} {l : List (Nat × Nat × Nat)}
    (ho : Own h l) {t' : Table K V} (hb : (Table.mk_ cfg x.t.fns al n).copyElementsFrom x.t = some t') :
    ∃ t1 h', x.copyCtorN cfg al n h = some (t1, h') ∧ t1.t = t' ∧ Own h' (t1.cells ++ l) := by
  unfold copyCtorN
  obtain ⟨h1, h2⟩ := mk_own (K := K) (V := V) cfg x.t.fns al n ho
  simp only [h1, hb]
  refine ⟨_, _, rfl, rfl, ?_⟩
  unfold cells at h2 ⊢
  simp only
  rw [(copyElementsFrom_same hb).cell, ← h1]
  exact h2

theorem copyCtor_own {cfg : Cfg} {x : HTable K V} {al : Nat} {h : Heap} {l : List (Nat × Nat × Nat)}
    (ho : Own h l) {t' : Table K V} (hb : x.t.copyCtor cfg al = some t') :
    ∃ t1 h', x.copyCtor cfg al h = some (t1, h') ∧ t1.t = t' ∧ Own h' (t1.cells ++ l) := copyCtorN_own ho hb

theorem moveCtor_own {cfg : Cfg} {x : HTable K V} {h : Heap} {l : List (Nat × Nat × Nat)} (ho : Own h (x.cells ++ l)) :
    (x.moveCtor cfg h).1.1.t = (x.t.moveCtor cfg).1 ∧ (x.moveCtor cfg h).1.2.t = (x.t.moveCtor cfg).2 ∧
    Own (x.moveCtor cfg h).2 ((x.moveCtor cfg h).1.1.cells ++ ((x.moveCtor cfg h).1.2.cells ++ l)) := by
  unfold moveCtor Table.moveCtor
  simp only [newH_fst, true_and]
  exact (newH_own ho).congr (rot _ _ _)

theorem moveCtorAlloc_own {cfg : Cfg} {x : HTable K V} {al : Nat} {h : Heap} {l : List (Nat × Nat × Nat)}
    (ho : Own h (x.cells ++ l)) {t' x' : Table K V} (hb : x.t.moveCtorAlloc cfg al = some (t', x')) :
    ∃ t1 x1 h', x.moveCtorAlloc cfg al h = some ((t1, x1), h') ∧ t1.t = t' ∧ x1.t = x' ∧
      Own h' (t1.cells ++ (x1.cells ++ l)) := by
  unfold Table.moveCtorAlloc at hb
  unfold moveCtorAlloc
  obtain ⟨h1, h2⟩ := mk_own (K := K) (V := V) cfg x.t.fns al 0 ho
  simp only [h1] at hb ⊢
  split at hb
  · rename_i hc
    rw [if_pos hc]
    cases hb
    refine ⟨_, _, _, rfl, rfl, rfl, ?_⟩
    rw [show (mk_ cfg x.t.fns al 0 h : HTable K V × Heap).1.cells =
      cell (Table.mk_ cfg x.t.fns al 0 : Table K V).arr (mk_ cfg x.t.fns al 0 h : HTable K V × Heap).1.id by
        unfold cells; rw [h1]] at h2
    exact h2.congr (rot _ _ _)
  · rename_i hc
    rw [if_neg hc]
    split at hb
    · cases hb
    · rename_i t2 hr
      split at hb
      · cases hb
      · rename_i t3 hi
        cases hb
        rw [← h1] at hr
        obtain ⟨t1, h', e1, e2, e3⟩ := reserve_own h2 hr
        simp only [e1, e2, hi]
        refine ⟨_, _, _, rfl, rfl, rfl, ?_⟩
        unfold cells at e3 ⊢
        simp only
        rw [(insertAll_same hi).cell, (clear_same _).cell, ← e2]
        exact e3

/-- the propagation part of `Table.copyAssign` -/
def assignAl (cfg : Cfg) (t x : Table K V) (n : Nat) : Option (Table K V) :=
  if cfg.pocca then
    if t.al ≠ x.al then
      let ah : Arrays K V := Arrays.new_ cfg x.al n
      match t.arr.delete_ t.al with
      | none => none
      | some _ => some { t with arr := ah, ml := Table.initMl ah, al := x.al }
    else some { t with al := x.al }
  else some t

/-- the rest of `Table.copyAssign` -/
def assignEnd (cfg : Cfg) (t x : Table K V) : Option (Table K V) :=
  match t.noshrinkReserve cfg x.size with
  | none => none
  | some t => t.copyElementsFrom x

theorem copyAssign_eq (cfg : Cfg) (t x : Table K V) : t.copyAssign cfg x =
    (match assignAl cfg { t.clear with fns := x.fns } x (slotsFor x.size) with
    | none => none
    | some t => assignEnd cfg t x) := rfl

theorem copyAssignAl_own {cfg : Cfg} {t x : HTable K V} {n : Nat} {h : Heap} {l : List (Nat × Nat × Nat)}
    (ho : Own h (t.cells ++ l)) {t' : Table K V} (hb : assignAl cfg t.t x.t n = some t') :
    ∃ t1 h', t.copyAssignAl cfg x n h = some (t1, h') ∧ t1.t = t' ∧ Own h' (t1.cells ++ l) := by
  have hn := newH_own (K := K) (V := V) (cfg := cfg) (al := x.t.al) (n := n) ho
  have hf := newH_fst (K := K) (V := V) cfg x.t.al n h
  unfold assignAl at hb
  unfold copyAssignAl
  simp only at hb ⊢
  rw [hf]
  revert hb hn
  generalize newH (K := K) (V := V) cfg x.t.al n h = r
  generalize (Arrays.new_ cfg x.t.al n : Arrays K V) = a0
  intro hn hb
  by_cases hp : cfg.pocca = true
  · rw [if_pos hp] at hb ⊢
    by_cases ha : t.t.al ≠ x.t.al
    · rw [if_pos ha] at hb ⊢
      split at hb
      · cases hb
      · rename_i hd
        cases hb
        obtain ⟨h', h1, h2⟩ := deleteH_own (hn.congr (rot _ _ _)) hd
        simp only [h1]
        exact ⟨_, _, rfl, rfl, h2⟩
    · rw [if_neg ha] at hb ⊢
      cases hb
      exact ⟨_, _, rfl, rfl, ho⟩
  · rw [if_neg hp] at hb ⊢
    cases hb
    exact ⟨_, _, rfl, rfl, ho⟩

theorem copyAssignEnd_own {cfg : Cfg} {t x : HTable K V} {h : Heap} {l : List (Nat × Nat × Nat)}
    (ho : Own h (t.cells ++ l)) {t' : Table K V} (hb : assignEnd cfg t.t x.t = some t') :
    ∃ t1 h', t.copyAssignEnd cfg x h = some (t1, h') ∧ t1.t = t' ∧ Own h' (t1.cells ++ l) := by
  unfold assignEnd at hb
  unfold copyAssignEnd
  split at hb
  · cases hb
  · rename_i t2 h2
    obtain ⟨t3, h', e1, e2, e3⟩ := noshrinkReserve_own ho h2
    simp only [e1, e2, hb]
    refine ⟨_, _, rfl, rfl, ?_⟩
    unfold cells at e3 ⊢
    simp only
    rw [(copyElementsFrom_same hb).cell, ← e2]
    exact e3

theorem copyAssign_own {cfg : Cfg} {t x : HTable K V} {h : Heap} {l : List (Nat × Nat × Nat)}
    (ho : Own h (t.cells ++ l)) {t' : Table K V} (hb : t.t.copyAssign cfg x.t = some t') :
    ∃ t1 h', t.copyAssign cfg x h = some (t1, h') ∧ t1.t = t' ∧ Own h' (t1.cells ++ l) := by
  rw [copyAssign_eq] at hb
  unfold copyAssign
  have ho' : Own h (cell t.t.clear.arr t.id ++ l) := by rw [(clear_same _).cell]; exact ho
  split at hb
  · cases hb
  · rename_i t2 h2
    obtain ⟨t3, h', e1, e2, e3⟩ := copyAssignAl_own (t := ⟨{ t.t.clear with fns := x.t.fns }, t.id⟩) ho' h2
    simp only [e1]
    rw [← e2] at hb
    exact copyAssignEnd_own e3 hb

theorem moveAssign_own {cfg : Cfg} {t x : HTable K V} {h : Heap} {l : List (Nat × Nat × Nat)}
    (ho : Own h (t.cells ++ (x.cells ++ l))) {t' x' : Table K V} (hb : t.t.moveAssign cfg x.t = some (t', x')) :
    ∃ t1 x1 h', t.moveAssign cfg x h = some ((t1, x1), h') ∧ t1.t = t' ∧ x1.t = x' ∧
      Own h' (t1.cells ++ (x1.cells ++ l)) := by
  unfold Table.moveAssign at hb
  unfold moveAssign
  have ho' : Own h (cell t.t.clear.arr t.id ++ (x.cells ++ l)) := by rw [(clear_same _).cell]; exact ho
  simp only at hb ⊢
  split at hb
  · rename_i hc
    rw [if_pos hc]
    split at hb
    · cases hb
    · rename_i hd
      cases hb
      obtain ⟨h', h1, h2⟩ := deleteH_own (((newH_own (K := K) (V := V) (cfg := cfg) (al := x.t.al)
        (n := 0) ho')).congr (rot _ _ _)) hd
      simp only [newH_fst, h1]
      exact ⟨_, _, _, rfl, rfl, rfl, h2.congr (rot _ _ _)⟩
  · rename_i hc
    rw [if_neg hc]
    split at hb
    · cases hb
    · rename_i t2 hr
      split at hb
      · cases hb
      · rename_i t3 hi
        cases hb
        obtain ⟨t1, h', e1, e2, e3⟩ := noshrinkReserve_own (t := ⟨{ t.t.clear with fns := x.t.fns }, t.id⟩) ho' hr
        simp only [e1, e2, hi]
        refine ⟨_, _, _, rfl, rfl, rfl, ?_⟩
        unfold cells at e3 ⊢
        simp only
        rw [(insertAll_same hi).cell, (clear_same _).cell, ← e2]
        exact e3

theorem swap_own {cfg : Cfg} {t x : HTable K V} {h : Heap} {l : List (Nat × Nat × Nat)}
    (ho : Own h (t.cells ++ (x.cells ++ l))) {t' x' : Table K V} (hb : t.t.swap cfg x.t = some (t', x')) :
    ∃ t1 x1, t.swap cfg x = some (t1, x1) ∧ t1.t = t' ∧ x1.t = x' ∧ Own h (t1.cells ++ (x1.cells ++ l)) := by
  unfold Table.swap at hb
  unfold swap
  split at hb
  · rename_i hc
    rw [if_pos hc]
    cases hb
    exact ⟨_, _, rfl, rfl, rfl, ho.congr (rot _ _ _)⟩
  · rename_i hc
    rw [if_neg hc]
    split at hb
    · rename_i ha
      rw [if_pos ha]
      cases hb
      exact ⟨_, _, rfl, rfl, rfl, ho.congr (rot _ _ _)⟩
    · cases hb

theorem swap_self_own {cfg : Cfg} {t : HTable K V} {h : Heap} {l : List (Nat × Nat × Nat)}
    (ho : Own h (t.cells ++ l)) {t' x' : Table K V} (hb : t.t.swap cfg t.t = some (t', x')) :
    ∃ t1 x1, t.swap cfg t = some (t1, x1) ∧ t1.t = t' ∧ x1.t = x' ∧ Own h (x1.cells ++ l) := by
  unfold Table.swap at hb
  unfold swap
  split at hb
  · rename_i hc
    rw [if_pos hc]
    cases hb
    exact ⟨_, _, rfl, rfl, rfl, ho⟩
  · rename_i hc
    rw [if_neg hc]
    simp only [if_true] at hb ⊢
    cases hb
    exact ⟨_, _, rfl, rfl, rfl, ho⟩

theorem mergeLoop_own {cfg : Cfg} : ∀ {ps : List Pos} {t x : HTable K V} {h : Heap} {l : List (Nat × Nat × Nat)}
    (_ : Own h (t.cells ++ (x.cells ++ l))) {t' x' : Table K V} (_ : Table.mergeLoop cfg ps t.t x.t = some (t', x')),
    ∃ t1 x1 h', mergeLoop cfg ps t x h = some ((t1, x1), h') ∧ t1.t = t' ∧ x1.t = x' ∧
      Own h' (t1.cells ++ (x1.cells ++ l)) := by
  intro ps
  induction ps with
  | nil =>
    intro t x h l ho t' x' hb
    cases hb
    exact ⟨_, _, _, rfl, rfl, rfl, ho⟩
  | cons p ps ih =>
    intro t x h l ho t' x' hb
    unfold Table.mergeLoop at hb
    unfold mergeLoop
    split at hb
    · cases hb
    · rename_i e he
      simp only [he]
      split at hb
      · cases hb
      · rename_i t2 q h2
        obtain ⟨t1, h', e1, e2, e3⟩ := emplaceImpl_own ho h2
        simp only [e1]
        split at hb
        · cases hb
        · rename_i x2 h3
          simp only [h3]
          rw [← e2] at hb
          refine ih (x := ⟨x2, x.id⟩) ?_ hb
          unfold cells at e3 ⊢
          simp only
          rw [(eraseAt_same h3).cell]
          exact e3
      · rename_i t2 q h2
        obtain ⟨t1, h', e1, e2, e3⟩ := emplaceImpl_own ho h2
        simp only [e1]
        rw [← e2] at hb
        exact ih e3 hb

theorem mergeSelfLoop_own {cfg : Cfg} : ∀ {ps : List Pos} {t : HTable K V} {h : Heap} {l : List (Nat × Nat × Nat)}
    (_ : Own h (t.cells ++ l)) {t' : Table K V} (_ : Table.mergeSelfLoop cfg ps t.t = some t'),
    ∃ t1 h', mergeSelfLoop cfg ps t h = some (t1, h') ∧ t1.t = t' ∧ Own h' (t1.cells ++ l) := by
  intro ps
  induction ps with
  | nil =>
    intro t h l ho t' hb
    cases hb
    exact ⟨_, _, rfl, rfl, ho⟩
  | cons p ps ih =>
    intro t h l ho t' hb
    unfold Table.mergeSelfLoop at hb
    unfold mergeSelfLoop
    split at hb
    · cases hb
    · rename_i e he
      simp only [he]
      split at hb
      · cases hb
      · rename_i t2 q h2
        obtain ⟨t1, h', e1, e2, e3⟩ := emplaceImpl_own ho h2
        simp only [e1]
        split at hb
        · cases hb
        · rename_i x2 h3
          rw [← e2] at h3
          simp only [h3]
          refine ih (t := ⟨x2, t1.id⟩) ?_ hb
          unfold cells at e3 ⊢
          simp only
          rw [(eraseAt_same h3).cell]
          exact e3
      · rename_i t2 q h2
        obtain ⟨t1, h', e1, e2, e3⟩ := emplaceImpl_own ho h2
        simp only [e1]
        rw [← e2] at hb
        exact ih e3 hb

theorem opInsert_own {cfg : Cfg} {t : HTable K V} {x : K × V} {h : Heap} {l : List (Nat × Nat × Nat)}
    (ho : Own h (t.cells ++ l)) {t' : Table K V} {r : Res K V} (hb : t.t.opInsert cfg x = some (t', r)) :
    ∃ t1 h', t.opInsert cfg x h = some ((t1, r), h') ∧ t1.t = t' ∧ Own h' (t1.cells ++ l) := by
  unfold Table.opInsert at hb
  unfold opInsert
  split at hb
  · cases hb
  · rename_i t2 p b h2
    obtain ⟨t1, h', e1, e2, e3⟩ := emplaceImpl_own ho h2
    simp only [e1]
    split at hb
    · cases hb
    · rename_i e he
      cases hb
      rw [← e2] at he
      simp only [he]
      exact ⟨_, _, rfl, e2, e3⟩

theorem insertRange_own {cfg : Cfg} : ∀ {xs : List (K × V)} {t : HTable K V} {h : Heap} {l : List (Nat × Nat × Nat)}
    (_ : Own h (t.cells ++ l)) {t' : Table K V} (_ : Table.insertRange cfg xs t.t = some t'),
    ∃ t1 h', insertRange cfg xs t h = some (t1, h') ∧ t1.t = t' ∧ Own h' (t1.cells ++ l) := by
  intro xs
  induction xs with
  | nil =>
    intro t h l ho t' hb
    cases hb
    exact ⟨_, _, rfl, rfl, ho⟩
  | cons x xs ih =>
    intro t h l ho t' hb
    unfold Table.insertRange at hb
    unfold insertRange
    split at hb
    · cases hb
    · rename_i t2 p b h2
      obtain ⟨t1, h', e1, e2, e3⟩ := emplaceImpl_own ho h2
      simp only [e1]
      rw [← e2] at hb
      exact ih e3 hb

theorem opInsertOrAssign_own {cfg : Cfg} {t : HTable K V} {k : K} {v : V} {h : Heap} {l : List (Nat × Nat × Nat)}
    (ho : Own h (t.cells ++ l)) {t' : Table K V} {r : Res K V} (hb : t.t.opInsertOrAssign cfg k v = some (t', r)) :
    ∃ t1 h', t.opInsertOrAssign cfg k v h = some ((t1, r), h') ∧ t1.t = t' ∧ Own h' (t1.cells ++ l) := by
  unfold Table.opInsertOrAssign at hb
  unfold opInsertOrAssign
  split at hb
  · cases hb
  · rename_i t2 p h2
    obtain ⟨t1, h', e1, e2, e3⟩ := emplaceImpl_own ho h2
    simp only [e1]
    split at hb
    · cases hb
    · rename_i e he
      cases hb
      rw [← e2] at he
      simp only [he]
      exact ⟨_, _, rfl, e2, e3⟩
  · rename_i t2 p h2
    obtain ⟨t1, h', e1, e2, e3⟩ := emplaceImpl_own ho h2
    simp only [e1]
    split at hb
    · cases hb
    · rename_i t3 h3
      split at hb
      · cases hb
      · rename_i e he
        cases hb
        rw [← e2] at h3
        simp only [h3, he]
        refine ⟨_, _, rfl, rfl, ?_⟩
        unfold cells at e3 ⊢
        simp only
        rw [(hassignAt_same h3).cell]
        exact e3

theorem opIndex_own {cfg : Cfg} {t : HTable K V} {k : K} {d : V} {h : Heap} {l : List (Nat × Nat × Nat)}
    (ho : Own h (t.cells ++ l)) {t' : Table K V} {r : Res K V} (hb : t.t.opIndex cfg k d = some (t', r)) :
    ∃ t1 h', t.opIndex cfg k d h = some ((t1, r), h') ∧ t1.t = t' ∧ Own h' (t1.cells ++ l) := by
  unfold Table.opIndex at hb
  unfold opIndex
  split at hb
  · cases hb
  · rename_i t2 p b h2
    obtain ⟨t1, h', e1, e2, e3⟩ := emplaceImpl_own ho h2
    simp only [e1]
    split at hb
    · cases hb
    · rename_i e he
      cases hb
      rw [← e2] at he
      simp only [he]
      exact ⟨_, _, rfl, e2, e3⟩

end HTable

/-! ### Programs -/

/-- the container variables a call uses -/
def opVars : Op K V → List Nat
  | .construct r _ _ _ _ | .insert r _ | .insertRange r _ | .insertOrAssign r _ _ | .index r _ _ | .at r _ | .find r _
  | .count r _ | .contains r _ | .erase r _ | .eraseIt r _ | .extract r _ | .eraseIf r _ | .eraseWalk r _ | .clear r
  | .rehash r _ | .reserve r _ | .size r | .isEmpty r | .iterate r => [r]
  | .copyConstruct r q _ | .moveConstruct r q | .moveConstructAlloc r q _ | .copyAssign r q | .moveAssign r q | .swap r q
  | .merge r q | .equal r q => [r, q]

/-- the blocks of the variables below `R` -/
def blocksOf (R : Nat) (s : Nat → HTable K V) : List (Nat × Nat × Nat) := (List.range R).flatMap (fun r => (s r).cells)

/-- the blocks of the variables in `l` except `r` -/
def others (l : List Nat) (r : Nat) (s : Nat → HTable K V) : List (Nat × Nat × Nat) :=
  (l.filter (fun i => decide (i ≠ r))).flatMap (fun i => (s i).cells)

theorem flatMap_split {l : List Nat} (hn : l.Nodup) {r : Nat} (hr : r ∈ l) (s : Nat → HTable K V) :
    (l.flatMap (fun i => (s i).cells)).Perm ((s r).cells ++ others l r s) := by
  induction l with
  | nil => cases hr
  | cons a l ih =>
    rw [List.nodup_cons] at hn
    unfold others
    by_cases h : a = r
    · subst h
      have : (a :: l).filter (fun i => decide (i ≠ a)) = l := by
        rw [List.filter_cons_of_neg (by simp)]
        exact List.filter_eq_self.2 (fun b hb => by
          simp only [ne_eq, decide_not, Bool.not_eq_eq_eq_not, Bool.not_true, decide_eq_false_iff_not]
          rintro rfl; exact hn.1 hb)
      rw [this]; exact List.Perm.refl _
    · have hr' : r ∈ l := by rcases List.mem_cons.1 hr with e | e; exact absurd e.symm h; exact e
      rw [List.filter_cons_of_pos (by simpa using h)]
      simp only [List.flatMap_cons]
      exact ((ih hn.2 hr').append_left _).trans (HTable.rot _ _ _)

theorem others_upd (l : List Nat) (r : Nat) (s : Nat → HTable K V) (x : HTable K V) :
    others l r (upd s r x) = others l r s := by
  unfold others
  rw [List.flatMap_def, List.flatMap_def]
  congr 1
  apply List.map_congr_left
  intro i hi
  have : i ≠ r := by simpa using (List.mem_filter.1 hi).2
  simp [upd, this]

theorem Own.split {R : Nat} {s : Nat → HTable K V} {h : Heap} (ho : Own h (blocksOf R s)) {r : Nat} (hr : r < R) :
    Own h ((s r).cells ++ others (List.range R) r s) :=
  ho.congr (flatMap_split List.nodup_range (List.mem_range.2 hr) s)

theorem Own.join {R : Nat} {s : Nat → HTable K V} {h : Heap} {r : Nat} (hr : r < R) {x : HTable K V}
    (ho : Own h (x.cells ++ others (List.range R) r s)) : Own h (blocksOf R (upd s r x)) := by
  refine ho.congr ?_
  have := flatMap_split List.nodup_range (List.mem_range.2 hr) (upd s r x)
  rw [others_upd] at this
  have hx : upd s r x r = x := by simp [upd]
  rw [hx] at this
  exact this.symm

theorem Own.split2 {R : Nat} {s : Nat → HTable K V} {h : Heap} (ho : Own h (blocksOf R s)) {r q : Nat} (hr : r < R)
    (hq : q < R) (hne : r ≠ q) :
    Own h ((s r).cells ++ ((s q).cells ++ others ((List.range R).filter (fun i => decide (i ≠ r))) q s)) :=
  (ho.split hr).congr (List.Perm.append_left _
    (flatMap_split (List.nodup_range.sublist List.filter_sublist) (by simp [hq, Ne.symm hne]) s))

theorem Own.join2 {R : Nat} {s : Nat → HTable K V} {h : Heap} {r q : Nat} (hr : r < R) (hq : q < R) (hne : r ≠ q)
    {x y : HTable K V}
    (ho : Own h (x.cells ++ (y.cells ++ others ((List.range R).filter (fun i => decide (i ≠ r))) q s))) :
    Own h (blocksOf R (upd (upd s r x) q y)) := by
  have hx : upd (upd s r x) q y r = x := by simp [upd, hne]
  have hy : upd (upd s r x) q y q = y := by simp [upd]
  refine ho.congr ?_
  have h1 := flatMap_split List.nodup_range (List.mem_range.2 hr) (upd (upd s r x) q y)
  have h2 := flatMap_split (List.nodup_range.sublist List.filter_sublist) (l := (List.range R).filter (fun i => decide (i ≠ r)))
    (r := q) (by simp [hq, Ne.symm hne]) (upd (upd s r x) q y)
  rw [hx] at h1
  rw [hy, others_upd] at h2
  have h3 : others ((List.range R).filter (fun i => decide (i ≠ r))) q (upd s r x) =
      others ((List.range R).filter (fun i => decide (i ≠ r))) q s := by
    unfold others
    rw [List.flatMap_def, List.flatMap_def]
    congr 1
    apply List.map_congr_left
    intro i hi
    have : i ≠ r := by simpa using (List.mem_filter.1 (List.mem_filter.1 hi).1).2
    simp [upd, this]
  rw [h3] at h2
  exact (h1.trans (List.Perm.append_left _ h2)).symm

/-- the containers without addresses -/
def HState.tables (s : HState K V) : Nat → Table K V := fun r => (s.1 r).t

theorem tables_upd (s : Nat → HTable K V) (h h' : Heap) (r : Nat) (x : HTable K V) :
    HState.tables (upd s r x, h) = upd (HState.tables (s, h')) r x.t := by
  funext i; simp only [HState.tables, upd]; split <;> rfl

theorem tables_upd2 (s : Nat → HTable K V) (h h' : Heap) (r q : Nat) (x y : HTable K V) :
    HState.tables (upd (upd s r x) q y, h) = upd (upd (HState.tables (s, h')) r x.t) q y.t := by
  rw [tables_upd _ _ h', tables_upd _ _ h']

theorem ctor_some {s s' : Nat → Table K V} {r : Nat} {x : Option (Table K V)} {o : Res K V}
    (h : ctor s r x = some (s', o)) : (s r).destroy = some () ∧ ∃ t, x = some t ∧ s' = upd s r t ∧ o = .unit := by
  unfold ctor at h
  split at h
  · cases h
  · rename_i hd
    simp only [Option.map_eq_some_iff, Prod.mk.injEq] at h
    obtain ⟨t, h1, h2, h3⟩ := h
    exact ⟨hd, t, h1, h2.symm, h3.symm⟩

theorem keep_own {R : Nat} {s : HState K V} (ho : Own s.2 (blocksOf R s.1)) {r : Nat} (hr : r < R)
    {x : Option (Table K V × Res K V)} {s' : Nat → Table K V} {o : Res K V}
    (hs : ∀ t r', x = some (t, r') → Same t.arr (s.1 r).t.arr) (h : on1 s.tables r x = some (s', o)) :
    ∃ S', keep s r x = some (S', o) ∧ S'.tables = s' ∧ Own S'.2 (blocksOf R S'.1) := by
  unfold on1 at h
  unfold keep
  simp only [Option.map_eq_some_iff, Prod.mk.injEq] at h
  obtain ⟨⟨t, r'⟩, h1, rfl, rfl⟩ := h
  subst h1
  refine ⟨_, rfl, tables_upd _ _ _ _ _, ?_⟩
  refine Own.join hr ?_
  have := ho.split hr
  unfold HTable.cells at this ⊢
  simp only
  rw [(hs _ _ rfl).cell]
  exact this

theorem hon1_own {R : Nat} {s : HState K V} (ho : Own s.2 (blocksOf R s.1)) {r : Nat} (hr : r < R)
    {x : Option (Table K V × Res K V)} {y : Option ((HTable K V × Res K V) × Heap)} {s' : Nat → Table K V} {o : Res K V}
    (hs : ∀ l t r', Own s.2 ((s.1 r).cells ++ l) → x = some (t, r') →
      ∃ t1 h', y = some ((t1, r'), h') ∧ t1.t = t ∧ Own h' (t1.cells ++ l))
    (h : on1 s.tables r x = some (s', o)) :
    ∃ S', hon1 s r y = some (S', o) ∧ S'.tables = s' ∧ Own S'.2 (blocksOf R S'.1) := by
  unfold on1 at h
  unfold hon1
  simp only [Option.map_eq_some_iff, Prod.mk.injEq] at h
  obtain ⟨⟨t, r'⟩, h1, rfl, rfl⟩ := h
  obtain ⟨t1, h', e1, rfl, e3⟩ := hs _ t r' (ho.split hr) h1
  subst e1
  exact ⟨_, rfl, tables_upd _ _ _ _ _, e3.join hr⟩

theorem hon2_own {R : Nat} {s : HState K V} (ho : Own s.2 (blocksOf R s.1)) {r q : Nat} (hr : r < R) (hq : q < R)
    (hne : r ≠ q) {x : Option (Table K V × Table K V)} {y : Option ((HTable K V × HTable K V) × Heap)}
    {s' : Nat → Table K V} {o : Res K V}
    (hs : ∀ l t t', Own s.2 ((s.1 r).cells ++ ((s.1 q).cells ++ l)) → x = some (t, t') →
      ∃ t1 x1 h', y = some ((t1, x1), h') ∧ t1.t = t ∧ x1.t = t' ∧ Own h' (t1.cells ++ (x1.cells ++ l)))
    (h : on2 s.tables r q x = some (s', o)) :
    ∃ S', hon2 s r q y = some (S', o) ∧ S'.tables = s' ∧ Own S'.2 (blocksOf R S'.1) := by
  unfold on2 at h
  unfold hon2
  simp only [Option.map_eq_some_iff, Prod.mk.injEq] at h
  obtain ⟨⟨t, t'⟩, h1, rfl, rfl⟩ := h
  obtain ⟨t1, x1, h', e1, rfl, rfl, e3⟩ := hs _ t t' (ho.split2 hr hq hne) h1
  subst e1
  exact ⟨_, rfl, tables_upd2 _ _ _ _ _ _ _, e3.join2 hr hq hne⟩

theorem hon0_own {R : Nat} {s : HState K V} (ho : Own s.2 (blocksOf R s.1)) {x : Option (Res K V)}
    {s' : Nat → Table K V} {o : Res K V} (h : on0 s.tables x = some (s', o)) :
    ∃ S', hon0 s x = some (S', o) ∧ S'.tables = s' ∧ Own S'.2 (blocksOf R S'.1) := by
  unfold on0 at h
  unfold hon0
  simp only [Option.map_eq_some_iff, Prod.mk.injEq] at h
  obtain ⟨o', h1, rfl, rfl⟩ := h
  subst h1
  exact ⟨_, rfl, rfl, ho⟩

theorem hstep_copyConstruct (c : MCfg) {R : Nat} {s : HState K V} (ho : Own s.2 (blocksOf R s.1)) {r q al : Nat}
    (hr : r < R) {s' : Nat → Table K V} {o : Res K V}
    (hb : ctor s.tables r ((s.1 q).t.copyCtor c.toCfg al) = some (s', o)) :
    ∃ S', (((s.1 r).destroy s.2).bind fun hp =>
        hon1 s r (((s.1 q).copyCtor c.toCfg al hp).map (fun y => ((y.1, Res.unit), y.2)))) = some (S', o) ∧
      S'.tables = s' ∧ Own S'.2 (blocksOf R S'.1) := by
  obtain ⟨hd, t, h1, h2, h3⟩ := ctor_some hb
  obtain ⟨h', e1, e2⟩ := HTable.destroy_own (ho.split hr) hd
  obtain ⟨t1, h2', e3, e4, e5⟩ := HTable.copyCtor_own (x := s.1 q) e2 h1
  refine ⟨(upd s.1 r t1, h2'), ?_, ?_, e5.join hr⟩
  · rw [e1, Option.bind_some, e3, h3]; rfl
  · rw [tables_upd _ _ s.2, e4, h2]

/-- If the call is defined when the heap is left out, it is defined with the heap, has the same effect on the containers, and
the live blocks afterwards are again exactly those of the containers. -/
theorem hstep_own (c : MCfg) (veq : K × V → K × V → Bool) {R : Nat} {s : HState K V} (ho : Own s.2 (blocksOf R s.1))
    (op : Op K V) (hv : ∀ r ∈ opVars op, r < R) (a : Nat → Spec.Obj K V) (hpre : Spec.Pre c.traits op a)
    {s' : Nat → Table K V} {o : Res K V} (hb : step c veq s.tables op = some (s', o)) :
    ∃ S', hstep c veq s op = some (S', o) ∧ S'.tables = s' ∧ Own S'.2 (blocksOf R S'.1) := by
  cases op with
  | construct r hs e al n =>
    obtain ⟨hd, t, h1, rfl, rfl⟩ := ctor_some hb
    cases h1
    have hr := hv r (by simp [opVars])
    obtain ⟨h', e1, e2⟩ := HTable.destroy_own (ho.split hr) hd
    obtain ⟨e3, e4⟩ := HTable.mk_own (K := K) (V := V) c.toCfg ⟨hs, e⟩ al n e2
    refine ⟨_, by simp only [hstep, e1]; rfl, ?_, e4.join hr⟩
    rw [tables_upd _ _ s.2, e3]
  | insert r x => exact hon1_own ho (hv r (by simp [opVars])) (fun l t r' h1 h2 => HTable.opInsert_own h1 h2) hb
  | insertRange r xs =>
    refine hon1_own ho (hv r (by simp [opVars])) (fun l t r' h1 h2 => ?_) hb
    simp only [Option.map_eq_some_iff, Prod.mk.injEq] at h2
    obtain ⟨t2, h2, rfl, rfl⟩ := h2
    obtain ⟨t1, h', e1, e2⟩ := HTable.insertRange_own h1 h2
    exact ⟨t1, h', by rw [e1]; rfl, e2⟩
  | insertOrAssign r k v =>
    exact hon1_own ho (hv r (by simp [opVars])) (fun l t r' h1 h2 => HTable.opInsertOrAssign_own h1 h2) hb
  | index r k d => exact hon1_own ho (hv r (by simp [opVars])) (fun l t r' h1 h2 => HTable.opIndex_own h1 h2) hb
  | «at» r k => exact hon0_own ho hb
  | find r k => exact hon0_own ho hb
  | count r k => exact hon0_own ho hb
  | contains r k => exact hon0_own ho hb
  | erase r k =>
    refine keep_own ho (hv r (by simp [opVars])) (fun t r' h => ?_) hb
    simp only [Option.map_eq_some_iff, Prod.mk.injEq] at h
    obtain ⟨⟨t2, n⟩, h1, rfl, rfl⟩ := h
    exact eraseKey_same h1
  | eraseIt r k =>
    refine keep_own ho (hv r (by simp [opVars])) (fun t r' h => ?_) hb
    simp only [Option.map_eq_some_iff, Prod.mk.injEq] at h
    obtain ⟨t2, h1, rfl, rfl⟩ := h
    exact opEraseIt_same h1
  | extract r k => exact keep_own ho (hv r (by simp [opVars])) (fun t r' h => opExtract_same h) hb
  | eraseIf r pr =>
    refine keep_own ho (hv r (by simp [opVars])) (fun t r' h => ?_) hb
    simp only [Table.eraseIf, Option.map_eq_some_iff, Prod.mk.injEq] at h
    obtain ⟨⟨t2, n⟩, ⟨t3, h1, h2⟩, rfl, rfl⟩ := h
    cases h2
    exact eraseIfLoop_same h1
  | eraseWalk r pr => exact keep_own ho (hv r (by simp [opVars])) (fun t r' h => opEraseWalk_same h) hb
  | clear r =>
    refine keep_own ho (hv r (by simp [opVars])) (fun t r' h => ?_) hb
    cases h
    exact clear_same _
  | rehash r n =>
    refine hon1_own ho (hv r (by simp [opVars])) (fun l t r' h1 h2 => ?_) hb
    simp only [Option.map_eq_some_iff, Prod.mk.injEq] at h2
    obtain ⟨t2, h2, rfl, rfl⟩ := h2
    obtain ⟨t1, h', e1, e2⟩ := HTable.rehash_own h1 h2
    exact ⟨t1, h', by rw [e1]; rfl, e2⟩
  | reserve r n =>
    refine hon1_own ho (hv r (by simp [opVars])) (fun l t r' h1 h2 => ?_) hb
    simp only [Option.map_eq_some_iff, Prod.mk.injEq] at h2
    obtain ⟨t2, h2, rfl, rfl⟩ := h2
    obtain ⟨t1, h', e1, e2⟩ := HTable.reserve_own h1 h2
    exact ⟨t1, h', by rw [e1]; rfl, e2⟩
  | copyConstruct r q al => exact hstep_copyConstruct c ho (hv r (by simp [opVars])) hb
  | moveConstruct r q =>
    have hne : r ≠ q := hpre
    have hr := hv r (by simp [opVars])
    have hq := hv q (by simp [opVars])
    simp only [step] at hb
    split at hb
    · cases hb
    · rename_i hd
      cases hb
      obtain ⟨h', e1, e2⟩ := HTable.destroy_own (ho.split2 hr hq hne) hd
      obtain ⟨e3, e4, e5⟩ := HTable.moveCtor_own (cfg := c.toCfg) e2
      refine ⟨_, by simp only [hstep, e1]; rfl, ?_, e5.join2 hr hq hne⟩
      rw [tables_upd2 _ _ s.2, e3, e4]; rfl
  | moveConstructAlloc r q al =>
    have hne : r ≠ q := hpre
    have hr := hv r (by simp [opVars])
    have hq := hv q (by simp [opVars])
    simp only [step] at hb
    split at hb
    · cases hb
    · rename_i hd
      simp only [on2, Option.map_eq_some_iff, Prod.mk.injEq] at hb
      obtain ⟨⟨t2, x2⟩, h1, rfl, rfl⟩ := hb
      obtain ⟨h', e1, e2⟩ := HTable.destroy_own (ho.split2 hr hq hne) hd
      obtain ⟨t1, x1, h2, e3, rfl, rfl, e5⟩ := HTable.moveCtorAlloc_own (cfg := c.toCfg) e2 h1
      refine ⟨_, by simp only [hstep, e1, Option.bind_some, e3]; rfl, ?_, e5.join2 hr hq hne⟩
      rw [tables_upd2 _ _ s.2]
  | copyAssign r q =>
    simp only [step] at hb
    simp only [hstep]
    split at hb
    · rename_i he
      rw [if_pos he]
      cases hb
      exact ⟨_, rfl, rfl, ho⟩
    · rename_i he
      rw [if_neg he]
      refine hon1_own ho (hv r (by simp [opVars])) (fun l t r' h1 h2 => ?_) hb
      simp only [Option.map_eq_some_iff, Prod.mk.injEq] at h2
      obtain ⟨t2, h2, rfl, rfl⟩ := h2
      obtain ⟨t1, h', e1, e2⟩ := HTable.copyAssign_own (x := s.1 q) h1 h2
      exact ⟨t1, h', by rw [e1]; rfl, e2⟩
  | moveAssign r q =>
    simp only [step] at hb
    simp only [hstep]
    split at hb
    · rename_i he
      rw [if_pos he]
      cases hb
      exact ⟨_, rfl, rfl, ho⟩
    · rename_i he
      rw [if_neg he]
      exact hon2_own ho (hv r (by simp [opVars])) (hv q (by simp [opVars])) he
        (fun l t t' h1 h2 => HTable.moveAssign_own h1 h2) hb
  | swap r q =>
    have hr := hv r (by simp [opVars])
    have hq := hv q (by simp [opVars])
    by_cases hne : r = q
    · subst hne
      simp only [step, on2, Option.map_eq_some_iff, Prod.mk.injEq] at hb
      obtain ⟨⟨t2, x2⟩, h1, rfl, rfl⟩ := hb
      obtain ⟨t1, x1, e1, rfl, rfl, e4⟩ := HTable.swap_self_own (ho.split hr) h1
      refine ⟨_, by simp only [hstep, e1]; rfl, tables_upd2 _ _ _ _ _ _ _, ?_⟩
      have : upd (upd s.1 r t1) r x1 = upd s.1 r x1 := by funext i; simp only [upd]; split <;> rfl
      simp only [this]
      exact e4.join hr
    · refine hon2_own ho hr hq hne (fun l t t' h1 h2 => ?_) hb
      obtain ⟨t1, x1, e1, e2⟩ := HTable.swap_own h1 h2
      exact ⟨t1, x1, s.2, by rw [e1]; rfl, e2⟩
  | merge r q =>
    have hr := hv r (by simp [opVars])
    have hq := hv q (by simp [opVars])
    simp only [step] at hb
    simp only [hstep]
    split at hb
    · rename_i he
      rw [if_pos he]
      refine hon1_own ho hr (fun l t r' h1 h2 => ?_) hb
      simp only [Option.map_eq_some_iff, Prod.mk.injEq] at h2
      obtain ⟨t2, h2, rfl, rfl⟩ := h2
      obtain ⟨t1, h', e1, e2⟩ := HTable.mergeSelfLoop_own h1 h2
      exact ⟨t1, h', by simp only [HState.tables] at e1; rw [e1]; rfl, e2⟩
    · rename_i he
      rw [if_neg he]
      exact hon2_own ho hr hq he (fun l t t' h1 h2 => HTable.mergeLoop_own h1 h2) hb
  | size r => cases hb; exact ⟨_, rfl, rfl, ho⟩
  | isEmpty r => cases hb; exact ⟨_, rfl, rfl, ho⟩
  | iterate r => exact hon0_own ho hb
  | equal r q => exact hon0_own ho hb

theorem hrun_own (c : MCfg) (veq : K × V → K × V → Bool) {R : Nat} : ∀ (ops : List (Op K V)) (s : HState K V)
    (a : Nat → Spec.Obj K V) (s' : Nat → Table K V) (outs : List (Res K V)), Own s.2 (blocksOf R s.1) →
    (∀ op ∈ ops, ∀ r ∈ opVars op, r < R) → RS s.tables a → Spec.PreAll c.traits veq ops a →
    run c veq ops s.tables = some (s', outs) →
    ∃ S', hrun c veq ops s = some (S', outs) ∧ S'.tables = s' ∧ Own S'.2 (blocksOf R S'.1) := by
  intro ops
  induction ops with
  | nil =>
    intro s a s' outs ho _ _ _ h
    cases h
    exact ⟨_, rfl, rfl, ho⟩
  | cons op ops ih =>
    intro s a s' outs ho hv hr hp h
    obtain ⟨s1, o1, e1, _, e3⟩ := step_refines c veq hr op hp.1
    obtain ⟨S1, f1, rfl, f3⟩ := hstep_own c veq ho op (hv op (by simp)) a hp.1 e1
    simp only [run, e1, Option.map_eq_some_iff, Prod.mk.injEq] at h
    obtain ⟨⟨s2, outs2⟩, g1, rfl, rfl⟩ := h
    obtain ⟨S2, k1, k2, k3⟩ := ih S1 _ _ _ f3 (fun op h => hv op (by simp [h])) e3 hp.2 g1
    refine ⟨S2, ?_, k2, k3⟩
    simp only [hrun, f1, k1]
    rfl

theorem hstart_own (c : MCfg) (hs : K → Nat) (e : K → K → Bool) : ∀ R, (hstart c hs e R : HState K V).tables = start c hs e ∧
    Own (hstart c hs e R : HState K V).2 (blocksOf R (hstart c hs e R : HState K V).1) := by
  intro R
  induction R with
  | zero => exact ⟨rfl, ⟨by simp [hstart], by simp [hstart], by simp [hstart], by simp [hstart]⟩, List.Perm.refl _⟩
  | succ R ih =>
    obtain ⟨h1, h2⟩ := ih
    obtain ⟨h3, h4⟩ := HTable.mk_own (K := K) (V := V) c.toCfg ⟨hs, e⟩ 0 0 h2
    constructor
    · simp only [hstart]
      rw [tables_upd _ _ (hstart c hs e R).2, h3, h1]
      funext i
      simp only [upd, start]
      split <;> rfl
    · refine h4.congr ?_
      have hsame : blocksOf R (hstart c hs e (R + 1) : HState K V).1 = blocksOf R (hstart c hs e R : HState K V).1 := by
        unfold blocksOf
        rw [List.flatMap_def, List.flatMap_def]
        congr 1
        apply List.map_congr_left
        intro i hi
        have : i ≠ R := Nat.ne_of_lt (List.mem_range.1 hi)
        simp [hstart, upd, this]
      have hlast : (hstart c hs e (R + 1) : HState K V).1 R = (HTable.mk_ c.toCfg ⟨hs, e⟩ 0 0 (hstart c hs e R : HState K V).2).1 := by
        simp [hstart, upd]
      rw [show blocksOf (R + 1) (hstart c hs e (R + 1) : HState K V).1 =
        blocksOf R (hstart c hs e (R + 1) : HState K V).1 ++ ((hstart c hs e (R + 1) : HState K V).1 R).cells by
          unfold blocksOf; rw [List.range_succ]; simp]
      rw [hsame, hlast]
      exact List.perm_append_comm

theorem hfinish_own {s : Nat → HTable K V} : ∀ (R : Nat) (h : Heap), Own h (blocksOf R s) →
    (∀ r, (s r).t.destroy = some ()) → ∃ h', hfinish s R h = some h' ∧ h'.blocks = [] := by
  intro R
  induction R with
  | zero => intro h ho _; exact ⟨h, rfl, List.Perm.eq_nil ho.perm⟩
  | succ R ih =>
    intro h ho hd
    have ho' : Own h ((s R).cells ++ blocksOf R s) := by
      refine ho.congr ?_
      unfold blocksOf
      rw [List.range_succ, List.flatMap_append]
      simpa using List.perm_append_comm
    obtain ⟨h1, e1, e2⟩ := HTable.destroy_own ho' (hd R)
    obtain ⟨h2, e3, e4⟩ := ih h1 e2 hd
    exact ⟨h2, by simp only [hfinish, e1]; exact e3, e4⟩

end Foa

/-
Counting consequences of the accounting invariant of a concurrent table. Lemmas only; the model is `Verif.Conc.Table`.
-/
import Verif.Conc.TabInv

namespace Conc.Tab
open Foa
open Conc.Locking (Mode)

variable {K V : Type}

/-- The thread's reservation has been granted and not yet turned into an element or given back. -/
def Pc.granted : Pc K V → Bool
  | .insLock _ _ _ | .insFind _ _ _ | .insNext _ _ _ | .insInc _ _ _ _ | .rollReset _ _ _
  | .rollUnlock _ _ | .rollSize _ => true
  | _ => false

def Item.isEr : Item → Bool
  | .er _ _ => true
  | _ => false

theorem pend_le : ∀ l : List Item, (∀ u d, Item.er u d ∈ l → d ≤ 1) → pend l ≤ (l.filter Item.isEr).length
  | [], _ => by simp [pend]
  | x :: l, hl => by
    have := pend_le l (fun u d hm => hl u d (List.mem_cons_of_mem _ hm))
    rw [List.filter_cons]
    cases x with
    | elem g j => simp [pend, Item.one, Item.isEr] at this ⊢; omega
    | res u => simp [pend, Item.one, Item.isEr] at this ⊢; omega
    | er u d =>
      have h2 := hl u d List.mem_cons_self
      simp [pend, Item.one, Item.isEr] at this ⊢; omega

/-- What counts towards `ml`. -/
def Item.counted (pc : Nat → Pc K V) : Item → Bool
  | .res t => (pc t).granted
  | _ => true

theorem Acct.counted {m : Mem K V} {pc : Nat → Pc K V} {L : List Item} (h : Acct m pc L) {Q : List Item} (hn : Q.Nodup)
    (hq : ∀ x ∈ Q, x ∈ L ∧ x.counted pc = true) : Q.length ≤ m.tab.ml + pend L := by
  have h1 : (L.filter (Item.counted pc)).length ≤ m.tab.ml + pend L := by
    refine h.rank.length_le fun x hx hp => ?_
    cases x with
    | elem g j => exact ⟨_, rfl, le_rfl⟩
    | er u d => exact ⟨_, rfl, le_rfl⟩
    | res u =>
      refine ⟨m.tab.ml + pend L, ?_, le_rfl⟩
      simp only [Item.counted] at hp
      simp only [bound]
      revert hp
      cases pc u <;> intro hp <;> first | rfl | cases hp
  refine le_trans ?_ h1
  refine (List.subperm_of_subset hn fun x hx => ?_).length_le
  exact List.mem_filter.2 (hq x hx)

theorem granted_hasRes {p : Pc K V} (h : p.granted = true) : p.hasRes = true := by
  revert h; cases p <;> intro h <;> first | rfl | cases h

/-- Elements and granted reservations together never exceed `ml`. -/
theorem SBase.count_le {s : State K V} (hi : SBase s) {P : List (Nat × Nat)} {T : List Nat} (hP : P.Nodup) (hT : T.Nodup)
    (hp : ∀ p ∈ P, ∃ x, s.mem.slot p.1 p.2 = some x) (ht : ∀ t ∈ T, (s.pc t).granted = true) :
    P.length + T.length ≤ s.mem.tab.ml := by
  obtain ⟨L, hL⟩ := hi.acct
  have hd : ∀ u d, Item.er u d ∈ L → d ≤ 1 := fun u d hm => er_le_one (hi.pcs u) d ((hL.er u d).1 hm)
  have h1 := pend_le L hd
  have h2 := hL.counted (Q := (P.map fun p => Item.elem p.1 p.2) ++ (T.map Item.res ++ L.filter Item.isEr)) (by
    refine List.Nodup.append ?_ (List.Nodup.append ?_ (hL.nodup.filter _) ?_) ?_
    · refine (List.nodup_map_iff_inj_on hP).2 ?_
      rintro ⟨a, b⟩ _ ⟨c, d⟩ _ h
      cases h; rfl
    · exact (List.nodup_map_iff_inj_on hT).2 fun a _ b _ h => by cases h; rfl
    · intro x hx hy
      obtain ⟨a, _, rfl⟩ := List.mem_map.1 hx
      simp [Item.isEr] at hy
    · intro x hx hy
      obtain ⟨a, _, rfl⟩ := List.mem_map.1 hx
      rcases List.mem_append.1 hy with hy | hy
      · obtain ⟨b, _, hb⟩ := List.mem_map.1 hy
        cases hb
      · simp [Item.isEr] at hy) (by
    intro x hx
    rcases List.mem_append.1 hx with hx | hx
    · obtain ⟨p, hp', rfl⟩ := List.mem_map.1 hx
      exact ⟨(hL.elem _ _).2 (hp p hp'), rfl⟩
    · rcases List.mem_append.1 hx with hx | hx
      · obtain ⟨t, ht', rfl⟩ := List.mem_map.1 hx
        exact ⟨(hL.res t).2 (granted_hasRes (ht t ht')), ht t ht'⟩
      · obtain ⟨h3, h4⟩ := List.mem_filter.1 hx
        refine ⟨h3, ?_⟩
        cases x <;> first | rfl | cases h4)
  simp only [List.length_append, List.length_map] at h2
  omega

/-- The item that stands for an occupied slot. -/
theorem occ_item {s : State K V} (hi : SBase s) {L : List Item} (hL : Acct s.mem s.pc L) {g j : Nat}
    (hv : Valid s.mem.tab.arr.k g j) (he : s.mem.tab.arr.hasElems = true) (hm : (s.mem.grp g).md j ≠ 0) :
    ∃ x ∈ L, x.counted s.pc = true ∧ (x = .elem g j ∨
      ∃ u, (s.pc u).owns = some (g, j) ∧ (x = .res u ∨ ∃ d, x = .er u d)) := by
  rcases (hi.shape.of_elems he).cell g j hv with ⟨h1, _⟩ | ⟨y, h1, _⟩ | ⟨_, _, u, hu⟩
  · exact absurd h1 hm
  · exact ⟨_, (hL.elem g j).2 ⟨y, h1⟩, rfl, .inl rfl⟩
  · generalize hq : s.pc u = p at hu
    cases p with
    | insInc o c pb i =>
      exact ⟨.res u, (hL.res u).2 (by rw [hq]; rfl), by simp only [Item.counted, hq]; rfl, .inr ⟨u, by rw [hq]; exact hu, .inl rfl⟩⟩
    | rollReset o pb i =>
      exact ⟨.res u, (hL.res u).2 (by rw [hq]; rfl), by simp only [Item.counted, hq]; rfl, .inr ⟨u, by rw [hq]; exact hu, .inl rfl⟩⟩
    | eraseReset g' j' d cont =>
      exact ⟨.er u d, (hL.er u d).2 (by rw [hq]; rfl), rfl, .inr ⟨u, by rw [hq]; exact hu, .inr ⟨d, rfl⟩⟩⟩
    | _ => cases hu

/-- A thread with a granted reservation that holds no slot yet: some slot is free. -/
theorem SBase.free {s : State K V} (hi : SBase s) {t : Nat} (hg : (s.pc t).granted = true) (ho : (s.pc t).owns = none)
    (he : s.mem.tab.arr.hasElems = true) : ∃ g j, Valid s.mem.tab.arr.k g j ∧ (s.mem.grp g).md j = 0 := by
  by_contra hno
  push Not at hno
  obtain ⟨L, hL⟩ := hi.acct
  have hfull : ∀ g < 2 ^ s.mem.tab.arr.k, (s.mem.tab.arr.grp g).availSlots = [] := by
    intro g hgl
    rw [List.eq_nil_iff_forall_not_mem]
    intro j hj
    obtain ⟨h1, h2⟩ := mem_availSlots.1 hj
    refine hno g j ⟨hgl, h1, ?_⟩ h2
    rintro ⟨rfl, rfl⟩
    rw [(hi.shape.of_elems he).sent] at h2
    cases h2
  have hlen := full_length he hfull
  have hch : ∀ p : Pos, ∃ x, p ∈ s.mem.tab.arr.occ → x ∈ L ∧ x.counted s.pc = true ∧ (x = Item.elem p.1 p.2 ∨
      ∃ u, (s.pc u).owns = some (p.1, p.2) ∧ (x = .res u ∨ ∃ d, x = .er u d)) := by
    intro p
    by_cases hp : p ∈ s.mem.tab.arr.occ
    · obtain ⟨_, hv, hm⟩ := mem_occ_iff.1 hp
      obtain ⟨x, h1, h2, h3⟩ := occ_item hi hL hv he hm
      exact ⟨x, fun _ => ⟨h1, h2, h3⟩⟩
    · exact ⟨.res 0, fun h => absurd h hp⟩
  choose f hf using hch
  have h2 := hL.counted (Q := .res t :: s.mem.tab.arr.occ.map f) (by
    rw [List.nodup_cons]
    constructor
    · intro hm
      obtain ⟨p, hp, hpe⟩ := List.mem_map.1 hm
      rcases (hf p hp).2.2 with h | ⟨u, hu, h | ⟨d, h⟩⟩
      · rw [h] at hpe; cases hpe
      · rw [h] at hpe; cases hpe
        rw [ho] at hu; cases hu
      · rw [h] at hpe; cases hpe
    · refine (List.nodup_map_iff_inj_on (nodup_occ _)).2 ?_
      rintro ⟨pa, pb⟩ hp ⟨qa, qb⟩ hq heq
      rcases (hf _ hp).2.2 with h | ⟨u, hu, h | ⟨d, h⟩⟩ <;> rcases (hf _ hq).2.2 with h' | ⟨u', hu', h' | ⟨d', h'⟩⟩ <;>
        rw [h, h'] at heq <;> cases heq
      · rfl
      · rw [hu] at hu'; cases hu'; rfl
      · rw [hu] at hu'; cases hu'; rfl) (by
    intro x hx
    rcases List.mem_cons.1 hx with rfl | hx
    · exact ⟨(hL.res t).2 (granted_hasRes hg), hg⟩
    · obtain ⟨p, hp, rfl⟩ := List.mem_map.1 hx
      exact ⟨(hf p hp).1, (hf p hp).2.1⟩)
  have h3 := hL.capLe
  simp only [List.length_cons, List.length_map, Table.capacity, Arrays.capacity, he, if_true] at h2 h3
  omega

end Conc.Tab

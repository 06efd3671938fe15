/-
Accounting for the size counter of a concurrent table: the counter is the length of a list of everything counted, in the order
it was counted. Lemmas only; the model is `Verif.Conc.Table`.
-/
import Verif.Conc.TabMem

namespace Conc.Tab
open Foa
open Conc.Locking (Mode)

variable {K V : Type}

/-- What the size counter counts: an element, a reservation of a thread, an erasure of a thread not yet subtracted. -/
inductive Item where
  | elem (g j : Nat)
  | res (t : Nat)
  | er (t d : Nat)
deriving DecidableEq

def Item.one : Item → Nat
  | .er _ d => d
  | _ => 0

def Item.notRes : Item → Bool
  | .res _ => false
  | _ => true

/-- How much `ml` has been lowered for erasures not yet subtracted from the size. -/
def pend (L : List Item) : Nat := (L.map Item.one).sum

/-- Every item with a bound is at most that far from the end of the list. -/
def Ranked (b : Item → Option Nat) : List Item → Prop
  | [] => True
  | x :: L => (∀ n, b x = some n → L.length + 1 ≤ n) ∧ Ranked b L

theorem Ranked.weaken {b b' : Item → Option Nat} : ∀ {L : List Item}, Ranked b L →
    (∀ x ∈ L, ∀ n', b' x = some n' → ∃ n, b x = some n ∧ n ≤ n') → Ranked b' L
  | [], _, _ => trivial
  | x :: L, h, hw => by
    refine ⟨fun n' hn' => ?_, Ranked.weaken h.2 (fun y hy => hw y (List.mem_cons_of_mem _ hy))⟩
    obtain ⟨n, hn, hle⟩ := hw x List.mem_cons_self n' hn'
    exact (h.1 n hn).trans hle

theorem Ranked.length_le {b : Item → Option Nat} {n : Nat} {p : Item → Bool} : ∀ {L : List Item}, Ranked b L →
    (∀ x ∈ L, p x = true → ∃ m, b x = some m ∧ m ≤ n) → (L.filter p).length ≤ n
  | [], _, _ => by simp
  | x :: L, h, hw => by
    rw [List.filter_cons]
    split
    · rename_i hp
      obtain ⟨m, hm, hle⟩ := hw x List.mem_cons_self hp
      have := h.1 m hm
      have h2 := List.length_filter_le p L
      simp only [List.length_cons]
      omega
    · exact Ranked.length_le h.2 (fun y hy => hw y (List.mem_cons_of_mem _ hy))

theorem Ranked.replace {b b' : Item → Option Nat} {x y : Item} {B : List Item} : ∀ {A : List Item}, Ranked b (A ++ x :: B) →
    (∀ z, z ∈ A ∨ z ∈ B → ∀ n', b' z = some n' → ∃ n, b z = some n ∧ n ≤ n') →
    (∀ n', b' y = some n' → ∃ n, b x = some n ∧ n ≤ n') → Ranked b' (A ++ y :: B)
  | [], h, hw, hy => by
    refine ⟨fun n' hn' => ?_, Ranked.weaken h.2 (fun z hz => hw z (.inr hz))⟩
    obtain ⟨n, hn, hle⟩ := hy n' hn'
    exact (h.1 n hn).trans hle
  | a :: A, h, hw, hy => by
    refine ⟨fun n' hn' => ?_, Ranked.replace h.2
      (fun z hz => hw z (hz.imp (List.mem_cons_of_mem _) id)) hy⟩
    obtain ⟨n, hn, hle⟩ := hw a (.inl List.mem_cons_self) n' hn'
    have h1 : (A ++ x :: B).length + 1 ≤ n := h.1 n hn
    show (A ++ y :: B).length + 1 ≤ n'
    simp only [List.length_append, List.length_cons] at h1 ⊢
    omega

theorem Ranked.remove {b b' : Item → Option Nat} {x : Item} {B : List Item} : ∀ {A : List Item}, Ranked b (A ++ x :: B) →
    (∀ z ∈ A, ∀ n', b' z = some n' → ∃ n, b z = some n ∧ n ≤ n' + 1) →
    (∀ z ∈ B, ∀ n', b' z = some n' → (∃ n, b z = some n ∧ n ≤ n') ∨ (∃ n, b x = some n ∧ n ≤ n' + 1)) →
    Ranked b' (A ++ B)
  | [], h, _, hw => by
    have key : ∀ B', Ranked b B' → B'.length ≤ B.length → (∀ z ∈ B', z ∈ B) → Ranked b' B' := by
      intro B'
      induction B' with
      | nil => intros; trivial
      | cons z B' ih =>
        intro hr hl hm
        simp only [List.length_cons] at hl
        refine ⟨fun n' hn' => ?_, ih hr.2 (by omega) (fun y hy => hm y (List.mem_cons_of_mem _ hy))⟩
        rcases hw z (hm z List.mem_cons_self) n' hn' with ⟨n, hn, hle⟩ | ⟨n, hn, hle⟩
        · exact (hr.1 n hn).trans hle
        · have := h.1 n hn
          omega
    exact key B h.2 le_rfl (fun _ hz => hz)
  | a :: A, h, hA, hw => by
    refine ⟨fun n' hn' => ?_, Ranked.remove h.2 (fun z hz => hA z (List.mem_cons_of_mem _ hz)) hw⟩
    obtain ⟨n, hn, hle⟩ := hA a List.mem_cons_self n' hn'
    have h1 : (A ++ x :: B).length + 1 ≤ n := h.1 n hn
    show (A ++ B).length + 1 ≤ n'
    simp only [List.length_append, List.length_cons] at h1 ⊢
    omega

/-- The thread holds a reservation. -/
def Pc.hasRes : Pc K V → Bool
  | .test _ _ _ | .failSize _ | .insLock _ _ _ | .insFind _ _ _ | .insNext _ _ _ | .insInc _ _ _ _ | .rollReset _ _ _
  | .rollUnlock _ _ | .rollSize _ => true
  | _ => false

/-- What is known about the rank of the reservation, `b` being the bound for those granted. -/
def Pc.resBound (b : Nat) : Pc K V → Option Nat
  | .test _ _ n => some n
  | .failSize _ => none
  | _ => some b

/-- The thread has destroyed an element and not yet lowered the size. -/
def Pc.er : Pc K V → Option Nat
  | .eraseReset _ _ d _ | .eraseSize _ d _ => some d
  | _ => none

def bound (b : Nat) (pc : Nat → Pc K V) : Item → Option Nat
  | .res t => (pc t).resBound b
  | _ => some b

structure Acct (m : Mem K V) (pc : Nat → Pc K V) (L : List Item) : Prop where
  nodup : L.Nodup
  elem : ∀ g j, Item.elem g j ∈ L ↔ ∃ x, m.slot g j = some x
  res : ∀ t, Item.res t ∈ L ↔ (pc t).hasRes = true
  er : ∀ t d, Item.er t d ∈ L ↔ (pc t).er = some d
  size : m.tab.size = L.length
  rank : Ranked (bound (m.tab.ml + pend L) pc) L
  cap : m.tab.ml + pend L ≤ Table.initMl m.tab.arr

theorem Acct.capLe {m : Mem K V} {pc : Nat → Pc K V} {L : List Item} (h : Acct m pc L) :
    m.tab.ml + pend L ≤ m.tab.capacity := h.cap.trans (initMl_le _)

/-- Thread `t` moves to `p`. -/
def upd (pc : Nat → Pc K V) (t : Nat) (p : Pc K V) : Nat → Pc K V := fun u => if u = t then p else pc u

@[simp] theorem upd_self (pc : Nat → Pc K V) (t : Nat) (p : Pc K V) : upd pc t p t = p := by simp [upd]
theorem upd_of_ne (pc : Nat → Pc K V) {t u : Nat} (h : u ≠ t) (p : Pc K V) : upd pc t p u = pc u := by simp [upd, h]

namespace Acct
variable {m m' : Mem K V} {pc : Nat → Pc K V} {L : List Item} {t : Nat} {p : Pc K V}

/-- nothing counted or subtracted -/
theorem same (h : Acct m pc L) (hs : ∀ g j, (∃ x, m'.slot g j = some x) ↔ ∃ x, m.slot g j = some x)
    (hz : m'.tab.size = m.tab.size) (hm : m'.tab.ml = m.tab.ml) (hc : m'.tab.capacity = m.tab.capacity)
    (hr : p.hasRes = (pc t).hasRes) (he : p.er = (pc t).er)
    (hb : p.hasRes = true → ∀ b, m.tab.ml ≤ b → ∀ n', p.resBound b = some n' → ∃ n, (pc t).resBound b = some n ∧ n ≤ n') :
    Acct m' (upd pc t p) L where
  nodup := h.nodup
  elem g j := (h.elem g j).trans (hs g j).symm
  res u := by
    by_cases hu : u = t
    · subst hu; rw [upd_self, hr]; exact h.res u
    · rw [upd_of_ne pc hu]; exact h.res u
  er u d := by
    by_cases hu : u = t
    · subst hu; rw [upd_self, he]; exact h.er u d
    · rw [upd_of_ne pc hu]; exact h.er u d
  size := hz.trans h.size
  rank := by
    rw [hm]
    refine h.rank.weaken fun x hx n' hn' => ?_
    cases x with
    | elem g j => exact ⟨n', hn', le_rfl⟩
    | er u d => exact ⟨n', hn', le_rfl⟩
    | res u =>
      simp only [bound] at hn' ⊢
      by_cases hu : u = t
      · subst hu
        rw [upd_self] at hn'
        exact hb (hr.trans ((h.res u).1 hx)) _ (Nat.le_add_right _ _) n' hn'
      · rw [upd_of_ne pc hu] at hn'
        exact ⟨n', hn', le_rfl⟩
  cap := by rw [hm, initMl_congr hc]; exact h.cap

/-- `++size` -/
theorem add (h : Acct m pc L) (hs : ∀ g j, (∃ x, m'.slot g j = some x) ↔ ∃ x, m.slot g j = some x)
    (hz : m'.tab.size = m.tab.size + 1) (hm : m'.tab.ml = m.tab.ml) (hc : m'.tab.capacity = m.tab.capacity)
    (hr0 : (pc t).hasRes = false) (hr : p.hasRes = true) (he : p.er = (pc t).er)
    (hb : ∀ b, p.resBound b = some (m.tab.size + 1)) :
    Acct m' (upd pc t p) (.res t :: L) where
  nodup := List.nodup_cons.2 ⟨(fun hn => by
    have := (h.res t).1 hn
    rw [hr0] at this
    exact Bool.noConfusion this), h.nodup⟩
  elem g j := by simpa using (h.elem g j).trans (hs g j).symm
  res u := by
    by_cases hu : u = t
    · subst hu; simp [hr]
    · rw [upd_of_ne pc hu]; simpa [hu] using h.res u
  er u d := by
    by_cases hu : u = t
    · subst hu; rw [upd_self, he]; simpa using h.er u d
    · rw [upd_of_ne pc hu]; simpa using h.er u d
  size := by rw [hz, h.size]; rfl
  rank := by
    have hp : pend (.res t :: L) = pend L := by simp [pend, Item.one]
    rw [hm, hp]
    refine ⟨fun n hn => ?_, h.rank.weaken fun x hx n' hn' => ?_⟩
    · simp only [bound, upd_self, hb] at hn
      cases hn
      rw [h.size]
    · cases x with
      | elem g j => exact ⟨n', hn', le_rfl⟩
      | er u d => exact ⟨n', hn', le_rfl⟩
      | res u =>
        have hu : u ≠ t := by rintro rfl; rw [h.res u, hr0] at hx; cases hx
        simp only [bound, upd_of_ne pc hu] at hn' ⊢
        exact ⟨n', hn', le_rfl⟩
  cap := by
    have hp : pend (.res t :: L) = pend L := by simp [pend, Item.one]
    rw [hm, initMl_congr hc, hp]; exact h.cap

theorem pend_mid (A B : List Item) (x : Item) : pend (A ++ x :: B) = pend (A ++ B) + x.one := by
  simp [pend, List.map_append, List.sum_append]; omega

/-- a reservation given back: `--size` -/
theorem unres (h : Acct m pc L) (hs : ∀ g j, (∃ x, m'.slot g j = some x) ↔ ∃ x, m.slot g j = some x)
    (hz : m'.tab.size = m.tab.size - 1) (hm : m'.tab.ml = m.tab.ml) (hc : m'.tab.capacity = m.tab.capacity)
    (hr0 : (pc t).hasRes = true) (hr : p.hasRes = false) (he : p.er = (pc t).er) :
    ∃ L', Acct m' (upd pc t p) L' := by
  obtain ⟨A, B, rfl⟩ := List.append_of_mem ((h.res t).2 hr0)
  have hnd : Item.res t ∉ A ++ B ∧ (A ++ B).Nodup := by
    have := h.nodup
    rw [List.nodup_middle] at this
    exact List.nodup_cons.1 this
  have hmem : ∀ x, x ∈ A ++ B ↔ x ∈ A ++ Item.res t :: B ∧ x ≠ .res t := by
    intro x
    constructor
    · intro hx
      refine ⟨?_, by rintro rfl; exact hnd.1 hx⟩
      simp only [List.mem_append, List.mem_cons] at hx ⊢
      rcases hx with hx | hx <;> simp [hx]
    · rintro ⟨hx, hne⟩
      simp only [List.mem_append, List.mem_cons, hne, false_or] at hx ⊢
      exact hx
  refine ⟨A ++ B, hnd.2, fun g j => ?_, fun u => ?_, fun u d => ?_, ?_, ?_, ?_⟩
  · rw [hmem, hs, h.elem]; simp
  · rw [hmem, h.res]
    by_cases hu : u = t
    · subst hu; simp [hr]
    · rw [upd_of_ne pc hu]; simp [hu]
  · rw [hmem, h.er]
    by_cases hu : u = t
    · subst hu; simp [he]
    · rw [upd_of_ne pc hu]; simp
  · rw [hz, h.size]; simp
  · have hp : pend (A ++ B) = pend (A ++ Item.res t :: B) := by rw [pend_mid]; rfl
    rw [hm, hp]
    have key : ∀ z ∈ A ++ B, ∀ n', bound (m.tab.ml + pend (A ++ Item.res t :: B)) (upd pc t p) z = some n' →
        ∃ n, bound (m.tab.ml + pend (A ++ Item.res t :: B)) pc z = some n ∧ n ≤ n' := by
      intro z hz n' hn'
      cases z with
      | elem g j => exact ⟨n', hn', le_rfl⟩
      | er u d => exact ⟨n', hn', le_rfl⟩
      | res u =>
        have hu : u ≠ t := by rintro rfl; exact hnd.1 hz
        simp only [bound, upd_of_ne pc hu] at hn' ⊢
        exact ⟨n', hn', le_rfl⟩
    refine h.rank.remove (fun z hz n' hn' => ?_) (fun z hz n' hn' => .inl (key z (List.mem_append_right _ hz) n' hn'))
    obtain ⟨n, hn, hle⟩ := key z (List.mem_append_left _ hz) n' hn'
    exact ⟨n, hn, by omega⟩
  · have hp : pend (A ++ B) = pend (A ++ Item.res t :: B) := by rw [pend_mid]; rfl
    rw [hm, initMl_congr hc, hp]; exact h.cap

/-- a reservation becomes an element -/
theorem commit (h : Acct m pc L) {g j : Nat} (hj : m.slot g j = none)
    (hs : ∀ g' j', (∃ x, m'.slot g' j' = some x) ↔ (g' = g ∧ j' = j) ∨ ∃ x, m.slot g' j' = some x)
    (hz : m'.tab.size = m.tab.size) (hm : m'.tab.ml = m.tab.ml) (hc : m'.tab.capacity = m.tab.capacity)
    (hr0 : (pc t).hasRes = true) (hb : ∀ b, (pc t).resBound b = some b)
    (hr : p.hasRes = false) (he : p.er = (pc t).er) :
    ∃ L', Acct m' (upd pc t p) L' := by
  obtain ⟨A, B, rfl⟩ := List.append_of_mem ((h.res t).2 hr0)
  have hnd := h.nodup
  rw [List.nodup_middle, List.nodup_cons] at hnd
  have hel : Item.elem g j ∉ A ++ B := by
    intro hx
    have : Item.elem g j ∈ A ++ Item.res t :: B := by
      simp only [List.mem_append, List.mem_cons] at hx ⊢
      rcases hx with hx | hx <;> simp [hx]
    rw [h.elem, hj] at this
    obtain ⟨_, hx⟩ := this
    cases hx
  have hmem : ∀ x, x ∈ A ++ Item.elem g j :: B ↔ x = .elem g j ∨ (x ∈ A ++ Item.res t :: B ∧ x ≠ .res t) := by
    intro x
    have hx0 : x = .res t → x ∉ A ++ B := by rintro rfl; exact hnd.1
    simp only [List.mem_append, List.mem_cons] at hx0 ⊢
    constructor
    · rintro (hx | hx | hx)
      · exact .inr ⟨.inl hx, fun he => hx0 he (.inl hx)⟩
      · exact .inl hx
      · exact .inr ⟨.inr (.inr hx), fun he => hx0 he (.inr hx)⟩
    · rintro (hx | ⟨hx | hx | hx, hne⟩)
      · exact .inr (.inl hx)
      · exact .inl hx
      · exact absurd hx hne
      · exact .inr (.inr hx)
  have hp : pend (A ++ Item.elem g j :: B) = pend (A ++ Item.res t :: B) := by rw [pend_mid, pend_mid]; rfl
  refine ⟨A ++ .elem g j :: B, ?_, fun g' j' => ?_, fun u => ?_, fun u d => ?_, ?_, ?_, ?_⟩
  · rw [List.nodup_middle, List.nodup_cons]; exact ⟨hel, hnd.2⟩
  · rw [hmem, hs, h.elem]; simp
  · rw [hmem, h.res]
    by_cases hu : u = t
    · subst hu; simp [hr]
    · rw [upd_of_ne pc hu]; simp [hu]
  · rw [hmem, h.er]
    by_cases hu : u = t
    · subst hu; simp [he]
    · rw [upd_of_ne pc hu]; simp
  · rw [hz, h.size]; simp
  · rw [hm, hp]
    refine h.rank.replace (fun z hz n' hn' => ?_) (fun n' hn' => ⟨_, by rw [bound, hb], by simp [bound] at hn'; omega⟩)
    cases z with
    | elem g j => exact ⟨n', hn', le_rfl⟩
    | er u d => exact ⟨n', hn', le_rfl⟩
    | res u =>
      have hu : u ≠ t := by rintro rfl; exact hnd.1 (List.mem_append.2 hz)
      simp only [bound, upd_of_ne pc hu] at hn' ⊢
      exact ⟨n', hn', le_rfl⟩
  · rw [hm, initMl_congr hc, hp]; exact h.cap

/-- there is room below `ml` for a pending erasure -/
theorem room (h : Acct m pc L) {g j : Nat} {y : K × V} (hy : m.slot g j = some y) (hd : ∀ u d, (pc u).er = some d → d ≤ 1) :
    1 ≤ m.tab.ml := by
  obtain ⟨A, B, rfl⟩ := List.append_of_mem ((h.elem g j).2 ⟨y, hy⟩)
  have h1 : ((A ++ Item.elem g j :: B).filter Item.notRes).length ≤
      m.tab.ml + pend (A ++ Item.elem g j :: B) := by
    refine h.rank.length_le fun x hx hp => ?_
    cases x with
    | elem g j => exact ⟨_, rfl, le_rfl⟩
    | er u d => exact ⟨_, rfl, le_rfl⟩
    | res u => simp [Item.notRes] at hp
  have key : ∀ l : List Item, (∀ u d, Item.er u d ∈ l → d ≤ 1) →
      pend l ≤ (l.filter Item.notRes).length := by
    intro l
    induction l with
    | nil => intro _; simp [pend]
    | cons x l ih =>
      intro hl
      have := ih (fun u d hm => hl u d (List.mem_cons_of_mem _ hm))
      rw [List.filter_cons]
      cases x with
      | elem g j => simp [pend, Item.one, Item.notRes] at this ⊢; omega
      | res u => simp [pend, Item.one, Item.notRes] at this ⊢; omega
      | er u d =>
        have h2 := hl u d List.mem_cons_self
        simp [pend, Item.one, Item.notRes] at this ⊢; omega
  have h2 := key (A ++ B) (fun u d hm => hd u d ((h.er u d).1 (by
    simp only [List.mem_append, List.mem_cons] at hm ⊢
    rcases hm with hm | hm <;> simp [hm])))
  rw [pend_mid] at h1
  simp only [List.filter_append, List.filter_cons, List.length_append] at h1 h2
  simp [Item.one, Item.notRes] at h1
  omega

/-- an element becomes a pending erasure: `ml` lowered by `d` -/
theorem take (h : Acct m pc L) {g j d : Nat} {y : K × V} (hj : m.slot g j = some y)
    (hs : ∀ g' j', (∃ x, m'.slot g' j' = some x) ↔ ¬ (g' = g ∧ j' = j) ∧ ∃ x, m.slot g' j' = some x)
    (hz : m'.tab.size = m.tab.size) (hm : m'.tab.ml = m.tab.ml - d) (hd : d ≤ m.tab.ml)
    (hc : m'.tab.capacity = m.tab.capacity)
    (hr : p.hasRes = (pc t).hasRes) (hr0 : (pc t).hasRes = false) (he0 : (pc t).er = none) (he : p.er = some d) :
    ∃ L', Acct m' (upd pc t p) L' := by
  obtain ⟨A, B, rfl⟩ := List.append_of_mem ((h.elem g j).2 ⟨y, hj⟩)
  have hnd := h.nodup
  rw [List.nodup_middle, List.nodup_cons] at hnd
  have hel : Item.er t d ∉ A ++ B := by
    intro hx
    have : Item.er t d ∈ A ++ Item.elem g j :: B := by
      simp only [List.mem_append, List.mem_cons] at hx ⊢
      rcases hx with hx | hx <;> simp [hx]
    rw [h.er, he0] at this
    cases this
  have hmem : ∀ x, x ∈ A ++ Item.er t d :: B ↔ x = .er t d ∨ (x ∈ A ++ Item.elem g j :: B ∧ x ≠ .elem g j) := by
    intro x
    have hx0 : x = .elem g j → x ∉ A ++ B := by rintro rfl; exact hnd.1
    simp only [List.mem_append, List.mem_cons] at hx0 ⊢
    constructor
    · rintro (hx | hx | hx)
      · exact .inr ⟨.inl hx, fun he => hx0 he (.inl hx)⟩
      · exact .inl hx
      · exact .inr ⟨.inr (.inr hx), fun he => hx0 he (.inr hx)⟩
    · rintro (hx | ⟨hx | hx | hx, hne⟩)
      · exact .inr (.inl hx)
      · exact .inl hx
      · exact absurd hx hne
      · exact .inr (.inr hx)
  have hp : pend (A ++ Item.er t d :: B) = pend (A ++ Item.elem g j :: B) + d := by rw [pend_mid, pend_mid]; rfl
  refine ⟨A ++ .er t d :: B, ?_, fun g' j' => ?_, fun u => ?_, fun u d' => ?_, ?_, ?_, ?_⟩
  · rw [List.nodup_middle, List.nodup_cons]; exact ⟨hel, hnd.2⟩
  · rw [hmem, hs, h.elem]; simp; constructor
    · rintro ⟨⟨x, hx⟩, h2⟩; exact ⟨h2, x, hx⟩
    · rintro ⟨h2, x, hx⟩; exact ⟨⟨x, hx⟩, h2⟩
  · rw [hmem, h.res]
    by_cases hu : u = t
    · subst hu; simp [hr]
    · rw [upd_of_ne pc hu]; simp
  · rw [hmem, h.er]
    by_cases hu : u = t
    · subst hu; simp [he, he0, eq_comm]
    · rw [upd_of_ne pc hu]; simp [hu]
  · rw [hz, h.size]; simp
  · rw [hm, hp, show m.tab.ml - d + (pend (A ++ Item.elem g j :: B) + d) = m.tab.ml + pend (A ++ Item.elem g j :: B) by omega]
    refine h.rank.replace (fun z hz n' hn' => ?_) (fun n' hn' => ⟨_, rfl, by simp [bound] at hn'; omega⟩)
    cases z with
    | elem g j => exact ⟨n', hn', le_rfl⟩
    | er u d => exact ⟨n', hn', le_rfl⟩
    | res u =>
      have hu : u ≠ t := by
        rintro rfl
        have : Item.res u ∈ A ++ Item.elem g j :: B := by
          simp only [List.mem_append, List.mem_cons]
          rcases hz with hz | hz <;> simp [hz]
        rw [h.res, hr0] at this
        cases this
      simp only [bound, upd_of_ne pc hu] at hn' ⊢
      exact ⟨n', hn', le_rfl⟩
  · rw [hm, initMl_congr hc, hp]
    have := h.cap
    omega

/-- a pending erasure is subtracted: `--size` -/
theorem uner (h : Acct m pc L) {d : Nat} (hs : ∀ g j, (∃ x, m'.slot g j = some x) ↔ ∃ x, m.slot g j = some x)
    (hz : m'.tab.size = m.tab.size - 1) (hm : m'.tab.ml = m.tab.ml) (hc : m'.tab.capacity = m.tab.capacity)
    (hr : p.hasRes = (pc t).hasRes) (hr0 : (pc t).hasRes = false) (he0 : (pc t).er = some d) (hd : d ≤ 1) (he : p.er = none) :
    ∃ L', Acct m' (upd pc t p) L' := by
  obtain ⟨A, B, rfl⟩ := List.append_of_mem ((h.er t d).2 he0)
  have hnd : Item.er t d ∉ A ++ B ∧ (A ++ B).Nodup := by
    have := h.nodup
    rw [List.nodup_middle] at this
    exact List.nodup_cons.1 this
  have hmem : ∀ x, x ∈ A ++ B ↔ x ∈ A ++ Item.er t d :: B ∧ x ≠ .er t d := by
    intro x
    constructor
    · intro hx
      refine ⟨?_, by rintro rfl; exact hnd.1 hx⟩
      simp only [List.mem_append, List.mem_cons] at hx ⊢
      rcases hx with hx | hx <;> simp [hx]
    · rintro ⟨hx, hne⟩
      simp only [List.mem_append, List.mem_cons, hne, false_or] at hx ⊢
      exact hx
  have hp : pend (A ++ Item.er t d :: B) = pend (A ++ B) + d := by rw [pend_mid]; rfl
  refine ⟨A ++ B, hnd.2, fun g j => ?_, fun u => ?_, fun u d' => ?_, ?_, ?_, ?_⟩
  · rw [hmem, hs, h.elem]; simp
  · rw [hmem, h.res]
    by_cases hu : u = t
    · subst hu; simp [hr]
    · rw [upd_of_ne pc hu]; simp
  · rw [hmem, h.er]
    by_cases hu : u = t
    · subst hu; simp [he, he0]; exact fun h => h.symm
    · rw [upd_of_ne pc hu]; simp [hu]
  · rw [hz, h.size]; simp
  · rw [hm]
    refine h.rank.remove (fun z hz n' hn' => ?_) (fun z hz n' hn' => ?_)
    · cases z with
      | elem g j => exact ⟨_, rfl, by simp [bound] at hn'; omega⟩
      | er u d => exact ⟨_, rfl, by simp [bound] at hn'; omega⟩
      | res u =>
        have hu : u ≠ t := by
          rintro rfl
          have : Item.res u ∈ A ++ Item.er u d :: B := by simp [hz]
          rw [h.res, hr0] at this
          cases this
        simp only [bound, upd_of_ne pc hu] at hn' ⊢
        cases hq : pc u with
        | test o c n => rw [hq] at hn'; exact ⟨n, rfl, by simp [Pc.resBound] at hn'; omega⟩
        | failSize o => rw [hq] at hn'; cases hn'
        | _ => rw [hq] at hn'; exact ⟨_, rfl, by simp [Pc.resBound] at hn'; omega⟩
    · cases z with
      | elem g j => exact .inr ⟨_, rfl, by simp [bound] at hn'; omega⟩
      | er u d => exact .inr ⟨_, rfl, by simp [bound] at hn'; omega⟩
      | res u =>
        have hu : u ≠ t := by
          rintro rfl
          have : Item.res u ∈ A ++ Item.er u d :: B := by simp [hz]
          rw [h.res, hr0] at this
          cases this
        simp only [bound, upd_of_ne pc hu] at hn' ⊢
        cases hq : pc u with
        | test o c n => rw [hq] at hn'; exact .inl ⟨n, rfl, by simp [Pc.resBound] at hn'; omega⟩
        | failSize o => rw [hq] at hn'; cases hn'
        | _ => rw [hq] at hn'; exact .inr ⟨_, rfl, by simp [Pc.resBound] at hn'; omega⟩
  · rw [hm, initMl_congr hc]
    have := h.cap
    omega

theorem size_pos_res (h : Acct m pc L) (hr : (pc t).hasRes = true) : 1 ≤ m.tab.size := by
  rw [h.size]; exact List.length_pos_of_mem ((h.res t).2 hr)

theorem size_pos_er (h : Acct m pc L) {d : Nat} (hr : (pc t).er = some d) : 1 ≤ m.tab.size := by
  rw [h.size]; exact List.length_pos_of_mem ((h.er t d).2 hr)

end Acct

end Conc.Tab

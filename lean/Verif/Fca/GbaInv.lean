/-
Invariant of `grouped_bucket_array` and the effect of its operations.
-/
import Verif.Fca.Gba

namespace Fca

/-! ### Words -/

theorem testBit_resetFirstBits {n : Nat} (h0 : 0 < n) (hn : n ≤ 64) (i : Nat) :
    (resetFirstBits n).testBit i = (decide (i < 64) && decide (n ≤ i)) := by
  have e : (2 ^ 64 - 1) >>> (64 - n) = 2 ^ n - 1 := by
    rw [Nat.shiftRight_eq_div_pow]
    have : 2 ^ 64 = 2 ^ n * 2 ^ (64 - n) := by rw [← Nat.pow_add]; congr 1; omega
    rw [this]
    have hp : 0 < 2 ^ (64 - n) := Nat.two_pow_pos _
    have hq : 0 < 2 ^ n := Nat.two_pow_pos _
    obtain ⟨c, hc⟩ : ∃ c, 2 ^ (64 - n) = c + 1 := ⟨2 ^ (64 - n) - 1, by omega⟩
    obtain ⟨d, hd⟩ : ∃ d, 2 ^ n = d + 1 := ⟨2 ^ n - 1, by omega⟩
    rw [hc, hd]
    have : (d + 1) * (c + 1) - 1 = d * (c + 1) + c := by
      have : (d + 1) * (c + 1) = d * (c + 1) + (c + 1) := by ring
      omega
    rw [this]
    apply Nat.div_eq_of_lt_le
    · simp
    · simp; ring_nf; omega
  unfold resetFirstBits
  rw [e]
  have hlt : 2 ^ n - 1 < 2 ^ 64 := by
    have : 2 ^ n ≤ 2 ^ 64 := Nat.pow_le_pow_right (by omega) hn
    omega
  have : 2 ^ 64 - 1 - (2 ^ n - 1) = 2 ^ 64 - ((2 ^ n - 1) + 1) := by omega
  rw [this, Nat.testBit_two_pow_sub_succ hlt, Nat.testBit_two_pow_sub_one]
  by_cases h1 : i < 64 <;> by_cases h2 : i < n <;> simp [h1, h2] <;> omega

theorem testBit_resetBit {n : Nat} (hn : n < 64) (i : Nat) :
    (resetBit n).testBit i = (decide (i < 64) && decide (i ≠ n)) := by
  unfold resetBit
  have hlt : 2 ^ n < 2 ^ 64 := Nat.pow_lt_pow_right (by omega) hn
  have : 2 ^ 64 - 1 - 2 ^ n = 2 ^ 64 - (2 ^ n + 1) := by omega
  rw [this, Nat.testBit_two_pow_sub_succ hlt, Nat.testBit_two_pow]
  by_cases h1 : i < 64 <;> by_cases h2 : n = i <;> simp [h1, h2]
  intro h; exact absurd h.symm h2

theorem ctz_eq (m : Nat) : ctz m = (((List.range 64).filter (fun j => m.testBit j)).head?).getD 64 := by
  unfold ctz; rw [List.head?_filter]

theorem ext64 {m m' : Nat} (h1 : m < 2 ^ 64) (h2 : m' < 2 ^ 64) (h : ∀ j < 64, m.testBit j = m'.testBit j) : m = m' := by
  apply Nat.eq_of_testBit_eq
  intro i
  by_cases hi : i < 64
  · exact h i hi
  · rw [Nat.testBit_lt_two_pow (lt_of_lt_of_le h1 (Nat.pow_le_pow_right (by omega) (by omega))),
      Nat.testBit_lt_two_pow (lt_of_lt_of_le h2 (Nat.pow_le_pow_right (by omega) (by omega)))]

theorem exists_bit {m : Nat} (h1 : m < 2 ^ 64) (h : m ≠ 0) : ∃ j < 64, m.testBit j = true := by
  by_contra hc
  apply h
  apply ext64 h1 (by norm_num)
  intro j hj
  cases e : m.testBit j with
  | false => simp
  | true => exact absurd ⟨j, hj, e⟩ hc

/-- positions of the set bits of a 64-bit word, ascending -/
def bitsOf (m : Nat) : List Nat := (List.range 64).filter (fun j => m.testBit j)

theorem mem_bitsOf {m j : Nat} : j ∈ bitsOf m ↔ j < 64 ∧ m.testBit j = true := by simp [bitsOf]

theorem bitsOf_sorted (m : Nat) : (bitsOf m).Pairwise (· < ·) :=
  List.Pairwise.filter _ List.pairwise_lt_range

theorem bitsOf_ne_nil {m : Nat} (h1 : m < 2 ^ 64) (h : m ≠ 0) : bitsOf m ≠ [] := by
  obtain ⟨j, hj, hb⟩ := exists_bit h1 h
  exact List.ne_nil_of_mem (mem_bitsOf.mpr ⟨hj, hb⟩)

theorem ctz_head {m x : Nat} {l : List Nat} (h : bitsOf m = x :: l) : ctz m = x := by
  rw [ctz_eq]; unfold bitsOf at h; rw [h]; rfl

/-- bits of `m & reset_first_bits(o+1)` -/
theorem bitsOf_and_reset (m : Nat) {o : Nat} (ho : o < 64) :
    bitsOf (m &&& resetFirstBits (o + 1)) = (bitsOf m).filter (fun j => decide (o < j)) := by
  unfold bitsOf
  rw [List.filter_filter]
  apply List.filter_congr
  intro j hj
  have hj : j < 64 := List.mem_range.mp hj
  rw [Nat.testBit_and, testBit_resetFirstBits (by omega) (by omega)]
  simp only [hj, decide_true, Bool.true_and]
  rw [Bool.and_comm]
  congr 1

theorem filter_gt_mid {xs ys : List Nat} {o : Nat} (h : (xs ++ o :: ys).Pairwise (· < ·)) :
    (xs ++ o :: ys).filter (fun j => decide (o < j)) = ys := by
  rw [List.pairwise_append] at h
  obtain ⟨_, h2, h3⟩ := h
  rw [List.pairwise_cons] at h2
  rw [List.filter_append, List.filter_cons]
  have e1 : xs.filter (fun j => decide (o < j)) = [] := by
    rw [List.filter_eq_nil_iff]
    intro x hx
    have := h3 x hx o (by simp)
    simp; omega
  have e2 : ys.filter (fun j => decide (o < j)) = ys := by
    rw [List.filter_eq_self]
    intro x hx
    have := h2.1 x hx
    simp; exact this
  rw [e1, e2]; simp

theorem isChain_tail {β : Type} {R : β → β → Prop} {x : β} {l : List β} (h : List.IsChain R (x :: l)) :
    List.IsChain R l := by
  cases l with
  | nil => exact List.IsChain.nil
  | cons y l => exact (List.isChain_cons_cons.mp h).2

namespace Gba
variable {α : Type}

/-- buckets with a set bit in group `g`, ascending -/
def gbits (a : Gba α) (g : Nat) : List Nat := (bitsOf (a.mask g)).map (fun j => 64 * g + j)

/-- the buckets in iteration order, ending with the end bucket, given the list `L` of linked groups before the last one -/
def order (a : Gba α) (L : List Nat) : List Nat := (L ++ [a.last]).flatMap a.gbits

/-- link relation -/
def Linked (a : Gba α) (x y : Nat) : Prop := a.nxt x = some y ∧ a.prv y = some x

/-- Invariant of an array with at least one bucket. `L` lists the non-empty groups other than the last, in link order. -/
structure Ginv (a : Gba α) (L : List Nat) : Prop where
  idx : a.si < PrimeFmod.sizes.length
  sz : a.size = PrimeFmod.size a.si
  nodup : L.Nodup
  mem : ∀ g, g ∈ L ↔ g < a.last ∧ a.mask g ≠ 0
  links : List.IsChain a.Linked (a.last :: L ++ [a.last])
  unl : ∀ g, g < a.last → g ∉ L → a.nxt g = none
  lt : ∀ g, a.mask g < 2 ^ 64
  bit : ∀ g j, j < 64 → (a.mask g).testBit j = decide (64 * g + j = a.size ∨ a.chain (64 * g + j) ≠ [])
  base : ∀ g, a.mask g ≠ 0 → a.base g = some (64 * g)
  beyond : ∀ b, a.size ≤ b → a.chain b = []

theorem Ginv.pos {a : Gba α} {L : List Nat} (h : Ginv a L) : 0 < a.size := by
  have h1 := h.idx
  rw [h.sz]
  have : ∀ i < PrimeFmod.sizes.length, 0 < PrimeFmod.size i := by decide
  exact this _ h1

theorem mem_gbits {a : Gba α} {L : List Nat} (h : Ginv a L) {g b : Nat} :
    b ∈ a.gbits g ↔ b / 64 = g ∧ (b = a.size ∨ a.chain b ≠ []) := by
  unfold gbits
  simp only [List.mem_map, mem_bitsOf]
  constructor
  · rintro ⟨j, ⟨hj, hb⟩, rfl⟩
    refine ⟨by omega, ?_⟩
    rw [h.bit g j hj] at hb
    simpa using hb
  · rintro ⟨rfl, hb⟩
    refine ⟨b % 64, ⟨by omega, ?_⟩, by omega⟩
    rw [h.bit _ _ (by omega)]
    have : 64 * (b / 64) + b % 64 = b := by omega
    rw [this]; simpa using hb

theorem Ginv.lastmask {a : Gba α} {L : List Nat} (h : Ginv a L) : a.mask a.last ≠ 0 := by
  intro e
  have := h.bit a.last (a.size % 64) (by omega)
  rw [e] at this
  have e2 : 64 * a.last + a.size % 64 = a.size := by unfold last; omega
  rw [e2] at this
  simp at this

theorem Ginv.nonempty_lt {a : Gba α} {L : List Nat} (h : Ginv a L) {b : Nat} (hb : a.chain b ≠ []) : b < a.size := by
  by_contra hc
  exact hb (h.beyond b (by omega))

theorem mem_order {a : Gba α} {L : List Nat} (h : Ginv a L) {b : Nat} :
    b ∈ a.order L ↔ b = a.size ∨ a.chain b ≠ [] := by
  unfold order
  simp only [List.mem_flatMap]
  constructor
  · rintro ⟨g, _, hg⟩; exact ((mem_gbits h).mp hg).2
  · intro hb
    refine ⟨b / 64, ?_, (mem_gbits h).mpr ⟨rfl, hb⟩⟩
    rw [List.mem_append, List.mem_singleton]
    by_cases hl : b / 64 = a.last
    · exact Or.inr hl
    · left
      rw [h.mem]
      have hle : b ≤ a.size := by
        rcases hb with rfl | hb
        · exact Nat.le_refl _
        · exact Nat.le_of_lt (h.nonempty_lt hb)
      constructor
      · unfold last at *; omega
      · intro e
        have := h.bit (b / 64) (b % 64) (by omega)
        rw [e] at this
        have e2 : 64 * (b / 64) + b % 64 = b := by omega
        rw [e2] at this
        simp at this
        rcases hb with hb | hb
        · exact this.1 hb
        · exact hb this.2

theorem gbits_nodup (a : Gba α) (g : Nat) : (a.gbits g).Nodup := by
  unfold gbits
  apply List.Nodup.map
  · intro x y h; simpa using h
  · exact (bitsOf_sorted _).imp (by intro a b h; omega)

theorem order_nodup {a : Gba α} {L : List Nat} (h : Ginv a L) : (a.order L).Nodup := by
  unfold order
  rw [List.nodup_flatMap]
  refine ⟨fun g _ => gbits_nodup a g, ?_⟩
  have hn : (L ++ [a.last]).Nodup := by
    rw [List.nodup_append]
    refine ⟨h.nodup, by simp, ?_⟩
    intro x hx y hy
    rw [List.mem_singleton] at hy
    have := ((h.mem x).mp hx).1
    omega
  apply hn.imp
  intro x y hxy b hb hb'
  have h1 := ((mem_gbits h).mp hb).1
  have h2 := ((mem_gbits h).mp hb').1
  exact hxy (h1.symm.trans h2)

theorem Ginv.mask_ne {a : Gba α} {L : List Nat} (h : Ginv a L) {g : Nat} (hg : g ∈ L ++ [a.last]) : a.mask g ≠ 0 := by
  rw [List.mem_append, List.mem_singleton] at hg
  rcases hg with hg | rfl
  · exact ((h.mem g).mp hg).2
  · exact h.lastmask

theorem gbits_ne_nil {a : Gba α} {L : List Nat} (h : Ginv a L) {g : Nat} (hg : g ∈ L ++ [a.last]) : a.gbits g ≠ [] := by
  unfold gbits
  have := bitsOf_ne_nil (h.lt g) (h.mask_ne hg)
  simpa using this

/-- the end bucket is last -/
theorem order_last {a : Gba α} {L : List Nat} (h : Ginv a L) : ∃ xs, a.order L = xs ++ [a.size] := by
  have hs : a.size ∈ a.gbits a.last := (mem_gbits h).mpr ⟨rfl, Or.inl rfl⟩
  have hlast : ∃ ys, a.gbits a.last = ys ++ [a.size] := by
    obtain ⟨ys, zs, e⟩ := List.append_of_mem hs
    cases zs with
    | nil => exact ⟨ys, e⟩
    | cons z zs =>
      exfalso
      have hz : z ∈ a.gbits a.last := by rw [e]; simp
      have hsort : (a.gbits a.last).Pairwise (· < ·) := by
        unfold gbits
        rw [List.pairwise_map]
        exact (bitsOf_sorted _).imp (by intro x y h; omega)
      rw [e, List.pairwise_append] at hsort
      have : a.size < z := by
        have := hsort.2.1
        rw [List.pairwise_cons] at this
        exact this.1 z (by simp)
      have hz2 := ((mem_gbits h).mp hz).2
      rcases hz2 with hz2 | hz2
      · omega
      · have := h.nonempty_lt hz2; omega
  obtain ⟨ys, e⟩ := hlast
  refine ⟨L.flatMap a.gbits ++ ys, ?_⟩
  unfold order
  rw [List.flatMap_append]
  simp [e]

/-! ### `++` on bucket iterators -/

theorem inc_in_group {a : Gba α} {L : List Nat} (h : Ginv a L) {g : Nat} (hg : g ∈ L ++ [a.last]) {xs ys : List Nat}
    {b c : Nat} (e : a.gbits g = xs ++ b :: c :: ys) : a.inc ⟨b, some g⟩ = some ⟨c, some g⟩ := by
  have hb : b ∈ a.gbits g := by rw [e]; simp
  have hbg := ((mem_gbits h).mp hb).1
  unfold gbits at e
  obtain ⟨xs', l1, e1, e2, e3⟩ := List.map_eq_append_iff.mp e
  obtain ⟨b', l2, rfl, rfl, e4⟩ := List.map_eq_cons_iff.mp e3
  obtain ⟨c', ys', rfl, rfl, e5⟩ := List.map_eq_cons_iff.mp e4
  have hb' : b' ∈ bitsOf (a.mask g) := by rw [e1]; simp
  have hb64 := (mem_bitsOf.mp hb').1
  have hc' : c' ∈ bitsOf (a.mask g) := by rw [e1]; simp
  have hc64 := (mem_bitsOf.mp hc').1
  have hsub : 64 * g + b' - 64 * g + 1 = b' + 1 := by omega
  have hbits : bitsOf (a.mask g &&& resetFirstBits (b' + 1)) = c' :: ys' := by
    rw [bitsOf_and_reset _ hb64, e1]
    apply filter_gt_mid
    rw [← e1]; exact bitsOf_sorted _
  unfold inc
  simp only [h.base g (h.mask_ne hg), hsub, ctz_head hbits, hc64, if_true]

theorem inc_next_group {a : Gba α} {L : List Nat} (h : Ginv a L) {g g' : Nat} (hg : g ∈ L ++ [a.last])
    (hg' : g' ∈ L ++ [a.last]) (hl : a.nxt g = some g') {xs ys : List Nat}
    {b c : Nat} (e : a.gbits g = xs ++ [b]) (e' : a.gbits g' = c :: ys) :
    a.inc ⟨b, some g⟩ = some ⟨c, some g'⟩ := by
  unfold gbits at e e'
  obtain ⟨xs', l1, e1, e2, e3⟩ := List.map_eq_append_iff.mp e
  obtain ⟨b', l2, rfl, rfl, e4⟩ := List.map_eq_cons_iff.mp e3
  rw [List.map_eq_nil_iff] at e4
  subst e4
  obtain ⟨c', ys', e5, rfl, e6⟩ := List.map_eq_cons_iff.mp e'
  have hb' : b' ∈ bitsOf (a.mask g) := by rw [e1]; simp
  have hb64 := (mem_bitsOf.mp hb').1
  have hsub : 64 * g + b' - 64 * g + 1 = b' + 1 := by omega
  have hbits : bitsOf (a.mask g &&& resetFirstBits (b' + 1)) = [] := by
    rw [bitsOf_and_reset _ hb64, e1]
    apply filter_gt_mid
    rw [← e1]; exact bitsOf_sorted _
  have hctz : ctz (a.mask g &&& resetFirstBits (b' + 1)) = 64 := by
    rw [ctz_eq]; unfold bitsOf at hbits; rw [hbits]; rfl
  unfold inc
  simp only [h.base g (h.mask_ne hg), hsub, hctz, Nat.lt_irrefl, if_false, hl, h.base g' (h.mask_ne hg'), ctz_head e5]

/-- group of an element of a flattened list of groups -/
theorem inc_order_aux {a : Gba α} {L : List Nat} (h : Ginv a L) : ∀ (Gs : List Nat), (∀ g ∈ Gs, g ∈ L ++ [a.last]) →
    List.IsChain a.Linked Gs → ∀ (xs ys : List Nat) (b c : Nat), Gs.flatMap a.gbits = xs ++ b :: c :: ys →
    a.inc ⟨b, some (b / 64)⟩ = some ⟨c, some (c / 64)⟩ := by
  intro Gs
  induction Gs with
  | nil => intro _ _ xs ys b c e; simp at e
  | cons g Gs ih =>
    intro hm hc xs ys b c e
    have hg := hm g (by simp)
    have hm' : ∀ g ∈ Gs, g ∈ L ++ [a.last] := fun x hx => hm x (by simp [hx])
    rw [List.flatMap_cons] at e
    have hgrp : ∀ {x g}, x ∈ a.gbits g → x / 64 = g := fun hx => ((mem_gbits h).mp hx).1
    rcases List.append_eq_append_iff.mp e with ⟨as, e1, e2⟩ | ⟨bs, e1, e2⟩
    · -- xs = gbits g ++ as
      exact ih hm' (isChain_tail hc) as ys b c e2
    · -- gbits g = xs ++ bs
      cases bs with
      | nil =>
        simp at e2
        exact ih hm' (isChain_tail hc) [] ys b c (by simpa using e2.symm)
      | cons x bs =>
        simp only [List.cons_append, List.cons.injEq] at e2
        obtain ⟨rfl, e2⟩ := e2
        cases bs with
        | cons y bs =>
          simp only [List.cons_append, List.cons.injEq] at e2
          obtain ⟨rfl, e2⟩ := e2
          have hb : b / 64 = g := hgrp (g := g) (by rw [e1]; simp)
          have hcg : c / 64 = g := hgrp (g := g) (by rw [e1]; simp)
          rw [hb, hcg]
          exact inc_in_group h hg e1
        | nil =>
          rw [List.nil_append] at e2
          cases Gs with
          | nil => simp at e2
          | cons g' Gs =>
            have hg' := hm' g' (by simp)
            rw [List.flatMap_cons] at e2
            cases hgb : a.gbits g' with
            | nil => exact absurd hgb (gbits_ne_nil h hg')
            | cons z zs =>
              rw [hgb] at e2
              simp only [List.cons_append, List.cons.injEq] at e2
              obtain ⟨rfl, _⟩ := e2
              have hb : b / 64 = g := hgrp (g := g) (by rw [e1]; simp)
              have hcg : c / 64 = g' := hgrp (g := g') (by rw [hgb]; simp)
              rw [hb, hcg]
              have hl : a.Linked g g' := by
                rw [List.isChain_cons_cons] at hc; exact hc.1
              exact inc_next_group h hg hg' hl.1 e1 hgb

theorem inc_order {a : Gba α} {L : List Nat} (h : Ginv a L) {xs ys : List Nat} {b c : Nat}
    (e : a.order L = xs ++ b :: c :: ys) : a.inc ⟨b, some (b / 64)⟩ = some ⟨c, some (c / 64)⟩ := by
  refine inc_order_aux h (L ++ [a.last]) (fun _ h => h) ?_ xs ys b c e
  have := h.links
  rw [List.cons_append] at this
  exact isChain_tail this

/-- `begin()` is the first bucket in iteration order (the end bucket if there is no other). -/
theorem begin_order {a : Gba α} {L : List Nat} (h : Ginv a L) {b : Nat} {ys : List Nat} (e : a.order L = b :: ys) :
    a.begin_ = some ⟨b, some (b / 64)⟩ := by
  have hpos := h.pos
  unfold begin_ at_
  rw [if_neg (by omega), if_pos hpos]
  obtain ⟨g', Gs, eG⟩ : ∃ g' Gs, L ++ [a.last] = g' :: Gs := by
    cases L with
    | nil => exact ⟨_, _, rfl⟩
    | cons x l => exact ⟨_, _, rfl⟩
  have hg' : g' ∈ L ++ [a.last] := by rw [eG]; simp
  have hl : a.Linked a.last g' := by
    have := h.links
    rw [List.cons_append, eG, List.isChain_cons_cons] at this
    exact this.1
  unfold order at e
  rw [eG, List.flatMap_cons] at e
  cases hgb : a.gbits g' with
  | nil => exact absurd hgb (gbits_ne_nil h hg')
  | cons z zs =>
    rw [hgb] at e
    simp only [List.cons_append, List.cons.injEq] at e
    obtain ⟨rfl, _⟩ := e
    obtain ⟨ys', e1⟩ : ∃ ys', a.gbits a.last = ys' ++ [a.size] := by
      obtain ⟨xs, e0⟩ := order_last h
      unfold order at e0
      rw [List.flatMap_append] at e0
      simp only [List.flatMap_cons, List.flatMap_nil, List.append_nil] at e0
      have hne : a.gbits a.last ≠ [] := gbits_ne_nil h (by simp)
      rw [← List.dropLast_append_getLast hne, ← List.append_assoc] at e0
      have := List.append_inj_right' e0 rfl
      simp only [List.cons.injEq, and_true] at this
      exact ⟨(a.gbits a.last).dropLast, by rw [← this, List.dropLast_append_getLast hne]⟩
    have : z / 64 = g' := ((mem_gbits h).mp (by rw [hgb]; simp : z ∈ a.gbits g')).1
    rw [this]
    exact inc_next_group h (by simp) hg' hl.1 e1 hgb

end Gba
end Fca

/-
Effect of the operations of `grouped_bucket_array` on its invariant.
-/
import Mathlib.Data.List.Chain
import Verif.Fca.GbaInv

namespace Fca
namespace Gba
variable {α : Type}

theorem isChain_congr {β : Type} {R R' : β → β → Prop} : ∀ {l : List β}, List.IsChain R l →
    (∀ x ∈ l.dropLast, ∀ y ∈ l.tail, R x y → R' x y) → List.IsChain R' l := by
  intro l
  induction l with
  | nil => intro _ _; exact List.IsChain.nil
  | cons x l ih =>
    intro h hc
    cases l with
    | nil => exact List.IsChain.singleton x
    | cons y l =>
      rw [List.isChain_cons_cons] at h ⊢
      refine ⟨hc x (by simp) y (by simp) h.1, ih h.2 ?_⟩
      intro u hu v hv
      apply hc u
      · rw [List.dropLast_cons_cons]; exact List.mem_cons_of_mem _ hu
      · exact List.mem_cons_of_mem _ hv

/-! ### new -/

theorem new_ginv {n al : Nat} (h : n ≠ 0) : Ginv (Gba.new n al : Gba α) [] := by
  unfold Gba.new
  rw [if_neg h]
  have hidx : PrimeFmod.sizeIndex n < PrimeFmod.sizes.length := PrimeFmod.sizeIndex_lt n
  constructor
  · exact hidx
  · rfl
  · exact List.nodup_nil
  · intro g
    constructor
    · intro hg; cases hg
    · rintro ⟨h1, h2⟩
      simp only [last] at h1
      exfalso; apply h2
      simp only
      rw [up_ne]
      omega
  · show List.IsChain _ [_, _]
    rw [List.isChain_cons_cons]
    refine ⟨⟨?_, ?_⟩, List.IsChain.singleton _⟩ <;> simp [last]
  · intro g h1 _
    simp only [last] at h1 ⊢
    rw [up_ne]
    omega
  · intro g
    simp only
    rw [up_apply]
    split
    · unfold setBit; exact Nat.pow_lt_pow_right (by omega) (by omega)
    · norm_num
  · intro g j hj
    simp only
    rw [up_apply]
    by_cases hg : g = PrimeFmod.size (PrimeFmod.sizeIndex n) / 64
    · rw [if_pos hg]
      unfold setBit
      rw [Nat.testBit_two_pow]
      simp only [ne_eq, not_true_eq_false, or_false]
      congr 1
      rw [eq_iff_iff]
      omega
    · rw [if_neg hg]
      simp
      omega
  · intro g hg
    simp only at hg ⊢
    by_cases e : g = PrimeFmod.size (PrimeFmod.sizeIndex n) / 64
    · subst e; rw [up_same]
    · rw [up_ne _ _ e] at hg; exact absurd rfl hg
  · intro b _; rfl

/-! ### insertion -/

/-- `append_bucket_group` followed by making bucket `b` non-empty. -/
theorem append_spec {a : Gba α} {L : List Nat} (h : Ginv a L) {b : Nat} (hb : b < a.size) :
    ∃ a1 L', a.append ⟨b, some (b / 64)⟩ = some a1 ∧ a1.chain = a.chain ∧ a1.size = a.size ∧ a1.si = a.si ∧
      a1.mal = a.mal ∧ ∀ c : List α, c ≠ [] → Ginv { a1 with chain := up a.chain b c } L' := by
  have hpos := h.pos
  unfold append get
  rw [if_pos (⟨by omega, Nat.le_of_lt hb⟩ : a.size ≠ 0 ∧ b ≤ a.size)]
  dsimp only
  cases hch : a.chain b with
  | cons x l =>
    refine ⟨a, L, rfl, rfl, rfl, rfl, rfl, ?_⟩
    intro c hc
    refine ⟨h.idx, h.sz, h.nodup, h.mem, h.links, h.unl, h.lt, ?_, h.base, ?_⟩
    · intro g j hj
      rw [h.bit g j hj]
      simp only [up_apply]
      by_cases e : 64 * g + j = b
      · simp [e, hch, hc]
      · simp [e]
    · intro b' hb'
      simp only [up_apply]
      rw [if_neg (by simp at hb'; omega)]
      exact h.beyond b' hb'
  | nil =>
    dsimp only
    have hbit : (a.mask (b / 64)).testBit (b % 64) = false := by
      rw [h.bit _ _ (by omega)]
      have : 64 * (b / 64) + b % 64 = b := by omega
      rw [this, hch]
      simp; omega
    -- the new mask word
    have hmaskbit : ∀ j < 64, (a.mask (b / 64) ||| setBit (b % 64)).testBit j =
        ((a.mask (b / 64)).testBit j || decide (j = b % 64)) := by
      intro j _
      unfold setBit
      rw [Nat.testBit_or, Nat.testBit_two_pow]
      by_cases e : b % 64 = j
      · simp [e]
      · simp [e, Ne.symm e]
    have hmasklt : a.mask (b / 64) ||| setBit (b % 64) < 2 ^ 64 :=
      Nat.or_lt_two_pow (h.lt _) (by unfold setBit; exact Nat.pow_lt_pow_right (by omega) (by omega))
    have hmaskne : a.mask (b / 64) ||| setBit (b % 64) ≠ 0 := by
      intro e
      have := hmaskbit (b % 64) (by omega)
      rw [e] at this; simp at this
    have hbits : ∀ (c : List α), c ≠ [] → ∀ g j, j < 64 →
        ((up a.mask (b / 64) (a.mask (b / 64) ||| setBit (b % 64))) g).testBit j =
        decide (64 * g + j = a.size ∨ up a.chain b c (64 * g + j) ≠ []) := by
      intro c hc g j hj
      rw [up_apply, up_apply]
      by_cases e : g = b / 64
      · rw [if_pos e, hmaskbit j hj, h.bit _ j hj]
        by_cases e2 : j = b % 64
        · have e3 : 64 * g + j = b := by omega
          rw [if_pos e3]; simp [e2, hc]
        · have e3 : 64 * g + j ≠ b := by omega
          rw [if_neg e3]
          simp [e2, e]
      · rw [if_neg e, h.bit _ j hj]
        have e3 : 64 * g + j ≠ b := by omega
        rw [if_neg e3]
    have hlt : ∀ g, up a.mask (b / 64) (a.mask (b / 64) ||| setBit (b % 64)) g < 2 ^ 64 := by
      intro g; rw [up_apply]; split
      · exact hmasklt
      · exact h.lt g
    by_cases hm : a.mask (b / 64) = 0
    · rw [if_pos hm]
      -- the group is not the last one, and not in L
      have hgl : b / 64 ≠ a.last := by
        intro e; rw [e] at hm; exact h.lastmask hm
      have hglt : b / 64 < a.last := by unfold last at *; omega
      have hgL : b / 64 ∉ L := fun hc => ((h.mem _).mp hc).2 hm
      obtain ⟨f, Gs, eG⟩ : ∃ f Gs, L ++ [a.last] = f :: Gs := by
        cases L with
        | nil => exact ⟨_, _, rfl⟩
        | cons x l => exact ⟨_, _, rfl⟩
      have hlinks := h.links
      rw [List.cons_append, eG, List.isChain_cons_cons] at hlinks
      obtain ⟨⟨hl1, hl2⟩, hl3⟩ := hlinks
      have hfL : f ∈ L ++ [a.last] := by rw [eG]; simp
      have hfne : f ≠ b / 64 := by
        intro e
        rw [e, List.mem_append, List.mem_singleton] at hfL
        rcases hfL with h1 | h1
        · exact hgL h1
        · exact hgl h1
      have hnd : (L ++ [a.last]).Nodup := by
        rw [List.nodup_append]
        refine ⟨h.nodup, by simp, ?_⟩
        intro x hx y hy
        rw [List.mem_singleton] at hy
        have := ((h.mem x).mp hx).1
        omega
      rw [hl1]
      refine ⟨_, (b / 64) :: L, rfl, rfl, rfl, rfl, rfl, ?_⟩
      intro c hc
      refine ⟨h.idx, h.sz, ?_, ?_, ?_, ?_, hlt, hbits c hc, ?_, ?_⟩
      · rw [List.nodup_cons]; exact ⟨hgL, h.nodup⟩
      · intro g
        simp only [List.mem_cons]
        rw [up_apply]
        by_cases e : g = b / 64
        · rw [if_pos e]
          constructor
          · intro _; exact ⟨by rw [e]; exact hglt, hmaskne⟩
          · intro _; exact Or.inl e
        · rw [if_neg e, h.mem g]
          constructor
          · rintro (h1 | h1)
            · exact absurd h1 e
            · exact h1
          · exact Or.inr
      · show List.IsChain _ (a.last :: b / 64 :: (L ++ [a.last]))
        rw [eG, List.isChain_cons_cons, List.isChain_cons_cons]
        refine ⟨⟨?_, ?_⟩, ⟨?_, ?_⟩, ?_⟩
        · simp [last]
        · simp [last]
        · simp only []
          rw [up_ne _ _ hgl, up_same]
        · simp only []
          rw [up_ne _ _ hfne, up_same]
        · apply isChain_congr hl3
          intro x hx y hy hxy
          have hxL : x ∈ L := by
            rw [← eG, List.dropLast_concat] at hx; exact hx
          have hx1 : x ≠ a.last := by
            have := ((h.mem x).mp hxL).1; omega
          have hx2 : x ≠ b / 64 := fun e => hgL (e ▸ hxL)
          have hyne : y ≠ f := by
            rintro rfl
            rw [eG, List.nodup_cons] at hnd
            exact hnd.1 hy
          have hy2 : y ≠ b / 64 := by
            rintro rfl
            have : b / 64 ∈ L ++ [a.last] := by rw [eG]; exact List.mem_cons_of_mem _ hy
            rw [List.mem_append, List.mem_singleton] at this
            rcases this with h1 | h1
            · exact hgL h1
            · exact hgl h1
          refine ⟨?_, ?_⟩
          · simp only []
            rw [up_ne _ _ (by simpa [last] using hx1), up_ne _ _ hx2]; exact hxy.1
          · simp only []
            rw [up_ne _ _ hy2, up_ne _ _ hyne]; exact hxy.2
      · intro g hg hg2
        rw [List.mem_cons, not_or] at hg2
        simp only []
        rw [up_ne _ _ (by simp [last] at hg ⊢; omega), up_ne _ _ hg2.1]
        exact h.unl g hg hg2.2
      · intro g hg
        simp only [] at hg ⊢
        by_cases e : g = b / 64
        · subst e; rw [up_same]
        · rw [up_ne _ _ e] at hg ⊢
          exact h.base g hg
      · intro b' hb'
        simp only [up_apply]
        rw [if_neg (by simp at hb'; omega)]
        exact h.beyond b' hb'
    · rw [if_neg hm]
      refine ⟨_, L, rfl, rfl, rfl, rfl, rfl, ?_⟩
      intro c hc
      refine ⟨h.idx, h.sz, h.nodup, ?_, h.links, h.unl, hlt, hbits c hc, ?_, ?_⟩
      · intro g
        simp only []
        rw [up_apply]
        by_cases e : g = b / 64
        · rw [if_pos e, e, h.mem]
          constructor
          · rintro ⟨h1, _⟩; exact ⟨h1, hmaskne⟩
          · rintro ⟨h1, _⟩; exact ⟨h1, hm⟩
        · rw [if_neg e]; exact h.mem g
      · intro g hg
        simp only [] at hg ⊢
        by_cases e : g = b / 64
        · subst e; exact h.base _ hm
        · rw [up_ne _ _ e] at hg; exact h.base g hg
      · intro b' hb'
        simp only [up_apply]
        rw [if_neg (by simp at hb'; omega)]
        exact h.beyond b' hb'

theorem insertNode_spec {a : Gba α} {L : List Nat} (h : Ginv a L) {b : Nat} (hb : b < a.size) (x : α) :
    ∃ a' L', a.insertNode ⟨b, some (b / 64)⟩ x = some a' ∧ Ginv a' L' ∧ a'.size = a.size ∧ a'.si = a.si ∧
      a'.mal = a.mal ∧ a'.chain = up a.chain b (x :: a.chain b) := by
  obtain ⟨a1, L', e1, e2, e3, e4, e5, e6⟩ := append_spec h hb
  unfold insertNode
  rw [e1]
  exact ⟨_, L', rfl, by simpa [e2] using e6 (x :: a.chain b) (by simp), e3, e4, e5, by simp [e2]⟩

/-- the chain after `insert_node_hint` -/
def putHint (l : List α) (hint : Option Nat) (x : α) : List α :=
  match hint with
  | some i => insertAfter l i x
  | none => x :: l

theorem insertNodeHint_spec {a : Gba α} {L : List Nat} (h : Ginv a L) {b : Nat} (hb : b < a.size) (x : α)
    (hint : Option Nat) (hh : ∀ i, hint = some i → i < (a.chain b).length) :
    ∃ a' L', a.insertNodeHint ⟨b, some (b / 64)⟩ x hint = some a' ∧ Ginv a' L' ∧ a'.size = a.size ∧ a'.si = a.si ∧
      a'.mal = a.mal ∧ a'.chain = up a.chain b (putHint (a.chain b) hint x) := by
  obtain ⟨a1, L', e1, e2, e3, e4, e5, e6⟩ := append_spec h hb
  unfold insertNodeHint
  rw [e1]
  cases hint with
  | none => exact ⟨_, L', rfl, by simpa [e2] using e6 (x :: a.chain b) (by simp), e3, e4, e5, by simp [e2, putHint]⟩
  | some i =>
    have hi := hh i rfl
    simp only [e2]
    rw [if_pos hi]
    exact ⟨_, L', rfl, by simpa [e2] using e6 (insertAfter (a.chain b) i x) (by simp [insertAfter]), e3, e4, e5, by simp [putHint]⟩

/-! ### removal -/

theorem gbits_congr {a a' : Gba α} {g : Nat} (h : a'.mask g = a.mask g) : a'.gbits g = a.gbits g := by
  unfold gbits; rw [h]

/-- Making bucket `b` empty and unlinking it: the iteration order only loses `b`. -/
theorem unlinkBucket_spec {a : Gba α} {L : List Nat} (h : Ginv a L) {b : Nat} (hb : a.chain b ≠ []) :
    ∃ a' L', ({ a with chain := up a.chain b [] } : Gba α).unlinkBucket ⟨b, some (b / 64)⟩ = some a' ∧ Ginv a' L' ∧
      a'.size = a.size ∧ a'.si = a.si ∧ a'.mal = a.mal ∧ a'.chain = up a.chain b [] ∧
      a'.order L' = (a.order L).filter (fun x => decide (x ≠ b)) := by
  have hbs := h.nonempty_lt hb
  have hbit : (a.mask (b / 64)).testBit (b % 64) = true := by
    rw [h.bit _ _ (by omega)]
    have : 64 * (b / 64) + b % 64 = b := by omega
    rw [this]; simp [hb]
  have hm : a.mask (b / 64) ≠ 0 := by intro e; rw [e] at hbit; simp at hbit
  unfold unlinkBucket
  simp only [h.base _ hm]
  have hsub : b - 64 * (b / 64) = b % 64 := by omega
  rw [hsub]
  have hmaskbit : ∀ j < 64, (a.mask (b / 64) &&& resetBit (b % 64)).testBit j =
      ((a.mask (b / 64)).testBit j && decide (j ≠ b % 64)) := by
    intro j hj
    rw [Nat.testBit_and, testBit_resetBit (by omega)]
    simp [hj]
  have hmasklt : a.mask (b / 64) &&& resetBit (b % 64) < 2 ^ 64 :=
    Nat.lt_of_le_of_lt Nat.and_le_left (h.lt _)
  have hlt : ∀ g, up a.mask (b / 64) (a.mask (b / 64) &&& resetBit (b % 64)) g < 2 ^ 64 := by
    intro g; rw [up_apply]; split
    · exact hmasklt
    · exact h.lt g
  have hbits : ∀ g j, j < 64 →
      ((up a.mask (b / 64) (a.mask (b / 64) &&& resetBit (b % 64))) g).testBit j =
      decide (64 * g + j = a.size ∨ up a.chain b [] (64 * g + j) ≠ []) := by
    intro g j hj
    rw [up_apply, up_apply]
    by_cases e : g = b / 64
    · rw [if_pos e, hmaskbit j hj, h.bit _ j hj]
      by_cases e2 : j = b % 64
      · have e3 : 64 * g + j = b := by omega
        have e4 : b ≠ a.size := by omega
        rw [if_pos e3, e3]; simp [e2, e4]
      · have e3 : 64 * g + j ≠ b := by omega
        rw [if_neg e3]
        simp [e2, e]
    · rw [if_neg e, h.bit _ j hj]
      have e3 : 64 * g + j ≠ b := by omega
      rw [if_neg e3]
  have hbeyond : ∀ b', a.size ≤ b' → up a.chain b [] b' = [] := by
    intro b' hb'
    rw [up_ne _ _ (by omega)]; exact h.beyond b' hb'
  have hgb : ∀ g, (bitsOf (up a.mask (b / 64) (a.mask (b / 64) &&& resetBit (b % 64)) g)).map (fun j => 64 * g + j) =
      (a.gbits g).filter (fun x => decide (x ≠ b)) := by
    intro g
    unfold gbits
    rw [List.filter_map]
    congr 1
    unfold bitsOf
    rw [List.filter_filter]
    apply List.filter_congr
    intro j hj
    have hj : j < 64 := List.mem_range.mp hj
    rw [up_apply]
    by_cases e : g = b / 64
    · rw [if_pos e, hmaskbit j hj, e, Bool.and_comm]
      congr 1
      simp only [Function.comp]
      congr 1
      rw [eq_iff_iff, not_iff_not]; omega
    · rw [if_neg e]
      have : 64 * g + j ≠ b := by omega
      simp [this]
  by_cases hz : a.mask (b / 64) &&& resetBit (b % 64) = 0
  · rw [if_pos hz]
    -- the group becomes empty: it is not the last one
    have hgl : b / 64 ≠ a.last := by
      intro e
      have := hbits a.last (a.size % 64) (by omega)
      have e2 : 64 * a.last + a.size % 64 = a.size := by unfold last; omega
      rw [e2, up_apply, if_pos e.symm, hz] at this
      simp at this
    have hglt : b / 64 < a.last := by unfold last at *; omega
    have hgL : b / 64 ∈ L := (h.mem _).mpr ⟨hglt, hm⟩
    obtain ⟨L1, L2, eL⟩ := List.append_of_mem hgL
    have hnd := h.nodup
    rw [eL] at hnd
    have hnd1 : (L1 ++ L2).Nodup := hnd.sublist (by simp)
    have hg12 : b / 64 ∉ L1 ∧ b / 64 ∉ L2 := by
      rw [List.nodup_append] at hnd
      obtain ⟨_, h2, h3⟩ := hnd
      rw [List.nodup_cons] at h2
      refine ⟨?_, h2.1⟩
      intro hc
      exact h3 _ hc _ (by simp) rfl
    have hlL : a.last ∉ L := fun hc => by have := ((h.mem _).mp hc).1; omega
    have hlL1 : a.last ∉ L1 := fun hc => hlL (by rw [eL]; simp [hc])
    have hlL2 : a.last ∉ L2 := fun hc => hlL (by rw [eL]; simp [hc])
    -- A = last :: L1, B = L2 ++ [last]
    have hlinks := h.links
    have eAB : a.last :: L ++ [a.last] = (a.last :: L1) ++ (b / 64 :: (L2 ++ [a.last])) := by
      rw [eL]; simp
    rw [eAB, List.isChain_append] at hlinks
    obtain ⟨hA, hgB, hj⟩ := hlinks
    obtain ⟨p, hp⟩ : ∃ p, (a.last :: L1).getLast? = some p := ⟨_, List.getLast?_cons⟩
    obtain ⟨n, hn⟩ : ∃ n, (L2 ++ [a.last]).head? = some n := by
      cases L2 with
      | nil => exact ⟨_, rfl⟩
      | cons x l => exact ⟨_, rfl⟩
    have hpg : a.Linked p (b / 64) := hj p hp _ rfl
    have hgB' := hgB
    rw [List.isChain_cons] at hgB'
    have hgn : a.Linked (b / 64) n := hgB'.1 n hn
    have hB := hgB'.2
    have hpmem : p ∈ a.last :: L1 := List.mem_of_getLast? hp
    have hnmem : n ∈ L2 ++ [a.last] := List.mem_of_head? hn
    have hpne : p ≠ b / 64 := by
      rintro rfl
      rw [List.mem_cons] at hpmem
      rcases hpmem with h1 | h1
      · exact hgl h1
      · exact hg12.1 h1
    have hnne : n ≠ b / 64 := by
      rintro rfl
      rw [List.mem_append, List.mem_singleton] at hnmem
      rcases hnmem with h1 | h1
      · exact hg12.2 h1
      · exact hgl h1
    have hdisj : ∀ x ∈ L1, x ∉ L2 := by
      intro x hx hx2
      rw [List.nodup_append] at hnd1
      exact hnd1.2.2 x hx x hx2 rfl
    unfold unlinkGroup
    simp only [hgn.1, hpg.2]
    refine ⟨_, L1 ++ L2, rfl, ⟨h.idx, h.sz, hnd1, ?_, ?_, ?_, hlt, hbits, ?_, hbeyond⟩, rfl, rfl, rfl, rfl, ?_⟩
    · intro g
      simp only []
      rw [up_apply]
      by_cases e : g = b / 64
      · rw [if_pos e]
        constructor
        · intro hc
          rw [e, List.mem_append] at hc
          rcases hc with h1 | h1
          · exact absurd h1 hg12.1
          · exact absurd h1 hg12.2
        · rintro ⟨_, h2⟩; exact absurd hz h2
      · rw [if_neg e]
        refine Iff.trans ?_ (h.mem g)
        rw [eL]
        simp [e]
    · show List.IsChain _ (a.last :: (L1 ++ L2) ++ [a.last])
      have eAB2 : a.last :: (L1 ++ L2) ++ [a.last] = (a.last :: L1) ++ (L2 ++ [a.last]) := by simp
      rw [eAB2, List.isChain_append]
      refine ⟨?_, ?_, ?_⟩
      · apply isChain_congr hA
        intro x hx y hy hxy
        rw [List.tail_cons] at hy
        have hxm : x ∈ a.last :: L1 := List.dropLast_subset _ hx
        have hxg : x ≠ b / 64 := by
          rintro rfl
          rw [List.mem_cons] at hxm
          rcases hxm with h1 | h1
          · exact hgl h1
          · exact hg12.1 h1
        have hxp : x ≠ p := by
          rintro rfl
          have hnd3 : (a.last :: L1).Nodup := by
            rw [List.nodup_cons]
            exact ⟨hlL1, (List.nodup_append.mp hnd1).1⟩
          have hne : a.last :: L1 ≠ [] := by simp
          rw [← List.dropLast_append_getLast hne, List.nodup_append] at hnd3
          rw [List.getLast?_eq_getLast_of_ne_nil hne] at hp
          cases hp
          exact hnd3.2.2 _ hx _ (by simp) rfl
        have hyg : y ≠ b / 64 := fun e => hg12.1 (e ▸ hy)
        have hyn : y ≠ n := by
          rintro rfl
          rw [List.mem_append, List.mem_singleton] at hnmem
          rcases hnmem with h1 | h1
          · exact hdisj _ hy h1
          · exact hlL1 (h1 ▸ hy)
        refine ⟨?_, ?_⟩
        · simp only []
          rw [up_ne _ _ hxg, up_ne _ _ hxp]; exact hxy.1
        · simp only []
          rw [up_ne _ _ hyg, up_ne _ _ hyn]; exact hxy.2
      · apply isChain_congr hB
        intro x hx y hy hxy
        rw [List.dropLast_concat] at hx
        have hxg : x ≠ b / 64 := fun e => hg12.2 (e ▸ hx)
        have hxp : x ≠ p := by
          rintro rfl
          rw [List.mem_cons] at hpmem
          rcases hpmem with h1 | h1
          · exact hlL2 (h1 ▸ hx)
          · exact hdisj _ h1 hx
        have hym : y ∈ L2 ++ [a.last] := List.mem_of_mem_tail hy
        have hyg : y ≠ b / 64 := by
          rintro rfl
          rw [List.mem_append, List.mem_singleton] at hym
          rcases hym with h1 | h1
          · exact hg12.2 h1
          · exact hgl h1
        have hyn : y ≠ n := by
          rintro rfl
          have hnd3 : (L2 ++ [a.last]).Nodup := by
            rw [List.nodup_append]
            refine ⟨(List.nodup_append.mp hnd1).2.1, by simp, ?_⟩
            intro u hu v hv
            rw [List.mem_singleton] at hv
            rintro rfl
            exact hlL2 (hv ▸ hu)
          cases hl : L2 ++ [a.last] with
          | nil => simp at hl
          | cons z zs =>
            rw [hl] at hn hy hnd3
            cases hn
            rw [List.nodup_cons] at hnd3
            exact hnd3.1 hy
        refine ⟨?_, ?_⟩
        · simp only []
          rw [up_ne _ _ hxg, up_ne _ _ hxp]; exact hxy.1
        · simp only []
          rw [up_ne _ _ hyg, up_ne _ _ hyn]; exact hxy.2
      · intro x hx y hy
        rw [hp] at hx; cases hx
        rw [hn] at hy; cases hy
        refine ⟨?_, ?_⟩
        · simp only []
          rw [up_ne _ _ hpne, up_same]
        · simp only []
          rw [up_ne _ _ hnne, up_same]
    · intro g hg hg2
      simp only []
      by_cases e : g = b / 64
      · rw [e, up_same]
      · rw [up_ne _ _ e]
        have hgp : g ≠ p := by
          rintro rfl
          rw [List.mem_cons] at hpmem
          rcases hpmem with h1 | h1
          · simp only [last] at hg h1; omega
          · exact hg2 (by simp [h1])
        rw [up_ne _ _ hgp]
        refine h.unl g hg ?_
        rw [eL]
        simp only [List.mem_append, List.mem_cons, not_or] at hg2 ⊢
        exact ⟨hg2.1, e, hg2.2⟩
    · intro g hg
      simp only [] at hg ⊢
      by_cases e : g = b / 64
      · rw [e]; exact h.base _ hm
      · rw [up_ne _ _ e] at hg; exact h.base g hg
    · unfold order
      show ((L1 ++ L2) ++ [a.last]).flatMap (fun g => _) = _
      rw [List.filter_flatMap]
      simp only [gbits]
      rw [show (fun g => (bitsOf (up a.mask (b / 64) (a.mask (b / 64) &&& resetBit (b % 64)) g)).map (fun j => 64 * g + j))
        = (fun g => (a.gbits g).filter (fun x => decide (x ≠ b))) from funext hgb]
      have hnil : (a.gbits (b / 64)).filter (fun x => decide (x ≠ b)) = [] := by
        rw [← hgb, up_same, hz]; rfl
      show _ = (L ++ [a.last]).flatMap (fun g => (a.gbits g).filter (fun x => decide (x ≠ b)))
      rw [eL]
      simp only [List.flatMap_append, List.flatMap_cons, List.flatMap_nil, List.append_nil, List.append_assoc]
      rw [hnil, List.nil_append]
  · rw [if_neg hz]
    refine ⟨_, L, rfl, ⟨h.idx, h.sz, h.nodup, ?_, h.links, h.unl, hlt, hbits, ?_, hbeyond⟩, rfl, rfl, rfl, rfl, ?_⟩
    · intro g
      simp only []
      rw [up_apply]
      by_cases e : g = b / 64
      · rw [if_pos e, e, h.mem]
        constructor
        · rintro ⟨h1, _⟩; exact ⟨h1, hz⟩
        · rintro ⟨h1, _⟩; exact ⟨h1, hm⟩
      · rw [if_neg e]; exact h.mem g
    · intro g hg
      simp only [] at hg ⊢
      by_cases e : g = b / 64
      · rw [e]; exact h.base _ hm
      · rw [up_ne _ _ e] at hg; exact h.base g hg
    · unfold order
      show (L ++ [a.last]).flatMap (fun g => _) = _
      rw [List.filter_flatMap]
      simp only [gbits]
      rw [show (fun g => (bitsOf (up a.mask (b / 64) (a.mask (b / 64) &&& resetBit (b % 64)) g)).map (fun j => 64 * g + j))
        = (fun g => (a.gbits g).filter (fun x => decide (x ≠ b))) from funext hgb]
      rfl

/-- `extract_node`: removes one node; the iteration order loses the bucket if it became empty. -/
theorem extractNode_spec {a : Gba α} {L : List Nat} (h : Ginv a L) {b i : Nat} (hi : i < (a.chain b).length) :
    ∃ a' L', a.extractNode ⟨b, some (b / 64)⟩ i = some a' ∧ Ginv a' L' ∧ a'.size = a.size ∧ a'.si = a.si ∧
      a'.mal = a.mal ∧ a'.chain = up a.chain b ((a.chain b).eraseIdx i) ∧
      a'.order L' = if (a.chain b).eraseIdx i = [] then (a.order L).filter (fun x => decide (x ≠ b)) else a.order L := by
  have hne : a.chain b ≠ [] := by intro e; rw [e] at hi; simp at hi
  have hb := h.nonempty_lt hne
  have hpos := h.pos
  unfold extractNode get
  rw [if_pos (⟨by omega, Nat.le_of_lt hb⟩ : a.size ≠ 0 ∧ b ≤ a.size)]
  dsimp only
  rw [if_pos hi]
  by_cases he : (a.chain b).eraseIdx i = []
  · rw [he]
    simp only [List.isEmpty_nil, if_true]
    obtain ⟨a', L', e1, e2, e3, e4, e5, e6, e7⟩ := unlinkBucket_spec h hne
    exact ⟨a', L', e1, e2, e3, e4, e5, e6, e7⟩
  · have : ((a.chain b).eraseIdx i).isEmpty = false := by
      cases hl : (a.chain b).eraseIdx i with
      | nil => exact absurd hl he
      | cons x l => rfl
    rw [this]
    simp only [Bool.false_eq_true, if_false]
    refine ⟨_, L, rfl, ⟨h.idx, h.sz, h.nodup, h.mem, h.links, h.unl, h.lt, ?_, h.base, ?_⟩, rfl, rfl, rfl, rfl, ?_⟩
    · intro g j hj
      rw [h.bit g j hj]
      simp only [up_apply]
      by_cases e : 64 * g + j = b
      · simp [e, he, hne]
      · simp [e]
    · intro b' hb'
      simp only [up_apply]
      rw [if_neg (by simp at hb'; omega)]
      exact h.beyond b' hb'
    · rw [if_neg he]; rfl

end Gba
end Fca

/-
`unlink_empty_buckets` (fca.hpp:854-882) restores the invariant of a bucket array some of whose buckets have been emptied
behind its back.
-/
import Verif.Fca.Inv

namespace Fca
namespace Gba
variable {α : Type}

theorem up_up {β : Type} (f : Nat → β) (i : Nat) (x y : β) : up (up f i x) i y = up f i y := by
  funext j; unfold up; split <;> rfl

/-- Shrinking the mask of one group that stays non-empty. -/
theorem ginv_shrink {a : Gba α} {L : List Nat} (h : Ginv a L) {g m : Nat} {c : Nat → List α} (hg : a.mask g ≠ 0) (hm : m ≠ 0)
    (hlt : m < 2 ^ 64) (hc : ∀ b, b / 64 ≠ g → c b = a.chain b) (hn : ∀ b, a.chain b = [] → c b = [])
    (hb : ∀ j, j < 64 → m.testBit j = decide (64 * g + j = a.size ∨ c (64 * g + j) ≠ [])) :
    Ginv { a with chain := c, mask := up a.mask g m } L := by
  refine ⟨h.idx, h.sz, h.nodup, ?_, h.links, h.unl, ?_, ?_, ?_, fun b hb' => hn _ (h.beyond b hb')⟩
  · intro x
    show x ∈ L ↔ x < a.last ∧ up a.mask g m x ≠ 0
    rw [h.mem, up_apply]
    by_cases e : x = g
    · rw [if_pos e, e]; simp [hg, hm]
    · rw [if_neg e]
  · intro x
    show up a.mask g m x < 2 ^ 64
    rw [up_apply]; split
    · exact hlt
    · exact h.lt x
  · intro x j hj
    show (up a.mask g m x).testBit j = decide (64 * x + j = a.size ∨ c (64 * x + j) ≠ [])
    rw [up_apply]
    by_cases e : x = g
    · rw [if_pos e, e]; exact hb j hj
    · rw [if_neg e, h.bit x j hj, hc _ (by omega)]
  · intro x hx
    by_cases e : x = g
    · rw [e]; exact h.base g hg
    · apply h.base
      have : up a.mask g m x ≠ 0 := hx
      rwa [up_ne _ _ e] at this

/-- Emptying all buckets of a group and unlinking it. -/
theorem ginv_unlink {a : Gba α} {L : List Nat} (h : Ginv a L) {g : Nat} {c : Nat → List α} (hgl : g < a.last)
    (hg : a.mask g ≠ 0) (hc : ∀ b, b / 64 ≠ g → c b = a.chain b) (hz : ∀ b, b / 64 = g → c b = []) :
    ∃ a' L', ({ a with chain := c, mask := up a.mask g 0 } : Gba α).unlinkGroup g = some a' ∧ Ginv a' L' ∧ a'.size = a.size ∧
      a'.si = a.si ∧ a'.mal = a.mal ∧ a'.chain = c := by
  obtain ⟨j, hj, hbit⟩ := exists_bit (h.lt g) hg
  have hne : 64 * g + j ≠ a.size := by unfold last at hgl; omega
  have hb : a.chain (64 * g + j) ≠ [] := by
    rw [h.bit g j hj] at hbit
    simpa [hne] using hbit
  have hdiv : (64 * g + j) / 64 = g := by omega
  have hmod : (64 * g + j) % 64 = j := by omega
  let c1 : Nat → List α := fun b => if b / 64 = g ∧ b ≠ 64 * g + j then [] else a.chain b
  have h1 : Ginv { a with chain := c1, mask := up a.mask g (2 ^ j) } L := by
    refine ginv_shrink h hg (Nat.ne_of_gt (Nat.two_pow_pos _)) (Nat.pow_lt_pow_right (by omega) hj) ?_ ?_ ?_
    · intro b hb'; simp [c1, hb']
    · intro b hb'; simp only [c1]; split
      · rfl
      · exact hb'
    · intro i hi
      rw [Nat.testBit_two_pow]
      have e1 : (64 * g + i) / 64 = g := by omega
      have e2 : 64 * g + i ≠ a.size := by unfold last at hgl; omega
      simp only [c1, e1, true_and]
      by_cases e : j = i
      · subst e; simp [hb]
      · have e3 : 64 * g + i ≠ 64 * g + j := by omega
        simp [e, e2]; omega
  have hb1 : c1 (64 * g + j) ≠ [] := by simp [c1, hb]
  obtain ⟨a', L', k1, k2, k3, k4, k5, k6, _⟩ := unlinkBucket_spec h1 (b := 64 * g + j) hb1
  have ec : up c1 (64 * g + j) [] = c := by
    funext b
    by_cases e : b = 64 * g + j
    · rw [e, up_same, hz _ hdiv]
    · rw [up_ne _ _ e]
      by_cases e2 : b / 64 = g
      · simp [c1, e2, e, hz b e2]
      · simp [c1, e2, hc b e2]
  refine ⟨a', L', ?_, k2, k3, k4, k5, k6.trans ec⟩
  rw [← k1]
  have hm0 : 2 ^ j &&& resetBit j = 0 := by
    apply ext64 (Nat.lt_of_le_of_lt Nat.and_le_left (Nat.pow_lt_pow_right (by omega) hj)) (by decide)
    intro i hi
    rw [Nat.testBit_and, testBit_resetBit hj, Nat.testBit_two_pow, Nat.zero_testBit]
    by_cases e : j = i
    · subst e; simp
    · simp [e]
  have hsub : 64 * g + j - 64 * g = j := by omega
  unfold unlinkBucket
  simp only [hdiv, h.base g hg, up_same, hsub, hm0, if_true, up_up, ec]

theorem foldl_reset (c : Nat → List α) (bs : Nat) : ∀ (l : List Nat) (m : Nat), (∀ n ∈ l, n < 64) →
    ∀ j, (l.foldl (fun m n => if (c (bs + n)).isEmpty then m &&& resetBit n else m) m).testBit j =
      (m.testBit j && (decide (j ∉ l) || !(c (bs + j)).isEmpty) && decide (j < 64 ∨ l.all (fun n => !(c (bs + n)).isEmpty))) := by
  intro l
  induction l with
  | nil => intro m _ j; simp
  | cons n l ih =>
    intro m hl j
    rw [List.foldl_cons, ih _ (fun x hx => hl x (by simp [hx]))]
    have hn := hl n (by simp)
    by_cases e : (c (bs + n)).isEmpty = true
    · rw [if_pos e, Nat.testBit_and, testBit_resetBit hn]
      by_cases e2 : j = n
      · subst e2; simp [e]
      · by_cases e3 : j < 64
        · simp [e2, e3]
        · have : j ∉ l := fun hh => e3 (hl j (by simp [hh]))
          simp [e, e3]
    · rw [if_neg e]
      have e' : (c (bs + n)).isEmpty = false := by simpa using e
      by_cases e2 : j = n
      · subst e2; simp [e', hn]
      · simp [e2, e']

/-- the mask computed by `resetEmpty` -/
theorem reset_bit {a : Gba α} {g bs k : Nat} (hk : k ≤ 64) {j : Nat} (hj : j < 64) :
    ((a.resetEmpty g bs k).mask g).testBit j =
      ((a.mask g).testBit j && (decide (k ≤ j) || !(a.chain (bs + j)).isEmpty)) := by
  unfold resetEmpty
  simp only [up_same]
  rw [foldl_reset _ _ _ _ (by intro n hn; have := List.mem_range.mp hn; omega)]
  simp [hj]

theorem reset_le {a : Gba α} {g bs k : Nat} (hlt : a.mask g < 2 ^ 64) : (a.resetEmpty g bs k).mask g < 2 ^ 64 := by
  unfold resetEmpty
  simp only [up_same]
  have : ∀ (l : List Nat) (m : Nat), m < 2 ^ 64 →
      l.foldl (fun m n => if (a.chain (bs + n)).isEmpty then m &&& resetBit n else m) m < 2 ^ 64 := by
    intro l
    induction l with
    | nil => intro m hm; exact hm
    | cons n l ih =>
      intro m hm
      rw [List.foldl_cons]
      apply ih
      split
      · exact Nat.lt_of_le_of_lt Nat.and_le_left hm
      · exact hm
  exact this _ _ hlt

/-- State of the loop of `unlink_empty_buckets`: groups below `k` have been dealt with. -/
structure Half (a0 : Gba α) (c : Nat → List α) (k : Nat) (a : Gba α) : Prop where
  ginv : ∃ L, Ginv { a with chain := fun b => if b / 64 < k then c b else a0.chain b } L
  chain : a.chain = c
  size : a.size = a0.size
  si : a.si = a0.si
  mal : a.mal = a0.mal

theorem half_step {a0 a : Gba α} {c : Nat → List α} {k : Nat} (hn : ∀ b, a0.chain b = [] → c b = [])
    (h : Half a0 c k a) (hk : k < a.last) :
    ∃ a', (match a.base k with
      | none => some a
      | some bs =>
        let a' := a.resetEmpty k bs 64
        if a'.mask k = 0 ∧ (a'.nxt k).isSome then a'.unlinkGroup k else some a') = some a' ∧ Half a0 c (k + 1) a' := by
  obtain ⟨L, hg⟩ := h.ginv
  have hlt : ∀ g, a.mask g < 2 ^ 64 := hg.lt
  by_cases hm : a.mask k = 0
  · -- an unlinked group: nothing changes
    have hchain : ∀ j, j < 64 → a0.chain (64 * k + j) = [] := by
      intro j hj
      have := hg.bit k j hj
      simp only [hm, Nat.zero_testBit] at this
      have e : ¬ (64 * k + j) / 64 < k := by omega
      simp only [e, if_false] at this
      have := this.symm
      simp only [decide_eq_false_iff_not, not_or, not_not] at this
      exact this.2
    have hsame : (fun b => if b / 64 < k + 1 then c b else a0.chain b) = (fun b => if b / 64 < k then c b else a0.chain b) := by
      funext b
      by_cases e : b / 64 < k
      · rw [if_pos e, if_pos (by omega)]
      · rw [if_neg e]
        by_cases e2 : b / 64 = k
        · rw [if_pos (by omega)]
          have := hchain (b % 64) (by omega)
          have e3 : 64 * k + b % 64 = b := by omega
          rw [e3] at this
          rw [this, hn b this]
        · rw [if_neg (by omega)]
    have hzero : ∀ bs, (a.resetEmpty k bs 64).mask k = 0 := by
      intro bs
      apply ext64 (reset_le (hlt k)) (m' := 0) (by decide)
      intro j hj
      rw [reset_bit (Nat.le_refl _) hj, hm]
      simp
    have heq : ∀ bs, a.resetEmpty k bs 64 = a := by
      intro bs
      have h1 := hzero bs
      unfold resetEmpty at h1 ⊢
      simp only [up_same] at h1
      rw [h1]
      have : up a.mask k 0 = a.mask := by
        funext x; rw [up_apply]; split
        · rename_i e; rw [e, hm]
        · rfl
      rw [this]
    have hnx : a.nxt k = none := by
      apply hg.unl k hk
      intro hc
      exact ((hg.mem k).mp hc).2 hm
    refine ⟨a, ?_, ⟨⟨L, by rw [hsame]; exact hg⟩, h.chain, h.size, h.si, h.mal⟩⟩
    cases hb : a.base k with
    | none => rfl
    | some bs =>
      simp only [heq, hnx, Option.isSome_none, Bool.false_eq_true, and_false, if_false]
  · have hbase : a.base k = some (64 * k) := hg.base k hm
    rw [hbase]
    have hchain : ∀ b, b / 64 ≠ k → (fun b => if b / 64 < k + 1 then c b else a0.chain b) b =
        ({ a with chain := fun b => if b / 64 < k then c b else a0.chain b } : Gba α).chain b := by
      intro b hb
      simp only []
      by_cases e : b / 64 < k
      · rw [if_pos e, if_pos (by omega)]
      · rw [if_neg e, if_neg (by omega)]
    have hne : ∀ j, j < 64 → 64 * k + j ≠ a.size := by intro j hj; unfold last at hk; omega
    have hbits : ∀ j, j < 64 → ((a.resetEmpty k (64 * k) 64).mask k).testBit j =
        decide (64 * k + j = a.size ∨ (fun b => if b / 64 < k + 1 then c b else a0.chain b) (64 * k + j) ≠ []) := by
      intro j hj
      rw [reset_bit (Nat.le_refl _) hj, h.chain]
      have hb := hg.bit k j hj
      have e1 : ¬ (64 * k + j) / 64 < k := by omega
      have e2 : (64 * k + j) / 64 < k + 1 := by omega
      simp only [e1, if_false] at hb
      have hb' : (a.mask k).testBit j = decide (64 * k + j = a.size ∨ a0.chain (64 * k + j) ≠ []) := hb
      rw [hb']
      simp only [e2, if_true, hne j hj, false_or]
      by_cases e3 : a0.chain (64 * k + j) = []
      · simp [e3, hn _ e3]
      · have e4 : ¬ 64 ≤ j := by omega
        simp [e3, e4]
        cases c (64 * k + j) <;> simp
    by_cases hz : (a.resetEmpty k (64 * k) 64).mask k = 0
    · have hcz : ∀ b, b / 64 = k → (fun b => if b / 64 < k + 1 then c b else a0.chain b) b = [] := by
        intro b hb
        have := hbits (b % 64) (by omega)
        have e3 : 64 * k + b % 64 = b := by omega
        rw [hz, e3] at this
        simp only [Nat.zero_testBit] at this
        have := this.symm
        simp only [decide_eq_false_iff_not, not_or, not_not] at this
        exact this.2
      have hkL : k ∈ L := (hg.mem k).mpr ⟨hk, hm⟩
      have hnx : (a.nxt k).isSome = true := by
        have hl := hg.links
        obtain ⟨L1, L2, eL⟩ := List.append_of_mem hkL
        rw [eL] at hl
        have e5 : ({ a with chain := fun b => if b / 64 < k then c b else a0.chain b } : Gba α).last ::
            (L1 ++ k :: L2) ++ [({ a with chain := fun b => if b / 64 < k then c b else a0.chain b } : Gba α).last] =
            (a.last :: L1) ++ (k :: (L2 ++ [a.last])) := by simp [last]
        rw [e5, List.isChain_append] at hl
        have h2 := hl.2.1
        cases hL2 : L2 ++ [a.last] with
        | nil => simp at hL2
        | cons y ys =>
          rw [hL2, List.isChain_cons_cons] at h2
          rw [h2.1.1]; rfl
      obtain ⟨a', L', k1, k2, k3, k4, k5, k6⟩ := ginv_unlink hg (g := k)
        (c := fun b => if b / 64 < k + 1 then c b else a0.chain b) hk hm hchain hcz
      -- `unlinkGroup` does not look at the chains
      have hun : ∀ (c1 c2 : Nat → List α) (x : Gba α), ({ x with chain := c1 } : Gba α).unlinkGroup k =
          (({ x with chain := c2 } : Gba α).unlinkGroup k).map (fun y => { y with chain := c1 }) := by
        intro c1 c2 x
        unfold unlinkGroup
        cases x.nxt k <;> cases x.prv k <;> rfl
      have hr : a.resetEmpty k (64 * k) 64 = { a with mask := up a.mask k 0, chain := c } := by
        have h1 := hz
        unfold resetEmpty at h1 ⊢
        simp only [up_same] at h1
        rw [h1]
        cases a; simp only [Gba.mk.injEq] ; simp only [true_and]; exact ⟨h.chain, trivial⟩
      refine ⟨{ a' with chain := c }, ?_, ⟨⟨L', ?_⟩, rfl, ?_, ?_, ?_⟩⟩
      · simp only []
        have hnx' : ((a.resetEmpty k (64 * k) 64).nxt k).isSome = true := hnx
        rw [if_pos ⟨hz, hnx'⟩, hr]
        have := hun c (fun b => if b / 64 < k + 1 then c b else a0.chain b) { a with mask := up a.mask k 0 }
        simp only [] at this
        rw [this, k1]
        rfl
      · have : ({ ({ a' with chain := c } : Gba α) with chain := fun b => if b / 64 < k + 1 then c b else a0.chain b } : Gba α) = a' := by
          cases a'; simp only [] at k6; rw [k6]
        rw [this]; exact k2
      · exact k3.trans h.size
      · exact k4.trans h.si
      · exact k5.trans h.mal
    · refine ⟨a.resetEmpty k (64 * k) 64, ?_, ⟨⟨L, ?_⟩, h.chain, h.size, h.si, h.mal⟩⟩
      · simp only []
        rw [if_neg (fun hh => hz hh.1)]
      · have hs := ginv_shrink hg (g := k) (m := (a.resetEmpty k (64 * k) 64).mask k)
          (c := fun b => if b / 64 < k + 1 then c b else a0.chain b) hm hz (reset_le (hlt k)) hchain (by
            intro b hb
            have hb' : (if b / 64 < k then c b else a0.chain b) = [] := hb
            show (if b / 64 < k + 1 then c b else a0.chain b) = []
            by_cases e : b / 64 < k
            · rw [if_pos e] at hb'; rw [if_pos (by omega)]; exact hb'
            · rw [if_neg e] at hb'
              split
              · exact hn b hb'
              · exact hb') hbits
        have he : up a.mask k ((a.resetEmpty k (64 * k) 64).mask k) = (a.resetEmpty k (64 * k) 64).mask := by
          unfold resetEmpty; simp only [up_same]
        have : ({ a.resetEmpty k (64 * k) 64 with chain := fun b => if b / 64 < k + 1 then c b else a0.chain b } : Gba α) =
            { ({ a with chain := fun b => if b / 64 < k then c b else a0.chain b } : Gba α) with
              chain := fun b => if b / 64 < k + 1 then c b else a0.chain b,
              mask := up a.mask k ((a.resetEmpty k (64 * k) 64).mask k) } := by
          rw [he]; rfl
        rw [this]; exact hs

theorem half_loop {a0 : Gba α} {c : Nat → List α} (hn : ∀ b, a0.chain b = [] → c b = []) : ∀ (n k : Nat) (a : Gba α),
    Half a0 c k a → k + n = a.last → ∃ a', unlinkEmptyLoop (List.range' k n) a = some a' ∧ Half a0 c (k + n) a' := by
  intro n
  induction n with
  | zero => intro k a h _; exact ⟨a, rfl, h⟩
  | succ n ih =>
    intro k a h hk
    obtain ⟨a1, h1, h2⟩ := half_step hn h (by omega)
    have hlast : a1.last = a.last := by unfold last; rw [h2.size, h.size]
    obtain ⟨a', h3, h4⟩ := ih (k + 1) a1 h2 (by omega)
    refine ⟨a', ?_, by rw [show k + (n + 1) = k + 1 + n by omega]; exact h4⟩
    rw [List.range'_succ]
    unfold unlinkEmptyLoop
    cases hb : a.base k with
    | none =>
      rw [hb] at h1
      simp only [Option.some.injEq] at h1
      subst h1
      exact h3
    | some bs =>
      rw [hb] at h1
      simp only [] at h1 ⊢
      split at h1
      · rename_i hc
        rw [if_pos hc, h1]
        exact h3
      · rename_i hc
        rw [if_neg hc]
        simp only [Option.some.injEq] at h1
        rw [h1]
        exact h3

/-- `unlink_empty_buckets` on an array in which some buckets were emptied or shortened without unlinking. -/
theorem unlinkEmpty_spec {a : Gba α} {L : List Nat} (h : Ginv a L) {c : Nat → List α} (hn : ∀ b, a.chain b = [] → c b = []) :
    ∃ a' L', ({ a with chain := c } : Gba α).unlinkEmpty = some a' ∧ Ginv a' L' ∧ a'.size = a.size ∧ a'.si = a.si ∧
      a'.mal = a.mal ∧ a'.chain = c := by
  have h0 : Half a c 0 { a with chain := c } := by
    refine ⟨⟨L, ?_⟩, rfl, rfl, rfl, rfl⟩
    have : ({ ({ a with chain := c } : Gba α) with chain := fun b => if b / 64 < 0 then c b else a.chain b } : Gba α) = a := by
      simp
    rw [this]; exact h
  obtain ⟨a1, h1, h2⟩ := half_loop hn a.last 0 _ h0 (by simp [last])
  obtain ⟨L1, hg⟩ := h2.ginv
  have hlast : a1.last = a.last := by unfold last; rw [h2.size]
  rw [Nat.zero_add] at h2 hg
  have hlt : ∀ g, a1.mask g < 2 ^ 64 := hg.lt
  have hm := hg.lastmask
  have hm' : a1.mask a1.last ≠ 0 := hm
  have hbase : a1.base a1.last = some (64 * a1.last) := hg.base _ hm
  unfold unlinkEmpty
  have hpos := h.pos
  rw [if_neg (Nat.ne_of_gt hpos)]
  have hr : List.range a.last = List.range' 0 a.last := List.range_eq_range'
  have hll : ({ a with chain := c } : Gba α).last = a.last := rfl
  rw [hll, hr, h1]
  simp only [hbase]
  have hsz : 64 * a1.last + a1.size % 64 = a1.size := by unfold last; omega
  have hbits : ∀ j, j < 64 → ((a1.resetEmpty a1.last (64 * a1.last) (a1.size % 64)).mask a1.last).testBit j =
      decide (64 * a1.last + j = a1.size ∨ c (64 * a1.last + j) ≠ []) := by
    intro j hj
    rw [reset_bit (by omega) hj, h2.chain]
    have hb := hg.bit a1.last j hj
    have e1 : ¬ (64 * a1.last + j) / 64 < a.last := by rw [← hlast]; omega
    simp only [e1, if_false] at hb
    have hb' : (a1.mask a1.last).testBit j = decide (64 * a1.last + j = a1.size ∨ a.chain (64 * a1.last + j) ≠ []) := hb
    rw [hb']
    by_cases e3 : a.chain (64 * a1.last + j) = []
    · rw [e3, hn _ e3]
      by_cases e4 : 64 * a1.last + j = a1.size
      · have : a1.size % 64 ≤ j := by omega
        simp [e4, this]
      · simp [e4]
    · have hlt : 64 * a1.last + j < a.size := h.nonempty_lt e3
      have e4 : ¬ a1.size % 64 ≤ j := by rw [← h2.size] at hlt; omega
      have e5 : 64 * a1.last + j ≠ a1.size := by rw [h2.size]; omega
      simp only [e3, e4, e5, ne_eq, not_false_eq_true, or_true, decide_true, Bool.true_and, decide_false, Bool.false_or, false_or]
      cases c (64 * a1.last + j) <;> simp
  have hmne : (a1.resetEmpty a1.last (64 * a1.last) (a1.size % 64)).mask a1.last ≠ 0 := by
    intro e
    have := hbits (a1.size % 64) (by omega)
    rw [e, hsz] at this
    simp at this
  have hs := ginv_shrink hg (g := a1.last) (m := (a1.resetEmpty a1.last (64 * a1.last) (a1.size % 64)).mask a1.last)
    (c := c) hm' hmne (reset_le (hlt _)) (by
      intro b hb
      show c b = if b / 64 < a.last then c b else a.chain b
      by_cases e : b / 64 < a.last
      · rw [if_pos e]
      · rw [if_neg e]
        have : a.size ≤ b := by
          rw [hlast] at hb
          unfold last at hb e
          have := hb
          omega
        rw [h.beyond b this, hn b (h.beyond b this)]) (by
      intro b hb
      have hb' : (if b / 64 < a.last then c b else a.chain b) = [] := hb
      split at hb'
      · exact hb'
      · exact hn b hb') hbits
  refine ⟨_, L1, rfl, ?_, h2.size, h2.si, h2.mal, h2.chain⟩
  have he : up a1.mask a1.last ((a1.resetEmpty a1.last (64 * a1.last) (a1.size % 64)).mask a1.last) =
      (a1.resetEmpty a1.last (64 * a1.last) (a1.size % 64)).mask := by
    unfold resetEmpty; simp only [up_same]
  have : a1.resetEmpty a1.last (64 * a1.last) (a1.size % 64) =
      { ({ a1 with chain := fun b => if b / 64 < a.last then c b else a.chain b } : Gba α) with
        chain := c, mask := up a1.mask a1.last ((a1.resetEmpty a1.last (64 * a1.last) (a1.size % 64)).mask a1.last) } := by
    rw [he]
    have := h2.chain
    unfold resetEmpty
    cases a1; simp only [] at this; subst this; rfl
  rw [this]; exact hs

end Gba
end Fca

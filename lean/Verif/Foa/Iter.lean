/-
Iterators of the open-addressing containers.
Source: /repo/include/boost/unordered/detail/foa/table.hpp:85-285, 387-400, 469-496.

`pc` is modelled as the byte offset from the start of the group array (which is aligned to `sizeof(group_type)=16`, see
`Verif/Foa/Layout.lean`, so that `uintptr_t(pc)%16 = pc%16`), `p` as an index into the element array (`none` = nullptr).
-/
import Verif.Foa.Ops2

namespace Foa
variable {K V : Type}

/-- `table_iterator` (table.hpp:85-236): metadata pointer and element pointer. -/
structure It where
  pc : Nat
  p : Option Nat
deriving DecidableEq, Repr

namespace Arrays

/-- Metadata byte `*pc` (regular layout). -/
def byte (a : Arrays K V) (pc : Nat) : Nat := (a.grp (pc / 16)).md (pc % 16)

/-- First loop of `increment(true_type)` (table.hpp:158-168): rest of the current group. `.inr (pc,p)`: fell through to
the next group. Fuel exhaustion cannot happen with fuel 15. -/
def incIn (a : Arrays K V) : Nat → Nat → Nat → Option (It ⊕ (Nat × Nat))
  | 0, _, _ => none
  | fuel + 1, pc, p =>
    if pc % 16 = N - 1 then some (.inr (pc + (16 - (N - 1)), p + 1))
    else if a.byte (pc + 1) = 0 then incIn a fuel (pc + 1) (p + 1)
    else if a.byte (pc + 1) = 1 then some (.inl ⟨pc + 1, none⟩)
    else some (.inl ⟨pc + 1, some (p + 1)⟩)

/-- Second loop of `increment(true_type)` (table.hpp:170-185), also the tail of `increment(false_type)`
(table.hpp:198-214): whole groups. Reading beyond the last group is UB (`none`). -/
def incGroups (a : Arrays K V) : Nat → Nat → Nat → Option It
  | 0, _, _ => none
  | fuel + 1, pc, p =>
    if pc / 16 < 2 ^ a.k then
      match (a.grp (pc / 16)).occSlots with
      | n :: _ => if (a.grp (pc / 16)).md n = 1 then some ⟨pc, none⟩ else some ⟨pc + n, some (p + n)⟩
      | [] => incGroups a fuel (pc + 16) (p + N)
    else none

/-- `increment(std::true_type)` (table.hpp:153-186). Incrementing a null iterator is UB (assertion, line 149). -/
def incRegular (a : Arrays K V) (it : It) : Option It :=
  match it.p with
  | none => none
  | some p =>
    match incIn a 15 it.pc p with
    | none => none
    | some (.inl r) => some r
    | some (.inr (pc, p)) => incGroups a (2 ^ a.k) pc p

/-- `increment(std::false_type)` after `pc_-=n0` (table.hpp:196-214): `mask=(match_occupied()>>(n0+1))<<(n0+1)`, then
following groups. -/
def incFrom (a : Arrays K V) (n0 pc p : Nat) : Option It :=
  match (a.grp (pc / 16)).occSlots.filter (fun j => n0 + 1 ≤ j) with
  | n :: _ => if (a.grp (pc / 16)).md n = 1 then some ⟨pc, none⟩ else some ⟨pc + n, some (p - n0 + n)⟩
  | [] => incGroups a (2 ^ a.k) (pc + 16) (p - n0 + N)

/-- `increment(std::false_type)` (table.hpp:188-215), interleaved layout, over the abstract group. `n0` is subtracted
from `pc` and later from `p`; here the pointer `p - n0` is formed first. -/
def incInterleaved (a : Arrays K V) (it : It) : Option It :=
  match it.p with
  | none => none
  | some p => a.incFrom (it.pc % 16) (it.pc - it.pc % 16) p

/-- `operator++`, according to `group_type::regular_layout`. -/
def inc (regular : Bool) (a : Arrays K V) (it : It) : Option It :=
  if regular then a.incRegular it else a.incInterleaved it

/-- `begin()` (table.hpp:387-393). -/
def begin_ (regular : Bool) (a : Arrays K V) : Option It :=
  if a.hasElems = true then
    if 0 ∈ (a.grp 0).occSlots then some ⟨0, some 0⟩ else a.inc regular ⟨0, some 0⟩
  else some ⟨0, none⟩

/-- The loop `for(auto it=begin();it!=end();++it)`, collecting the visited slots, at most `fuel` of them. -/
def walk (regular : Bool) (a : Arrays K V) : Nat → It → Option (List Pos)
  | fuel, it =>
    match it.p with
    | none => some []
    | some p =>
      match fuel with
      | 0 => none
      | fuel + 1 =>
        match a.inc regular it with
        | none => none
        | some it' => (walk regular a fuel it').map (fun l => (p / N, p % N) :: l)

end Arrays

/-- Iterator to slot `j` of group `g` (`make_iterator`, table.hpp:612-626). -/
def itAt (p : Pos) : It := ⟨16 * p.1 + p.2, some (15 * p.1 + p.2)⟩

/-- metadata byte of the slot with linear index `i` -/
def lin (a : Arrays K V) (i : Nat) : Nat := (a.grp (i / 15)).md (i % 15)

def toPos (i : Nat) : Pos := (i / 15, i % 15)

/-- linear index of the sentinel -/
def lastIdx (a : Arrays K V) : Nat := 15 * 2 ^ a.k - 1

theorem Live.lin_last {f : Fns K} {a : Arrays K V} (hl : Live f a) : lin a (lastIdx a) = 1 := by
  have := Nat.two_pow_pos a.k
  unfold lin lastIdx
  rw [show (15 * 2 ^ a.k - 1) / 15 = 2 ^ a.k - 1 by omega, show (15 * 2 ^ a.k - 1) % 15 = 14 by omega]
  exact hl.sent

theorem Live.lin_ne_one {f : Fns K} {a : Arrays K V} (hl : Live f a) {i : Nat} (hi : i < lastIdx a) : lin a i ≠ 1 := by
  have h2 := Nat.two_pow_pos a.k
  unfold lastIdx at hi
  have hv : Valid a.k (i / 15) (i % 15) := by
    refine ⟨by omega, by omega, ?_⟩
    rintro ⟨h1, h2⟩; omega
  unfold lin
  rcases hl.cell _ _ hv with ⟨h, _⟩ | ⟨x, _, h⟩
  · omega
  · have := rhash_ge_two (f.hash x.1); omega

/-- What `++` must do from linear index `i`: go to the next index with a nonzero byte. -/
def NextSpec (a : Arrays K V) (i : Nat) (r : Option It) : Prop :=
  ∃ i', i < i' ∧ i' ≤ lastIdx a ∧ (∀ m, i < m → m < i' → lin a m = 0) ∧ lin a i' ≠ 0 ∧
    ∃ it, r = some it ∧ (if i' = lastIdx a then it.p = none else it = itAt (toPos i'))

theorem occSlots_nil {G : Group} (h : G.occSlots = []) {j : Nat} (hj : j < 15) : G.md j = 0 := by
  by_contra hc
  have : j ∈ G.occSlots := by simp [Group.occSlots, N, hj, hc]
  rw [h] at this; cases this

theorem filter_range_head {n : Nat} {p : Nat → Bool} {x : Nat} {xs : List Nat}
    (h : (List.range n).filter p = x :: xs) : x < n ∧ p x = true ∧ ∀ m < x, p m = false := by
  have hx : x ∈ (List.range n).filter p := by rw [h]; simp
  rw [List.mem_filter, List.mem_range] at hx
  refine ⟨hx.1, hx.2, ?_⟩
  intro m hm
  by_contra hc
  have hmem : m ∈ (List.range n).filter p := by
    rw [List.mem_filter, List.mem_range]; exact ⟨by omega, by simpa using hc⟩
  have hs : ((List.range n).filter p).Pairwise (· < ·) := List.pairwise_lt_range.filter _
  rw [h] at hmem hs
  rw [List.pairwise_cons] at hs
  rcases List.mem_cons.mp hmem with h1 | h1
  · omega
  · have := hs.1 m h1; omega

theorem occSlots_cons {G : Group} {n : Nat} {ns : List Nat} (h : G.occSlots = n :: ns) :
    n < 15 ∧ G.md n ≠ 0 ∧ ∀ m < n, G.md m = 0 := by
  unfold Group.occSlots at h
  obtain ⟨h1, h2, h3⟩ := filter_range_head h
  exact ⟨h1, by simpa using h2, fun m hm => by simpa using h3 m hm⟩

theorem NextSpec.found {f : Fns K} {a : Arrays K V} (hl : Live f a) {i g n : Nat} {it : It} (hg : g < 2 ^ a.k)
    (hn : n < 15) (hi : i < 15 * g + n) (hz : ∀ m, i < m → m < 15 * g + n → lin a m = 0)
    (hne : (a.grp g).md n ≠ 0)
    (h1 : (a.grp g).md n = 1 → it.p = none) (h2 : (a.grp g).md n ≠ 1 → it = itAt (g, n)) :
    NextSpec a i (some it) := by
  have hlin : lin a (15 * g + n) = (a.grp g).md n := by
    unfold lin; rw [show (15 * g + n) / 15 = g by omega, show (15 * g + n) % 15 = n by omega]
  have hp : toPos (15 * g + n) = (g, n) := by
    unfold toPos; rw [show (15 * g + n) / 15 = g by omega, show (15 * g + n) % 15 = n by omega]
  refine ⟨15 * g + n, hi, ?_, hz, by rw [hlin]; exact hne, it, rfl, ?_⟩
  · unfold lastIdx; omega
  · split
    · next hlast =>
      apply h1
      have := hl.lin_last
      rw [← hlast, hlin] at this; exact this
    · next hlast =>
      rw [hp]
      apply h2
      have hlt : 15 * g + n < lastIdx a := by unfold lastIdx at *; omega
      have := hl.lin_ne_one hlt
      rwa [hlin] at this

theorem incGroups_spec {f : Fns K} {a : Arrays K V} (hl : Live f a) (i : Nat) : ∀ (fuel g : Nat),
    i < 15 * g → g < 2 ^ a.k → 2 ^ a.k ≤ fuel + g → (∀ m, i < m → m < 15 * g → lin a m = 0) →
    NextSpec a i (a.incGroups fuel (16 * g) (15 * g)) := by
  intro fuel
  induction fuel with
  | zero => intro g _ hg hf; omega
  | succ fuel ih =>
    intro g hig hg hf hz
    unfold Arrays.incGroups
    rw [show 16 * g / 16 = g by omega, if_pos hg]
    split
    · next n ns hocc =>
      obtain ⟨h1, h2, h3⟩ := occSlots_cons hocc
      have hz' : ∀ m, i < m → m < 15 * g + n → lin a m = 0 := by
        intro m hm hm'
        by_cases hmg : m < 15 * g
        · exact hz m hm hmg
        · unfold lin
          rw [show m / 15 = g by omega]
          exact h3 _ (by omega)
      split
      · next hs => exact NextSpec.found hl hg h1 (by omega) hz' h2 (fun _ => rfl) (fun h => absurd hs h)
      · next hs => exact NextSpec.found hl hg h1 (by omega) hz' h2 (fun h => absurd h hs) (fun _ => rfl)
    · next hocc =>
      by_cases hg' : g + 1 < 2 ^ a.k
      · have := ih (g + 1) (by omega) hg' (by omega) (by
          intro m hm hm'
          by_cases hmg : m < 15 * g
          · exact hz m hm hmg
          · unfold lin
            rw [show m / 15 = g by omega]
            exact occSlots_nil hocc (by omega))
        exact this
      · have : g = 2 ^ a.k - 1 := by omega
        have hs := hl.sent
        rw [← this, occSlots_nil hocc (by omega)] at hs
        cases hs

theorem incIn_spec {f : Fns K} {a : Arrays K V} (hl : Live f a) (g j : Nat) (hv : Valid a.k g j) :
    ∀ (fuel l : Nat), j ≤ l → l < 15 → 15 ≤ fuel + l →
    (∀ m, j < m → m ≤ l → (a.grp g).md m = 0) →
    (∃ it, a.incIn fuel (16 * g + l) (15 * g + l) = some (.inl it) ∧ NextSpec a (15 * g + j) (some it)) ∨
    (a.incIn fuel (16 * g + l) (15 * g + l) = some (.inr (16 * (g + 1), 15 * (g + 1))) ∧
      ∀ m, j < m → m < 15 → (a.grp g).md m = 0) := by
  intro fuel
  induction fuel with
  | zero => intro l _ hl' hf; omega
  | succ fuel ih =>
    intro l hjl hl15 hf hz
    unfold Arrays.incIn
    rw [show (16 * g + l) % 16 = l by omega]
    by_cases hlast : l = N - 1
    · right
      rw [if_pos hlast]
      simp only [N] at hlast
      refine ⟨by simp only [N]; congr 3 <;> omega, ?_⟩
      intro m hm hm'
      exact hz m hm (by omega)
    · rw [if_neg hlast]
      simp only [N] at hlast
      have hb : a.byte (16 * g + l + 1) = (a.grp g).md (l + 1) := by
        unfold Arrays.byte
        rw [show (16 * g + l + 1) / 16 = g by omega, show (16 * g + l + 1) % 16 = l + 1 by omega]
      rw [hb]
      have hzl : ∀ m, 15 * g + j < m → m < 15 * g + (l + 1) → lin a m = 0 := by
        intro m hm hm'
        unfold lin
        rw [show m / 15 = g by omega]
        exact hz _ (by omega) (by omega)
      by_cases h0 : (a.grp g).md (l + 1) = 0
      · rw [if_pos h0]
        refine ih (l + 1) (by omega) (by omega) (by omega) ?_
        intro m hm hm'
        by_cases hml : m = l + 1
        · rw [hml]; exact h0
        · exact hz m hm (by omega)
      · rw [if_neg h0]
        left
        by_cases h1 : (a.grp g).md (l + 1) = 1
        · rw [if_pos h1]
          exact ⟨_, rfl, NextSpec.found hl hv.1 (by omega) (by omega) hzl h0 (fun _ => rfl) (fun h => absurd h1 h)⟩
        · rw [if_neg h1]
          exact ⟨_, rfl, NextSpec.found hl hv.1 (by omega) (by omega) hzl h0 (fun h => absurd h h1) (fun _ => rfl)⟩

theorem next_group {f : Fns K} {a : Arrays K V} (hl : Live f a) {g j : Nat} (hv : Valid a.k g j)
    (hz : ∀ m, j < m → m < 15 → (a.grp g).md m = 0) : g + 1 < 2 ^ a.k := by
  obtain ⟨h1, h2, h3⟩ := hv
  by_contra hc
  have hg : g = 2 ^ a.k - 1 := by omega
  have hs := hl.sent
  rw [← hg, hz 14 (by omega) (by omega)] at hs
  cases hs

theorem inc_spec {f : Fns K} {a : Arrays K V} (hl : Live f a) (regular : Bool) {g j : Nat} (hv : Valid a.k g j) :
    NextSpec a (15 * g + j) (a.inc regular (itAt (g, j))) := by
  have hj : j < 15 := hv.2.1
  have tail : (∀ m, j < m → m < 15 → (a.grp g).md m = 0) →
      NextSpec a (15 * g + j) (a.incGroups (2 ^ a.k) (16 * (g + 1)) (15 * (g + 1))) := by
    intro hz
    have hg' := next_group hl hv hz
    refine incGroups_spec hl _ _ (g + 1) (by omega) hg' (by omega) ?_
    intro m hm hm'
    unfold lin
    rw [show m / 15 = g by omega]
    exact hz _ (by omega) (by omega)
  unfold Arrays.inc
  cases regular with
  | true =>
    simp only [if_true, Arrays.incRegular, itAt]
    rcases incIn_spec hl g j hv 15 j (Nat.le_refl _) hj (by omega) (by intro m h1 h2; omega) with
      ⟨it, h1, h2⟩ | ⟨h1, h2⟩
    · rw [h1]; exact h2
    · rw [h1]; exact tail h2
  | false =>
    simp only [Bool.false_eq_true, if_false, Arrays.incInterleaved, itAt]
    rw [show (16 * g + j) % 16 = j by omega, show 16 * g + j - j = 16 * g by omega]
    unfold Arrays.incFrom
    rw [show 15 * g + j - j = 15 * g by omega, show 16 * g / 16 = g by omega]
    split
    · next n ns hocc =>
      unfold Group.occSlots at hocc
      rw [List.filter_filter] at hocc
      obtain ⟨h1, h2, h3⟩ := filter_range_head hocc
      simp only [N] at h1
      simp only [Bool.and_eq_true, decide_eq_true_eq, bne_iff_ne] at h2
      have hz : ∀ m, 15 * g + j < m → m < 15 * g + n → lin a m = 0 := by
        intro m hm hm'
        unfold lin
        rw [show m / 15 = g by omega]
        have := h3 (m % 15) (by omega)
        simp only [Bool.and_eq_false_iff, decide_eq_false_iff_not, bne_eq_false_iff_eq] at this
        rcases this with h | h
        · omega
        · exact h
      split
      · next hs => exact NextSpec.found hl hv.1 h1 (by omega) hz h2.2 (fun _ => rfl) (fun h => absurd hs h)
      · next hs => exact NextSpec.found hl hv.1 h1 (by omega) hz h2.2 (fun h => absurd h hs) (fun _ => rfl)
    · next hocc =>
      apply tail
      intro m hm hm'
      by_contra hc
      have : m ∈ (a.grp g).occSlots.filter (fun l => decide (j + 1 ≤ l)) := by
        simp [Group.occSlots, N, hm', hc]; omega
      rw [hocc] at this; cases this

/-! ### the walk visits exactly `occ` -/

/-- remaining occupied slots from linear index `i` on -/
def rest (a : Arrays K V) (i : Nat) : List Pos :=
  ((List.range' i (lastIdx a - i)).filter (fun m => lin a m != 0)).map toPos

theorem range_mul15 (n : Nat) :
    (List.range n).flatMap (fun g => (List.range 15).map (fun j => ((g, j) : Pos))) = (List.range (15 * n)).map toPos := by
  induction n with
  | zero => rfl
  | succ n ih =>
    rw [List.range_succ (n := n), List.flatMap_append, ih, show 15 * (n + 1) = 15 * n + 15 by omega, List.range_add,
      List.map_append, List.flatMap_cons, List.flatMap_nil, List.append_nil, List.map_map]
    congr 1
    apply List.map_congr_left
    intro j hj
    rw [List.mem_range] at hj
    simp only [Function.comp, toPos]
    congr 1 <;> omega

theorem occ_eq_rest {a : Arrays K V} (he : a.hasElems = true) : a.occ = rest a 0 := by
  have h2 := Nat.two_pow_pos a.k
  unfold Arrays.occ rest Arrays.allPos
  rw [if_pos he]
  simp only [N]
  rw [range_mul15, List.filter_map, Nat.sub_zero, ← List.range_eq_range']
  congr 1
  have : 15 * 2 ^ a.k = lastIdx a + 1 := by unfold lastIdx; omega
  rw [this, List.range_succ, List.filter_append]
  have hlast : [lastIdx a].filter ((fun p : Pos => (a.grp p.1).md p.2 != 0 &&
      !(decide (p.1 = 2 ^ a.k - 1) && decide (p.2 = 15 - 1))) ∘ toPos) = [] := by
    have h1 : lastIdx a / 15 = 2 ^ a.k - 1 := by unfold lastIdx; omega
    have h3 : lastIdx a % 15 = 14 := by unfold lastIdx; omega
    simp [Function.comp, toPos, h1, h3]
  rw [hlast, List.append_nil]
  apply List.filter_congr
  intro m hm
  rw [List.mem_range] at hm
  show ((a.grp (m / 15)).md (m % 15) != 0 && !(decide (m / 15 = 2 ^ a.k - 1) && decide (m % 15 = 14))) =
    ((a.grp (m / 15)).md (m % 15) != 0)
  have : ¬ (m / 15 = 2 ^ a.k - 1 ∧ m % 15 = 14) := by unfold lastIdx at hm; omega
  have : (decide (m / 15 = 2 ^ a.k - 1) && decide (m % 15 = 14)) = false := by
    simp only [Bool.and_eq_false_iff, decide_eq_false_iff_not]; tauto
  rw [this]; simp

theorem rest_skip {a : Arrays K V} : ∀ (d i : Nat), (∀ m, i ≤ m → m < i + d → lin a m = 0) → i + d ≤ lastIdx a →
    rest a i = rest a (i + d) := by
  intro d
  induction d with
  | zero => intro i _ _; rfl
  | succ d ih =>
    intro i hz hle
    have h1 : rest a i = rest a (i + 1) := by
      unfold rest
      rw [show lastIdx a - i = (lastIdx a - (i + 1)) + 1 by omega, List.range'_succ, List.filter_cons_of_neg]
      simp [hz i (Nat.le_refl _) (by omega)]
    rw [h1, ih (i + 1) (fun m h h' => hz m (by omega) (by omega)) (by omega)]
    congr 1; omega

theorem rest_last {a : Arrays K V} : rest a (lastIdx a) = [] := by
  unfold rest; simp

theorem rest_cons {a : Arrays K V} {i : Nat} (hi : i < lastIdx a) (h : lin a i ≠ 0) :
    rest a i = toPos i :: rest a (i + 1) := by
  unfold rest
  rw [show lastIdx a - i = (lastIdx a - (i + 1)) + 1 by omega, List.range'_succ, List.filter_cons_of_pos, List.map_cons]
  simp [h]

/-- `NextSpec` in terms of the remaining list. -/
theorem NextSpec.rest {a : Arrays K V} {i : Nat} {r : Option It} (h : NextSpec a i r) :
    ∃ it, r = some it ∧
      ((it.p = none ∧ Foa.rest a (i + 1) = []) ∨
       (∃ i', i < i' ∧ i' < lastIdx a ∧ lin a i' ≠ 0 ∧ it = itAt (toPos i') ∧
        Foa.rest a (i + 1) = toPos i' :: Foa.rest a (i' + 1))) := by
  obtain ⟨i', h1, h2, h3, h4, it, h5, h6⟩ := h
  refine ⟨it, h5, ?_⟩
  have hskip : Foa.rest a (i + 1) = Foa.rest a i' := by
    have := rest_skip (a := a) (i' - (i + 1)) (i + 1) (fun m h h' => h3 m (by omega) (by omega)) (by omega)
    rw [this]; congr 1; omega
  split at h6
  · next hl => left; exact ⟨h6, by rw [hskip, hl, rest_last]⟩
  · next hl => right; exact ⟨i', h1, by omega, h4, h6, by rw [hskip, rest_cons (by omega) h4]⟩

theorem walk_spec {f : Fns K} {a : Arrays K V} (hl : Live f a) (regular : Bool) : ∀ (fuel : Nat) (it : It) (i : Nat),
    ((it.p = none ∧ rest a i = []) ∨ (∃ i', i' < lastIdx a ∧ it = itAt (toPos i') ∧
      rest a i = toPos i' :: rest a (i' + 1))) →
    (rest a i).length ≤ fuel → a.walk regular fuel it = some (rest a i) := by
  intro fuel
  induction fuel with
  | zero =>
    intro it i h hlen
    rcases h with ⟨h1, h2⟩ | ⟨i', _, _, h3⟩
    · unfold Arrays.walk; simp only [h1, h2]
    · rw [h3] at hlen; simp at hlen
  | succ fuel ih =>
    intro it i h hlen
    rcases h with ⟨h1, h2⟩ | ⟨i', h0, h1, h3⟩
    · unfold Arrays.walk; simp only [h1, h2]
    · subst h1
      have hv : Valid a.k (i' / 15) (i' % 15) := by
        have := Nat.two_pow_pos a.k
        unfold lastIdx at h0
        refine ⟨by omega, by omega, ?_⟩
        rintro ⟨h1, h2⟩; omega
      have hn := inc_spec hl regular hv
      rw [show 15 * (i' / 15) + i' % 15 = i' by omega] at hn
      obtain ⟨it', e1, e2⟩ := hn.rest
      have hw := ih it' (i' + 1) (by
        rcases e2 with e2 | ⟨i2, q1, q2, q3, q4, q5⟩
        · exact Or.inl e2
        · exact Or.inr ⟨i2, q2, q4, q5⟩) (by rw [h3] at hlen; simpa using hlen)
      have e1' : a.inc regular (itAt (toPos i')) = some it' := e1
      unfold Arrays.walk
      simp only [e1', hw, Option.map_some]
      simp only [itAt, toPos, h3, N]
      rw [show (15 * (i' / 15) + i' % 15) / 15 = i' / 15 by omega,
        show (15 * (i' / 15) + i' % 15) % 15 = i' % 15 by omega]

theorem begin_spec {f : Fns K} {a : Arrays K V} (hl : Live f a) (he : a.hasElems = true) (regular : Bool) :
    ∃ it, a.begin_ regular = some it ∧
      ((it.p = none ∧ rest a 0 = []) ∨ (∃ i', i' < lastIdx a ∧ it = itAt (toPos i') ∧
      rest a 0 = toPos i' :: rest a (i' + 1))) := by
  have h2 : 2 ≤ 2 ^ a.k := by
    have := Nat.pow_le_pow_right (show 0 < 2 by omega) hl.kpos
    simpa using this
  have h0 : (0 : Nat) < lastIdx a := by unfold lastIdx; omega
  unfold Arrays.begin_
  rw [if_pos he]
  split
  · next h =>
    refine ⟨_, rfl, Or.inr ⟨0, h0, rfl, rest_cons h0 ?_⟩⟩
    simp only [Group.occSlots, List.mem_filter, bne_iff_ne] at h
    exact h.2
  · next h =>
    have hz : lin a 0 = 0 := by
      by_contra hc
      apply h
      unfold lin at hc
      simp only [Group.occSlots, List.mem_filter, bne_iff_ne, N]
      exact ⟨by simp, hc⟩
    have hn := inc_spec hl regular (g := 0) (j := 0) ⟨by omega, by omega, by omega⟩
    obtain ⟨it, e1, e2⟩ := hn.rest
    have hr : rest a 0 = rest a 1 := rest_skip (a := a) 1 0 (fun m h1 h2 => by
      rw [show m = 0 by omega]; exact hz) (by omega)
    refine ⟨it, e1, ?_⟩
    rw [hr]
    rcases e2 with e2 | ⟨i2, q1, q2, q3, q4, q5⟩
    · exact Or.inl e2
    · exact Or.inr ⟨i2, q2, q4, q5⟩

/-- Walking from `begin()` to `end()` visits exactly the occupied slots, each once, and stops. -/
theorem walk_begin {f : Fns K} {a : Arrays K V} (hi : a.Inv f) (regular : Bool) {n : Nat} (hn : a.occ.length ≤ n) :
    (a.begin_ regular).bind (a.walk regular n) = some a.occ := by
  rcases hi with ⟨he, hl⟩ | ⟨he, hd⟩
  · obtain ⟨it, h1, h2⟩ := begin_spec hl he regular
    rw [h1, Option.bind_some, occ_eq_rest he]
    rw [occ_eq_rest he] at hn
    exact walk_spec hl regular n it 0 h2 hn
  · have : a.occ = [] := by unfold Arrays.occ; simp [he]
    rw [this]
    unfold Arrays.begin_ Arrays.walk
    simp [he]

end Foa

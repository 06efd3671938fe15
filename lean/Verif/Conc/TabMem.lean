/-
Invariant of the arrays of a concurrent table while operations are in progress, and its preservation by every single write.
Lemmas only; the model is `Verif.Conc.Table`.
-/
import Verif.Conc.Table

namespace Conc.Tab
open Foa
open Conc.Locking (Mode)

variable {K V : Type}

/-- The group probed at step `i` from `p` in a table of `2^k` groups. -/
def pat (k p i : Nat) : Nat := (p + tri i) % 2 ^ k

theorem pat_lt (k p i : Nat) : pat k p i < 2 ^ k := Nat.mod_lt _ (Nat.two_pow_pos k)

theorem pat_zero (k p : Nat) (hp : p < 2 ^ k) : pat k p 0 = p := by simp [pat, tri, Nat.mod_eq_of_lt hp]

theorem pat_succ (k p i : Nat) : (pat k p i + (i + 1)) &&& (2 ^ k - 1) = pat k p (i + 1) := by
  rw [Nat.and_two_pow_sub_one_eq_mod, pat, pat, tri_succ, Nat.mod_add_mod, Nat.add_assoc]

theorem pat_onto (k p g : Nat) (hp : p < 2 ^ k) (hg : g < 2 ^ k) : ∃ i, i < 2 ^ k ∧ g = pat k p i := by
  have h := mem_probeSeq k p g hp hg
  rw [probeSeq_eq k p hp, List.mem_map] at h
  obtain ⟨i, hi, rfl⟩ := h
  exact ⟨i, List.mem_range.1 hi, rfl⟩

theorem posFor_lt {f : Fns K} (hf : f.Lawful) (a : Arrays K V) (x : K) : a.posFor (f.hash x) < 2 ^ a.k :=
  position_lt _ _ (hf.hash_lt x)

/-- The arrays of a table in use: `own` are the slots some thread is filling or emptying. -/
structure CLive (f : Fns K) (a : Arrays K V) (own : Nat → Nat → Prop) : Prop where
  kpos : 1 ≤ a.k
  sent : (a.grp (2 ^ a.k - 1)).md 14 = 1
  cell : ∀ g j, Valid a.k g j →
    ((a.grp g).md j = 0 ∧ a.slot g j = none) ∨
    (∃ x, a.slot g j = some x ∧ (a.grp g).md j = rhash (f.hash x.1)) ∨
    (a.slot g j = none ∧ 2 ≤ (a.grp g).md j ∧ own g j)
  inval : ∀ g j, ¬ Valid a.k g j → a.slot g j = none
  probe : ∀ g j x, a.slot g j = some x → ∃ i, i < 2 ^ a.k ∧ g = pat a.k (a.posFor (f.hash x.1)) i ∧
    ∀ i' < i, (a.grp (pat a.k (a.posFor (f.hash x.1)) i')).ofw.testBit (f.hash x.1 % 8) = true
  uniq : ∀ g j x g' j' y, a.slot g j = some x → a.slot g' j' = some y → f.eq x.1 y.1 = true → g = g' ∧ j = j'

namespace CLive
variable {f : Fns K} {a : Arrays K V} {own own' : Nat → Nat → Prop}

theorem valid (h : CLive f a own) {g j : Nat} {x : K × V} (hx : a.slot g j = some x) : Valid a.k g j := by
  by_contra hv
  rw [h.inval g j hv] at hx
  cases hx

theorem md (h : CLive f a own) {g j : Nat} {x : K × V} (hx : a.slot g j = some x) :
    (a.grp g).md j = rhash (f.hash x.1) := by
  rcases h.cell g j (h.valid hx) with ⟨_, h2⟩ | ⟨y, h1, h2⟩ | ⟨h2, _⟩
  · rw [h2] at hx; cases hx
  · rw [h1] at hx; cases hx; exact h2
  · rw [h2] at hx; cases hx

theorem valid_of (h : CLive f a own) {g j : Nat} (hg : g < 2 ^ a.k) (hj : j < 15) (hm : (a.grp g).md j ≠ 1) :
    Valid a.k g j := by
  refine ⟨hg, hj, ?_⟩
  rintro ⟨rfl, rfl⟩
  exact hm h.sent

theorem md_ne_one (h : CLive f a own) {g j : Nat} (hv : Valid a.k g j) : (a.grp g).md j ≠ 1 := by
  rcases h.cell g j hv with ⟨h2, _⟩ | ⟨y, h1, h2⟩ | ⟨_, h2, _⟩
  · omega
  · have := rhash_ge_two (f.hash y.1); omega
  · omega

theorem mono (h : CLive f a own) (ho : ∀ g j, own g j → own' g j) : CLive f a own' :=
  ⟨h.kpos, h.sent, fun g j hv => by
    rcases h.cell g j hv with h1 | h1 | ⟨h1, h2, h3⟩
    · exact .inl h1
    · exact .inr (.inl h1)
    · exact .inr (.inr ⟨h1, h2, ho _ _ h3⟩), h.inval, h.probe, h.uniq⟩

/-- a callback that leaves the key alone -/
theorem call (h : CLive f a own) {g j : Nat} {y : K × V} (hy : a.slot g j = some y) (v : V) :
    CLive f (a.setSlot g j (some (y.1, v))) own := by
  have key : ∀ i l x, (a.setSlot g j (some (y.1, v))).slot i l = some x → ∃ x', a.slot i l = some x' ∧ x'.1 = x.1 := by
    intro i l x hx
    simp only [Arrays.setSlot] at hx
    split at hx
    · rename_i hc
      obtain ⟨rfl, rfl⟩ := hc
      cases hx
      exact ⟨y, hy, rfl⟩
    · exact ⟨x, hx, rfl⟩
  refine ⟨h.kpos, h.sent, ?_, ?_, ?_, ?_⟩
  · intro i l hv
    by_cases hc : i = g ∧ l = j
    · obtain ⟨rfl, rfl⟩ := hc
      exact .inr (.inl ⟨(y.1, v), by simp [Arrays.setSlot], (h.md hy : _ = rhash (f.hash y.1))⟩)
    · have := h.cell i l hv
      simpa [Arrays.setSlot, hc] using this
  · intro i l hv
    by_cases hc : i = g ∧ l = j
    · obtain ⟨rfl, rfl⟩ := hc
      exact absurd (h.valid hy) hv
    · have := h.inval i l hv
      simpa [Arrays.setSlot, hc] using this
  · intro i l x hx
    obtain ⟨x', hx', he⟩ := key i l x hx
    have := h.probe i l x' hx'
    rw [he] at this
    exact this
  · intro g1 j1 x1 g2 j2 x2 h1 h2 he
    obtain ⟨y1, hy1, e1⟩ := key _ _ _ h1
    obtain ⟨y2, hy2, e2⟩ := key _ _ _ h2
    exact h.uniq _ _ _ _ _ _ hy1 hy2 (by rw [e1, e2]; exact he)

/-- destroying an element -/
theorem take (h : CLive f a own) {g j : Nat} {y : K × V} (hy : a.slot g j = some y)
    (ho : ∀ i l, own i l → own' i l) (hn : own' g j) : CLive f (a.setSlot g j none) own' := by
  have key : ∀ i l x, (a.setSlot g j none).slot i l = some x → a.slot i l = some x := by
    intro i l x hx
    simp only [Arrays.setSlot] at hx
    split at hx
    · cases hx
    · exact hx
  refine ⟨h.kpos, h.sent, ?_, ?_, fun i l x hx => h.probe i l x (key i l x hx),
    fun g1 j1 x1 g2 j2 x2 h1 h2 he => h.uniq _ _ _ _ _ _ (key _ _ _ h1) (key _ _ _ h2) he⟩
  · intro i l hv
    by_cases hc : i = g ∧ l = j
    · obtain ⟨rfl, rfl⟩ := hc
      refine .inr (.inr ⟨by simp [Arrays.setSlot], ?_, hn⟩)
      have := h.md hy
      simp only [Arrays.setSlot]
      rw [this]
      exact rhash_ge_two _
    · have := (h.mono ho).cell i l hv
      simpa [Arrays.setSlot, hc] using this
  · intro i l hv
    by_cases hc : i = g ∧ l = j
    · simp [Arrays.setSlot, hc]
    · have := h.inval i l hv
      simpa [Arrays.setSlot, hc] using this

/-- a change of one group that keeps overflow bits -/
theorem regroup (h : CLive f a own) {g j : Nat} (hv : Valid a.k g j) (G : Group)
    (hmd : ∀ l, l ≠ j → G.md l = (a.grp g).md l) (hofw : G.ofw = (a.grp g).ofw)
    (hj : a.slot g j = none) (hc : G.md j = 0 ∨ (2 ≤ G.md j ∧ own' g j))
    (ho : ∀ i l, own i l → (i = g ∧ l = j) ∨ own' i l) : CLive f (a.setGrp g G) own' := by
  have hofw' : ∀ i, ((a.setGrp g G).grp i).ofw = (a.grp i).ofw := by
    intro i
    simp only [Arrays.setGrp]
    split
    · rename_i hi; rw [hi, hofw]
    · rfl
  have hmd' : ∀ i l, ¬ (i = g ∧ l = j) → ((a.setGrp g G).grp i).md l = (a.grp i).md l := by
    intro i l hn
    simp only [Arrays.setGrp]
    split
    · rename_i hi
      subst hi
      exact hmd l (fun hl => hn ⟨rfl, hl⟩)
    · rfl
  refine ⟨h.kpos, ?_, ?_, h.inval, ?_, h.uniq⟩
  · rw [show (a.setGrp g G).k = a.k from rfl, hmd']
    · exact h.sent
    · exact fun hn => hv.2.2 ⟨hn.1.symm, hn.2.symm⟩
  · intro i l hv'
    by_cases hn : i = g ∧ l = j
    · obtain ⟨rfl, rfl⟩ := hn
      have hg : (a.setGrp i G).grp i = G := by simp [Arrays.setGrp]
      rw [hg]
      rcases hc with hc | hc
      · exact .inl ⟨hc, hj⟩
      · exact .inr (.inr ⟨hj, hc⟩)
    · rw [hmd' i l hn]
      rcases h.cell i l hv' with h1 | h1 | ⟨h1, h2, h3⟩
      · exact .inl h1
      · exact .inr (.inl h1)
      · exact .inr (.inr ⟨h1, h2, (ho _ _ h3).resolve_left hn⟩)
  · intro i l x hx
    obtain ⟨n, hn, he, hb⟩ := h.probe i l x hx
    exact ⟨n, hn, he, fun i' hi' => by rw [hofw']; exact hb i' hi'⟩

/-- marking overflow -/
theorem mark (h : CLive f a own) (g hh : Nat) : CLive f (a.setGrp g ((a.grp g).markOverflow hh)) own := by
  have hmd' : ∀ i l, ((a.setGrp g ((a.grp g).markOverflow hh)).grp i).md l = (a.grp i).md l := by
    intro i l
    simp only [Arrays.setGrp]
    split
    · rename_i hi; subst hi; rfl
    · rfl
  have hofw' : ∀ i b, (a.grp i).ofw.testBit b = true →
      ((a.setGrp g ((a.grp g).markOverflow hh)).grp i).ofw.testBit b = true := by
    intro i b hb
    simp only [Arrays.setGrp]
    split
    · rename_i hi; subst hi; simp only [Group.markOverflow, testBit_mark, hb, Bool.true_or]
    · exact hb
  refine ⟨h.kpos, ?_, ?_, h.inval, ?_, h.uniq⟩
  · rw [show (a.setGrp g ((a.grp g).markOverflow hh)).k = a.k from rfl, hmd']
    exact h.sent
  · intro i l hv'
    rw [hmd']
    exact h.cell i l hv'
  · intro i l x hx
    obtain ⟨n, hn, he, hb⟩ := h.probe i l x hx
    exact ⟨n, hn, he, fun i' hi' => hofw' _ _ (hb i' hi')⟩

/-- constructing an element in a reserved slot -/
theorem put (h : CLive f a own) (hf : f.Lawful) {g j : Nat} {x : K × V} (hv : Valid a.k g j)
    (hm : (a.grp g).md j = rhash (f.hash x.1)) {n : Nat} (hg : g = pat a.k (a.posFor (f.hash x.1)) n)
    (hb : ∀ i < n, (a.grp (pat a.k (a.posFor (f.hash x.1)) i)).ofw.testBit (f.hash x.1 % 8) = true)
    (hno : ∀ i l y, a.slot i l = some y → f.eq x.1 y.1 = false)
    (ho : ∀ i l, own i l → (i = g ∧ l = j) ∨ own' i l) : CLive f (a.setSlot g j (some x)) own' := by
  refine ⟨h.kpos, h.sent, ?_, ?_, ?_, ?_⟩
  · intro i l hv'
    by_cases hn : i = g ∧ l = j
    · obtain ⟨rfl, rfl⟩ := hn
      exact .inr (.inl ⟨x, by simp [Arrays.setSlot], hm⟩)
    · have : (a.setSlot g j (some x)).slot i l = a.slot i l := by simp [Arrays.setSlot, hn]
      rw [this]
      rcases h.cell i l hv' with h1 | h1 | ⟨h1, h2, h3⟩
      · exact .inl h1
      · exact .inr (.inl h1)
      · exact .inr (.inr ⟨h1, h2, (ho _ _ h3).resolve_left hn⟩)
  · intro i l hv'
    by_cases hn : i = g ∧ l = j
    · obtain ⟨rfl, rfl⟩ := hn
      exact absurd hv hv'
    · have := h.inval i l hv'
      simpa [Arrays.setSlot, hn] using this
  · intro i l y hy
    simp only [Arrays.setSlot] at hy
    split at hy
    · rename_i hc
      obtain ⟨rfl, rfl⟩ := hc
      cases hy
      obtain ⟨i0, hi0, he⟩ := pat_onto a.k (a.posFor (f.hash x.1)) i (posFor_lt hf a x.1) hv.1
      by_cases hlt : i0 ≤ n
      · exact ⟨i0, hi0, he, fun i' hi' => hb i' (by omega)⟩
      · exact ⟨n, by show n < 2 ^ a.k; omega, hg, hb⟩
    · exact h.probe i l y hy
  · intro g1 j1 x1 g2 j2 x2 h1 h2 he
    simp only [Arrays.setSlot] at h1 h2
    split at h1 <;> split at h2
    · rename_i c1 c2; exact ⟨c1.1.trans c2.1.symm, c1.2.trans c2.2.symm⟩
    · cases h1
      rw [hno _ _ _ h2] at he
      cases he
    · cases h2
      have := hf.symm _ _ he
      rw [hno _ _ _ h1] at this
      cases this
    · exact h.uniq _ _ _ _ _ _ h1 h2 he

end CLive

/-- Nobody is working on the table: the sequential invariant. -/
theorem CLive.live {f : Fns K} (hf : f.Lawful) {a : Arrays K V} {own : Nat → Nat → Prop} (h : CLive f a own)
    (ho : ∀ g j, ¬ own g j) : Live f a where
  kpos := h.kpos
  sent := h.sent
  cell g j hv := by
    rcases h.cell g j hv with h1 | h1 | ⟨_, _, h3⟩
    · exact .inl h1
    · exact .inr h1
    · exact absurd h3 (ho _ _)
  inval := h.inval
  probe g j x hx pre post hp g' hg' := by
    obtain ⟨i, hi, he, hb⟩ := h.probe g j x hx
    have hpos := posFor_lt hf a x.1
    rw [Arrays.mask, probeSeq_eq _ _ hpos] at hp
    obtain ⟨q, hq, he'⟩ := List.mem_iff_getElem.1 hg'
    have hlen : pre.length + (post.length + 1) = 2 ^ a.k := by
      have := congrArg List.length hp
      simpa using this.symm
    have e1 : (pre ++ g :: post)[q]'(by simp; omega) = g' := by rw [List.getElem_append_left hq, he']
    have e2 : (pre ++ g :: post)[pre.length]'(by simp) = g := by simp
    simp only [← hp, List.getElem_map, List.getElem_range] at e1 e2
    have hpre : pre.length = i := by
      refine tri_inj a.k _ _ (by omega) hi ?_
      have e3 : (a.posFor (f.hash x.1) + tri pre.length) % 2 ^ a.k = (a.posFor (f.hash x.1) + tri i) % 2 ^ a.k :=
        e2.trans he
      exact Nat.ModEq.add_left_cancel' _ e3
    rw [← e1]
    exact hb q (by omega)
  uniq := h.uniq

theorem CLive.of_live {f : Fns K} (hf : f.Lawful) {a : Arrays K V} (own : Nat → Nat → Prop) (h : Live f a) :
    CLive f a own where
  kpos := h.kpos
  sent := h.sent
  cell g j hv := by
    rcases h.cell g j hv with h1 | h1
    · exact .inl h1
    · exact .inr (.inl h1)
  inval := h.inval
  probe g j x hx := by
    have hpos := posFor_lt hf a x.1
    obtain ⟨i, hi, he⟩ := pat_onto a.k (a.posFor (f.hash x.1)) g hpos (h.slot_valid hx).1.1
    refine ⟨i, hi, he, fun i' hi' => ?_⟩
    have hs := probeSeq_eq _ _ hpos
    have hsplit : List.range (2 ^ a.k) = List.range i ++ i :: List.range' (i + 1) (2 ^ a.k - (i + 1)) := by
      have h1 : List.range (2 ^ a.k) = List.range (i + (1 + (2 ^ a.k - (i + 1)))) := by congr 1; omega
      rw [h1, List.range_add, Nat.add_comm 1]
      simp [List.range_succ_eq_map, List.range'_eq_map_range]
      intro b _; omega
    rw [hsplit, List.map_append, List.map_cons] at hs
    refine h.probe g j x hx _ _ (by rw [Arrays.mask, hs, he]; rfl) _ ?_
    exact List.mem_map.2 ⟨i', List.mem_range.2 hi', rfl⟩
  uniq := h.uniq

end Conc.Tab

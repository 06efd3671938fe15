/-
Representation invariant of the open-addressing arrays and the basic lemmas about find, emplace and erase.
-/
import Verif.Foa.Table
import Mathlib.Data.List.Perm.Subperm
import Mathlib.Data.List.Flatten

namespace Foa

variable {K V : Type}

/-- A usable slot: within the arrays and not the sentinel slot. -/
def Valid (k g j : Nat) : Prop := g < 2 ^ k ∧ j < 15 ∧ ¬ (g = 2 ^ k - 1 ∧ j = 14)

instance (k g j : Nat) : Decidable (Valid k g j) := by unfold Valid; infer_instance

/-- Invariant of allocated arrays. -/
structure Live (f : Fns K) (a : Arrays K V) : Prop where
  kpos : 1 ≤ a.k
  sent : (a.grp (2 ^ a.k - 1)).md 14 = 1
  cell : ∀ g j, Valid a.k g j →
    ((a.grp g).md j = 0 ∧ a.slot g j = none) ∨
    (∃ x, a.slot g j = some x ∧ (a.grp g).md j = rhash (f.hash x.1))
  inval : ∀ g j, ¬ Valid a.k g j → a.slot g j = none
  probe : ∀ g j x, a.slot g j = some x → ∀ pre post,
    probeSeq a.mask (a.posFor (f.hash x.1)) = pre ++ g :: post →
    ∀ g' ∈ pre, (a.grp g').ofw.testBit (f.hash x.1 % 8) = true
  uniq : ∀ g j x g' j' y, a.slot g j = some x → a.slot g' j' = some y → f.eq x.1 y.1 = true → g = g' ∧ j = j'

/-- Shape of the dummy arrays of a container with capacity 0. -/
structure IsDummy (a : Arrays K V) : Prop where
  keq : a.k = 1
  grp : ∀ g, a.grp g = Group.empty.setSentinel
  slot : ∀ g j, a.slot g j = none

/-- Invariant of arrays in general. -/
def Arrays.Inv (f : Fns K) (a : Arrays K V) : Prop :=
  (a.hasElems = true ∧ Live f a) ∨ (a.hasElems = false ∧ IsDummy a)

theorem mem_allPos {k : Nat} {p : Pos} : p ∈ Arrays.allPos k ↔ p.1 < 2 ^ k ∧ p.2 < 15 := by
  unfold Arrays.allPos
  simp only [List.mem_flatMap, List.mem_range, List.mem_map]
  constructor
  · rintro ⟨g, hg, j, hj, rfl⟩; exact ⟨hg, hj⟩
  · rintro ⟨h1, h2⟩; exact ⟨p.1, h1, p.2, h2, rfl⟩

theorem nodup_allPos (k : Nat) : (Arrays.allPos k).Nodup := by
  unfold Arrays.allPos
  rw [List.nodup_flatMap]
  constructor
  · intro g _
    exact List.nodup_range.map (fun a b h => by simpa using h)
  · refine List.nodup_range.imp ?_
    intro a b hab
    simp only [Function.onFun, List.Disjoint, List.mem_map]
    rintro p ⟨j, _, rfl⟩ ⟨j', _, h⟩
    exact hab (by simpa using (congrArg Prod.fst h).symm)

theorem length_allPos (k : Nat) : (Arrays.allPos k).length = 2 ^ k * 15 := by
  unfold Arrays.allPos
  simp [List.length_flatMap, N]

theorem mem_occ_iff {a : Arrays K V} {p : Pos} :
    p ∈ a.occ ↔ a.hasElems = true ∧ Valid a.k p.1 p.2 ∧ (a.grp p.1).md p.2 ≠ 0 := by
  unfold Arrays.occ
  split
  · next h =>
    rw [List.mem_filter, mem_allPos]
    simp only [Valid, N, Bool.and_eq_true, bne_iff_ne, Bool.not_eq_true', Bool.and_eq_false_iff, decide_eq_false_iff_not]
    tauto
  · next h => simp [h]

theorem nodup_occ (a : Arrays K V) : a.occ.Nodup := by
  unfold Arrays.occ
  split
  · exact (nodup_allPos _).filter _
  · exact List.nodup_nil

theorem Live.mem_occ {f : Fns K} {a : Arrays K V} (hl : Live f a) (he : a.hasElems = true) {g j : Nat} :
    (g, j) ∈ a.occ ↔ ∃ x, a.slot g j = some x := by
  rw [mem_occ_iff]
  constructor
  · rintro ⟨_, hv, hm⟩
    rcases hl.cell g j hv with ⟨h0, _⟩ | ⟨x, hx, _⟩
    · exact absurd h0 hm
    · exact ⟨x, hx⟩
  · rintro ⟨x, hx⟩
    have hv : Valid a.k g j := by
      by_contra hv
      rw [hl.inval g j hv] at hx; cases hx
    refine ⟨he, hv, ?_⟩
    rcases hl.cell g j hv with ⟨_, h0⟩ | ⟨y, hy, hm⟩
    · rw [h0] at hx; cases hx
    · have := rhash_ge_two (f.hash y.1)
      simp only; omega

theorem Live.slot_valid {f : Fns K} {a : Arrays K V} (hl : Live f a) {g j : Nat} {x : K × V}
    (h : a.slot g j = some x) : Valid a.k g j ∧ (a.grp g).md j = rhash (f.hash x.1) := by
  have hv : Valid a.k g j := by
    by_contra hv
    rw [hl.inval g j hv] at h; cases h
  refine ⟨hv, ?_⟩
  rcases hl.cell g j hv with ⟨_, h0⟩ | ⟨y, hy, hm⟩
  · rw [h0] at h; cases h
  · rw [hy] at h; cases h; exact hm

/-- membership of the abstraction -/
theorem Inv.mem_contents {f : Fns K} {a : Arrays K V} (hi : a.Inv f) {x : K × V} :
    x ∈ a.contents ↔ ∃ g j, a.slot g j = some x := by
  unfold Arrays.contents
  rw [List.mem_filterMap]
  rcases hi with ⟨he, hl⟩ | ⟨he, hd⟩
  · constructor
    · rintro ⟨⟨g, j⟩, _, h⟩; exact ⟨g, j, h⟩
    · rintro ⟨g, j, h⟩; exact ⟨(g, j), (hl.mem_occ he).mpr ⟨x, h⟩, h⟩
  · constructor
    · rintro ⟨⟨g, j⟩, _, h⟩; exact ⟨g, j, h⟩
    · rintro ⟨g, j, h⟩; rw [hd.slot] at h; cases h

theorem length_filterMap_of_some {α β : Type} (l : List α) (s : α → Option β) (h : ∀ p ∈ l, ∃ x, s p = some x) :
    (l.filterMap s).length = l.length := by
  induction l with
  | nil => rfl
  | cons p l ih =>
    obtain ⟨x, hx⟩ := h p (by simp)
    rw [List.filterMap_cons_some hx]
    simp [ih (fun q hq => h q (by simp [hq]))]

theorem Inv.length_contents {f : Fns K} {a : Arrays K V} (hi : a.Inv f) : a.contents.length = a.occ.length := by
  unfold Arrays.contents
  apply length_filterMap_of_some
  rintro ⟨g, j⟩ hp
  rcases hi with ⟨he, hl⟩ | ⟨he, hd⟩
  · exact (hl.mem_occ he).mp hp
  · simp [Arrays.occ, he] at hp

/-- keys of the abstraction are pairwise inequivalent -/
theorem Inv.contents_uniq {f : Fns K} {a : Arrays K V} (hi : a.Inv f) :
    a.contents.Pairwise (fun x y => f.eq x.1 y.1 = false) := by
  unfold Arrays.contents
  rw [List.pairwise_filterMap]
  refine (nodup_occ a).imp ?_
  rintro ⟨g, j⟩ ⟨g', j'⟩ hne x hx y hy
  rcases hi with ⟨he, hl⟩ | ⟨he, hd⟩
  · by_contra hc
    have := hl.uniq g j x g' j' y hx hy (by simpa using hc)
    exact hne (by rw [this.1, this.2])
  · simp [hd.slot] at hx

/-! ### find -/

theorem scanSlots_spec (slot : Nat → Option (K × V)) (p : K → Bool) (l : List Nat)
    (h : ∀ j ∈ l, ∃ x, slot j = some x) :
    (∃ j x, Arrays.scanSlots slot p l = some (some j) ∧ j ∈ l ∧ slot j = some x ∧ p x.1 = true) ∨
    (Arrays.scanSlots slot p l = some none ∧ ∀ j ∈ l, ∀ x, slot j = some x → p x.1 = false) := by
  induction l with
  | nil => right; simp [Arrays.scanSlots]
  | cons j js ih =>
    obtain ⟨x, hx⟩ := h j (by simp)
    by_cases hp : p x.1 = true
    · left
      exact ⟨j, x, by simp [Arrays.scanSlots, hx, hp], by simp, hx, hp⟩
    · rcases ih (fun i hi => h i (by simp [hi])) with ⟨i, y, h1, h2, h3, h4⟩ | ⟨h1, h2⟩
      · left
        exact ⟨i, y, by simp [Arrays.scanSlots, hx, hp, h1], by simp [h2], h3, h4⟩
      · right
        refine ⟨by simp [Arrays.scanSlots, hx, hp, h1], ?_⟩
        intro i hi y hy
        rcases List.mem_cons.mp hi with rfl | hi
        · rw [hx] at hy; cases hy; simpa using hp
        · exact h2 i hi y hy

theorem mem_matchSlots {G : Group} {h j : Nat} : j ∈ G.matchSlots h ↔ j < 15 ∧ G.md j = rhash h := by
  simp [Group.matchSlots, N]

theorem mem_availSlots {G : Group} {j : Nat} : j ∈ G.availSlots ↔ j < 15 ∧ G.md j = 0 := by
  simp [Group.availSlots, N]

theorem Live.match_live {f : Fns K} {a : Arrays K V} (hl : Live f a) {g h : Nat} (hg : g < 2 ^ a.k) :
    ∀ j ∈ (a.grp g).matchSlots h, ∃ x, a.slot g j = some x := by
  intro j hj
  obtain ⟨hj15, hm⟩ := mem_matchSlots.mp hj
  have hr := rhash_ge_two h
  have hv : Valid a.k g j := by
    refine ⟨hg, hj15, ?_⟩
    rintro ⟨rfl, rfl⟩
    rw [hl.sent] at hm; omega
  rcases hl.cell g j hv with ⟨h0, _⟩ | ⟨x, hx, _⟩
  · omega
  · exact ⟨x, hx⟩

theorem findLoop_spec {f : Fns K} (hf : f.Lawful) {a : Arrays K V} (hl : Live f a) (x : K) :
    ∀ (gs pre : List Nat), probeSeq a.mask (a.posFor (f.hash x)) = pre ++ gs →
    (∀ g ∈ pre, ∀ j y, a.slot g j = some y → f.eq x y.1 = false) →
    (∃ g j y, a.findLoop (f.eq x) (f.hash x) gs = some (some (g, j)) ∧ a.slot g j = some y ∧ f.eq x y.1 = true) ∨
    (a.findLoop (f.eq x) (f.hash x) gs = some none ∧ ∀ g j y, a.slot g j = some y → f.eq x y.1 = false) := by
  have hpos : a.posFor (f.hash x) < 2 ^ a.k := position_lt _ _ (hf.hash_lt x)
  intro gs
  induction gs with
  | nil =>
    intro pre hpre hno
    right
    refine ⟨rfl, ?_⟩
    intro g j y hy
    have hv := (hl.slot_valid hy).1
    have : g ∈ probeSeq a.mask (a.posFor (f.hash x)) := mem_probeSeq a.k _ g hpos hv.1
    rw [hpre, List.append_nil] at this
    exact hno g this j y hy
  | cons g gs ih =>
    intro pre hpre hno
    have hg : g < 2 ^ a.k := probeSeq_lt a.k _ hpos g (by
      show g ∈ probeSeq a.mask _
      rw [hpre]; simp)
    rcases scanSlots_spec (a.slot g) (f.eq x) _ (hl.match_live (h := f.hash x) hg) with
      ⟨j, y, h1, _, h3, h4⟩ | ⟨h1, h2⟩
    · left
      exact ⟨g, j, y, by simp [Arrays.findLoop, h1], h3, h4⟩
    · have hgno : ∀ j y, a.slot g j = some y → f.eq x y.1 = false := by
        intro j y hy
        by_contra hc
        have hc : f.eq x y.1 = true := by simpa using hc
        have hs := hl.slot_valid hy
        have : j ∈ (a.grp g).matchSlots (f.hash x) :=
          mem_matchSlots.mpr ⟨hs.1.2.1, by rw [hs.2, hf.compat _ _ hc]⟩
        have := h2 j this y hy
        simp [this] at hc
      by_cases ho : (a.grp g).isNotOverflowed (f.hash x) = true
      · right
        refine ⟨by simp [Arrays.findLoop, h1, ho], ?_⟩
        intro g' j y hy
        by_contra hc
        have hc : f.eq x y.1 = true := by simpa using hc
        have hv := (hl.slot_valid hy).1
        have hmem : g' ∈ probeSeq a.mask (a.posFor (f.hash x)) := mem_probeSeq a.k _ g' hpos hv.1
        obtain ⟨p2, q2, hpq⟩ := List.append_of_mem hmem
        have hh := hf.compat _ _ hc
        have hprobe := hl.probe g' j y hy p2 q2 (by rw [← hh]; exact hpq)
        -- g' is g, in pre, or after g
        by_cases hgg : g' = g
        · subst hgg; rw [hgno j y hy] at hc; cases hc
        · by_cases hgp : g' ∈ pre
          · rw [hno g' hgp j y hy] at hc; cases hc
          · have hin : g ∈ p2 := by
              have e : pre ++ g :: gs = p2 ++ g' :: q2 := by rw [← hpre, ← hpq]
              rcases List.append_eq_append_iff.mp e with ⟨c, hc1, hc2⟩ | ⟨c, hc1, hc2⟩
              · cases c with
                | nil => simp at hc2; exact absurd hc2.1.symm hgg
                | cons d c => simp at hc2; rw [hc1, hc2.1]; simp
              · cases c with
                | nil => simp at hc2; exact absurd hc2.1 hgg
                | cons d c => simp at hc2; exact absurd (by rw [hc1, ← hc2.1]; simp) hgp
            have := hprobe g hin
            simp [Group.isNotOverflowed, hh, this] at ho
      · have hpre' : probeSeq a.mask (a.posFor (f.hash x)) = (pre ++ [g]) ++ gs := by rw [hpre]; simp
        have := ih (pre ++ [g]) hpre' (by
          intro g' hg' j y hy
          rcases List.mem_append.mp hg' with h | h
          · exact hno g' h j y hy
          · simp at h; subst h; exact hgno j y hy)
        simpa [Arrays.findLoop, h1, ho] using this

theorem findLoop_dummy {a : Arrays K V} (hd : IsDummy a) (p : K → Bool) (h : Nat) (gs : List Nat) :
    a.findLoop p h gs = some none := by
  cases gs with
  | nil => rfl
  | cons g gs =>
    have hr := rhash_ge_two h
    have hm : (a.grp g).matchSlots h = [] := by
      rw [List.eq_nil_iff_forall_not_mem]
      intro j hj
      have := (mem_matchSlots.mp hj).2
      rw [hd.grp] at this
      simp only [Group.setSentinel, Group.empty] at this
      split at this <;> omega
    have ho : (a.grp g).isNotOverflowed h = true := by
      rw [hd.grp]; simp [Group.isNotOverflowed, Group.setSentinel, Group.empty]
    simp [Arrays.findLoop, hm, Arrays.scanSlots, ho]

theorem find_spec {f : Fns K} (hf : f.Lawful) {a : Arrays K V} (hi : a.Inv f) (x : K) :
    (∃ g j y, a.findLoop (f.eq x) (f.hash x) (probeSeq a.mask (a.posFor (f.hash x))) = some (some (g, j)) ∧
      a.slot g j = some y ∧ f.eq x y.1 = true) ∨
    (a.findLoop (f.eq x) (f.hash x) (probeSeq a.mask (a.posFor (f.hash x))) = some none ∧
      ∀ g j y, a.slot g j = some y → f.eq x y.1 = false) := by
  rcases hi with ⟨he, hl⟩ | ⟨he, hd⟩
  · exact findLoop_spec hf hl x _ [] rfl (by simp)
  · right
    exact ⟨findLoop_dummy hd _ _ _, by intro g j y hy; rw [hd.slot] at hy; cases hy⟩

/-! ### emplace -/

theorem Live.mark {f : Fns K} {a : Arrays K V} (hl : Live f a) (g h : Nat) :
    Live f (a.setGrp g ((a.grp g).markOverflow h)) := by
  have hmd : ∀ i j, ((a.setGrp g ((a.grp g).markOverflow h)).grp i).md j = (a.grp i).md j := by
    intro i j; simp only [Arrays.setGrp]; split
    · next e => subst e; rfl
    · rfl
  refine ⟨hl.kpos, ?_, ?_, hl.inval, ?_, hl.uniq⟩
  · rw [hmd]; exact hl.sent
  · intro i j hv; rw [hmd]; exact hl.cell i j hv
  · intro i j x hx pre post hp g' hg'
    have := hl.probe i j x hx pre post hp g' hg'
    simp only [Arrays.setGrp]
    split
    · next e => subst e; simp only [Group.markOverflow]; rw [testBit_mark, this]; rfl
    · exact this

/-- If every group is full, all usable slots are occupied. -/
theorem full_length {a : Arrays K V} (he : a.hasElems = true)
    (hfull : ∀ g < 2 ^ a.k, (a.grp g).availSlots = []) : capOf a.k ≤ a.occ.length := by
  have hsub : Arrays.allPos a.k ⊆ (2 ^ a.k - 1, 14) :: a.occ := by
    rintro ⟨g, j⟩ hp
    obtain ⟨h1, h2⟩ := mem_allPos.mp hp
    by_cases hs : g = 2 ^ a.k - 1 ∧ j = 14
    · simp [hs.1, hs.2]
    · apply List.mem_cons_of_mem
      rw [mem_occ_iff]
      refine ⟨he, ⟨h1, h2, hs⟩, ?_⟩
      intro h0
      have := mem_availSlots.mpr ⟨h2, h0⟩
      rw [hfull g h1] at this; simp at this
  have := (List.subperm_of_subset (nodup_allPos a.k) hsub).length_le
  rw [length_allPos] at this
  simp at this
  unfold capOf N; omega

/-- Result of placing `x` at slot (g,j): everything else is untouched except overflow bits. -/
structure Placed (a a' : Arrays K V) (h : Nat) (x : K × V) (g j : Nat) : Prop where
  k : a'.k = a.k
  hasElems : a'.hasElems = a.hasElems
  al : a'.al = a.al
  valid : Valid a.k g j
  free : a.slot g j = none
  slot : ∀ i l, a'.slot i l = if i = g ∧ l = j then some x else a.slot i l
  md : ∀ i l, (a'.grp i).md l = if i = g ∧ l = j then rhash h else (a.grp i).md l

theorem emplaceLoop_spec {f : Fns K} (hf : f.Lawful) (x : K × V) :
    ∀ (gs pre : List Nat) (a : Arrays K V), Live f a → a.hasElems = true → a.occ.length < capOf a.k →
    (∀ g j y, a.slot g j = some y → f.eq x.1 y.1 = false) →
    probeSeq a.mask (a.posFor (f.hash x.1)) = pre ++ gs →
    (∀ g ∈ pre, (a.grp g).availSlots = [] ∧ (a.grp g).ofw.testBit (f.hash x.1 % 8) = true) →
    ∃ a' g j, Arrays.emplaceLoop (f.hash x.1) x a gs = some (a', (g, j)) ∧ Live f a' ∧
      Placed a a' (f.hash x.1) x g j := by
  intro gs
  induction gs with
  | nil =>
    intro pre a hl he hlen hno hpre hfull
    exfalso
    have hpos : a.posFor (f.hash x.1) < 2 ^ a.k := position_lt _ _ (hf.hash_lt x.1)
    have := full_length he (fun g hg => (hfull g (by
      have := mem_probeSeq a.k _ g hpos hg
      change g ∈ probeSeq a.mask _ at this
      rwa [hpre, List.append_nil] at this)).1)
    omega
  | cons g gs ih =>
    intro pre a hl he hlen hno hpre hfull
    have hpos : a.posFor (f.hash x.1) < 2 ^ a.k := position_lt _ _ (hf.hash_lt x.1)
    have hg : g < 2 ^ a.k := probeSeq_lt a.k _ hpos g (by
      show g ∈ probeSeq a.mask _
      rw [hpre]; simp)
    cases hav : (a.grp g).availSlots with
    | nil =>
      have hl' := hl.mark g (f.hash x.1)
      set a1 := a.setGrp g ((a.grp g).markOverflow (f.hash x.1)) with ha1
      have hmd : ∀ i l, (a1.grp i).md l = (a.grp i).md l := by
        intro i l; simp only [ha1, Arrays.setGrp]; split
        · next e => subst e; rfl
        · rfl
      have hav1 : ∀ i, (a1.grp i).availSlots = (a.grp i).availSlots := by
        intro i; unfold Group.availSlots; simp only [hmd]
      have hocc : a1.occ = a.occ := by
        unfold Arrays.occ; simp only [hmd]; rfl
      obtain ⟨a', g', j', h1, h2, h3⟩ := ih (pre ++ [g]) a1 hl' he (by rw [hocc]; exact hlen) hno
        (by show probeSeq a.mask _ = _; rw [List.append_assoc]; exact hpre) (by
          intro i hi
          rw [hav1]
          rcases List.mem_append.mp hi with hi' | hi'
          · refine ⟨(hfull i hi').1, ?_⟩
            have hb := (hfull i hi').2
            simp only [ha1, Arrays.setGrp]; split
            · next e => subst e; simp only [Group.markOverflow]; rw [testBit_mark, hb]; rfl
            · exact hb
          · simp at hi'; subst hi'
            refine ⟨hav, ?_⟩
            simp only [ha1, Arrays.setGrp, if_true, Group.markOverflow]
            rw [testBit_mark]; simp)
      refine ⟨a', g', j', ?_, h2, ?_⟩
      · simp only [Arrays.emplaceLoop, hav, he, if_true]; exact h1
      · refine ⟨h3.k, h3.hasElems, h3.al, h3.valid, h3.free, h3.slot, ?_⟩
        intro i l; rw [h3.md, hmd]
    | cons j js =>
      have hj := mem_availSlots.mp (show j ∈ (a.grp g).availSlots by rw [hav]; simp)
      have hv : Valid a.k g j := by
        refine ⟨hg, hj.1, ?_⟩
        rintro ⟨rfl, rfl⟩
        rw [hl.sent] at hj; omega
      have hfree : a.slot g j = none := by
        rcases hl.cell g j hv with ⟨_, h⟩ | ⟨y, _, hm⟩
        · exact h
        · have := rhash_ge_two (f.hash y.1); omega
      refine ⟨(a.setSlot g j (some x)).setGrp g ((a.grp g).set j (f.hash x.1)), g, j, ?_, ?_, ?_⟩
      · simp [Arrays.emplaceLoop, hav, he, hfree]
      · have hmd : ∀ i l, (((a.setSlot g j (some x)).setGrp g ((a.grp g).set j (f.hash x.1))).grp i).md l =
            if i = g ∧ l = j then rhash (f.hash x.1) else (a.grp i).md l := by
          intro i l
          simp only [Arrays.setGrp, Arrays.setSlot]
          by_cases hi : i = g
          · subst hi; simp [Group.set]
          · simp [hi]
        have hofw : ∀ i, (((a.setSlot g j (some x)).setGrp g ((a.grp g).set j (f.hash x.1))).grp i).ofw =
            (a.grp i).ofw := by
          intro i
          simp only [Arrays.setGrp, Arrays.setSlot]
          split
          · next e => subst e; rfl
          · rfl
        have hslot : ∀ i l, ((a.setSlot g j (some x)).setGrp g ((a.grp g).set j (f.hash x.1))).slot i l =
            if i = g ∧ l = j then some x else a.slot i l := fun _ _ => rfl
        refine ⟨hl.kpos, ?_, ?_, ?_, ?_, ?_⟩
        · rw [hmd, if_neg]
          · exact hl.sent
          · rintro ⟨e1, e2⟩
            exact hv.2.2 ⟨e1.symm, e2.symm⟩
        · intro i l hvi
          rw [hmd, hslot]
          by_cases hil : i = g ∧ l = j
          · right; exact ⟨x, by simp [hil], by simp [hil]⟩
          · simp only [hil, if_false]; exact hl.cell i l hvi
        · intro i l hvi
          rw [hslot, if_neg]
          · exact hl.inval i l hvi
          · rintro ⟨rfl, rfl⟩; exact hvi hv
        · intro i l y hy p2 q2 hpq g' hg'
          rw [hofw]
          rw [hslot] at hy
          split at hy
          · next e =>
            cases hy
            obtain ⟨rfl, rfl⟩ := e
            have e : pre ++ i :: gs = p2 ++ i :: q2 := by rw [← hpre]; exact hpq
            have hnd := probeSeq_nodup a.k _ hpos
            change (probeSeq a.mask _).Nodup at hnd
            rw [hpre] at hnd
            have hnp : i ∉ pre := by
              intro hc
              have := List.disjoint_of_nodup_append hnd hc
              simp at this
            have : p2 = pre := by
              rcases List.append_eq_append_iff.mp e with ⟨c, hc1, hc2⟩ | ⟨c, hc1, hc2⟩
              · cases c with
                | nil => simpa using hc1
                | cons d c =>
                  exfalso
                  simp at hc2
                  have : i ∈ gs := by rw [hc2.2]; simp
                  have hnd2 := (List.nodup_append.mp hnd).2.1
                  simp at hnd2
                  exact hnd2.1 this
              · cases c with
                | nil => simpa using hc1.symm
                | cons d c =>
                  exfalso
                  simp at hc2
                  exact hnp (by rw [hc1, ← hc2.1]; simp)
            subst this
            exact (hfull g' hg').2
          · exact hl.probe i l y hy p2 q2 hpq g' hg'
        · intro i l y i' l' z hy hz hyz
          rw [hslot] at hy hz
          split at hy
          · next e =>
            cases hy
            split at hz
            · next e' => exact ⟨e.1.trans e'.1.symm, e.2.trans e'.2.symm⟩
            · rw [hno i' l' z hz] at hyz; cases hyz
          · split at hz
            · cases hz
              have := hf.symm _ _ hyz
              rw [hno i l y hy] at this; cases this
            · exact hl.uniq i l y i' l' z hy hz hyz
      · refine ⟨rfl, rfl, rfl, hv, hfree, fun _ _ => rfl, ?_⟩
        intro i l
        simp only [Arrays.setGrp, Arrays.setSlot]
        by_cases hi : i = g
        · subst hi; simp [Group.set]
        · simp [hi]

theorem emplace_spec {f : Fns K} (hf : f.Lawful) (x : K × V) (a : Arrays K V) (hl : Live f a) (he : a.hasElems = true)
    (hlen : a.occ.length < capOf a.k) (hno : ∀ g j y, a.slot g j = some y → f.eq x.1 y.1 = false) :
    ∃ a' g j, a.emplace (f.hash x.1) x = some (a', (g, j)) ∧ Live f a' ∧ Placed a a' (f.hash x.1) x g j :=
  emplaceLoop_spec hf x _ [] a hl he hlen hno rfl (by simp)

/-- positions and contents after placing an element -/
theorem Placed.occ_perm {a a' : Arrays K V} {h g j : Nat} {x : K × V} (hp : Placed a a' h x g j)
    (he : a.hasElems = true) (hfree : (a.grp g).md j = 0) : a'.occ.Perm ((g, j) :: a.occ) := by
  apply (List.perm_ext_iff_of_nodup (nodup_occ _) _).mpr
  · rintro ⟨i, l⟩
    rw [List.mem_cons, mem_occ_iff, mem_occ_iff, hp.hasElems, hp.k, hp.md]
    constructor
    · rintro ⟨_, hv, hm⟩
      by_cases hil : i = g ∧ l = j
      · left; rw [hil.1, hil.2]
      · right; simp only [hil, if_false] at hm; exact ⟨he, hv, hm⟩
    · rintro (e | ⟨_, hv, hm⟩)
      · cases e
        refine ⟨he, hp.valid, ?_⟩
        have := rhash_ge_two h
        simp; omega
      · refine ⟨he, hv, ?_⟩
        split
        · have := rhash_ge_two h; omega
        · exact hm
  · rw [List.nodup_cons]
    refine ⟨?_, nodup_occ _⟩
    rw [mem_occ_iff]
    rintro ⟨_, _, hm⟩
    exact hm hfree

theorem Placed.contents_perm {f : Fns K} {a a' : Arrays K V} {h g j : Nat} {x : K × V} (hp : Placed a a' h x g j)
    (hl : Live f a) (he : a.hasElems = true) : a'.contents.Perm (x :: a.contents) := by
  have hfree : (a.grp g).md j = 0 := by
    rcases hl.cell g j hp.valid with ⟨h0, _⟩ | ⟨y, hy, _⟩
    · exact h0
    · rw [hp.free] at hy; cases hy
  have h1 := (hp.occ_perm he hfree).filterMap (fun p => a'.slot p.1 p.2)
  unfold Arrays.contents
  refine h1.trans ?_
  rw [List.filterMap_cons_some (b := x) (by rw [hp.slot]; simp)]
  refine List.Perm.cons _ (List.Perm.of_eq ?_)
  apply List.filterMap_congr
  rintro ⟨i, l⟩ hil
  rw [hp.slot, if_neg]
  rintro ⟨rfl, rfl⟩
  rw [mem_occ_iff] at hil
  exact hil.2.2 hfree

end Foa

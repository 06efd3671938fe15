/-
Specification lemmas: copy, move, swap, erase_if, merge, comparison.
-/
import Verif.Foa.Ops

namespace Foa

variable {K V : Type}

theorem capacity_pos_of_size {t : Table K V} (hi : t.Inv) (h : 0 < t.size) : t.arr.hasElems = true := by
  have h1 := hi.size_le; have h2 := hi.ml_le
  unfold Table.capacity Arrays.capacity at h2
  by_contra hc
  simp [hc] at h2; omega

theorem Inv.empty_of_contents {f : Fns K} {a : Arrays K V} (hi : a.Inv f) (h : a.contents = []) (g j : Nat) :
    a.slot g j = none := by
  by_contra hc
  obtain ⟨x, hx⟩ := Option.ne_none_iff_exists'.mp hc
  have := (Inv.mem_contents hi).mpr ⟨g, j, hx⟩
  rw [h] at this; cases this

/-- The invariant of empty arrays does not depend on the function objects. -/
theorem Inv.of_empty {f f' : Fns K} {a : Arrays K V} (hi : a.Inv f) (h : a.contents = []) : a.Inv f' := by
  have hs := Inv.empty_of_contents hi h
  rcases hi with ⟨he, hl⟩ | hd
  · left
    refine ⟨he, hl.kpos, hl.sent, ?_, hl.inval, ?_, ?_⟩
    · intro g j hv
      rcases hl.cell g j hv with h1 | ⟨x, hx, _⟩
      · exact Or.inl h1
      · rw [hs] at hx; cases hx
    · intro g j x hx; rw [hs] at hx; cases hx
    · intro g j x g' j' y hx; rw [hs] at hx; cases hx
  · exact Or.inr hd

/-- inserting all elements of another container's arrays into an empty container with room -/
theorem insertAll_spec {t : Table K V} (hi : t.Inv) (he : t.contents = []) {src : Arrays K V} (hs : src.Inv t.fns)
    (hlen : src.contents.length ≤ t.ml) :
    ∃ t', Table.insertAll src src.occ t = some t' ∧ t'.Inv ∧ t'.fns = t.fns ∧ t'.al = t.al ∧
      t'.contents.Perm src.contents ∧ t'.ml = t.ml ∧ t'.arr.k = t.arr.k ∧ t'.arr.hasElems = t.arr.hasElems := by
  have hc : t.arr.contents = [] := he
  have hl := Inv.length_contents hs
  have hml := hi.ml_le
  change t.ml ≤ t.arr.capacity at hml
  obtain ⟨d, h1, h2, h3, h4, h5, _, h7⟩ := transferAll_spec hi.law src src.occ t.arr (slots_of_occ hs)
    (by rw [hc, List.append_nil]; exact Inv.contents_uniq hs) hi.arr (by rw [hc]; simp; omega)
  rw [hc, List.append_nil] at h7
  have h0 : t.size = 0 := by rw [hi.size, he]; rfl
  refine ⟨{ t with arr := d, size := t.size + src.occ.length }, ?_, ?_, rfl, rfl, h7, rfl, h3, h4⟩
  · rw [insertAll_eq, h1]; rfl
  · refine ⟨hi.law, h2, ?_, ?_, ?_, ?_⟩
    · intro h; rw [show d.al = t.arr.al from h5]
      exact hi.al (by rw [← h4]; exact h)
    · show t.size + src.occ.length = d.contents.length
      rw [h7.length_eq, h0, ← hl]; simp [Arrays.contents]
    · show t.size + src.occ.length ≤ t.ml
      omega
    · show t.ml ≤ Table.initMl d
      have : d.capacity = t.arr.capacity := by unfold Arrays.capacity; rw [h3, h4]
      rw [initMl_congr this]; exact hi.ml_init

theorem reserve_spec' (cfg : Cfg) {t : Table K V} (hi : t.Inv) (n : Nat) :
    ∃ t', t.reserve cfg n = some t' ∧ t'.Inv ∧ t'.fns = t.fns ∧ t'.al = t.al ∧ t'.contents.Perm t.contents ∧
      (t' = t ∨ t'.ml = Table.initMl t'.arr) ∧ n ≤ Table.initMl t'.arr := by
  unfold Table.reserve
  obtain ⟨t', h1, h2, h3, h4, h5, h6, h7⟩ := rehash_spec cfg hi (slotsFor n)
  refine ⟨t', h1, h2, h3, h4, h5, h6, ?_⟩
  rcases Nat.eq_zero_or_pos n with rfl | hn
  · exact Nat.zero_le _
  · have hs := slotsFor_pos hn
    have hc : 0 < t'.capacity := by omega
    unfold Table.capacity Arrays.capacity at hc h7
    unfold Table.initMl Arrays.capacity
    split at hc
    · next he =>
      rw [if_pos he] at h7 ⊢
      have hk : 1 ≤ t'.arr.k := by
        rcases h2.arr with ⟨_, hl⟩ | ⟨hx, _⟩
        · exact hl.kpos
        · rw [he] at hx; cases hx
      have e := kFor_capOf _ hk
      have : capacityFor (slotsFor n) ≤ capacityFor (capOf t'.arr.k) := capacityFor_mono h7
      have := le_maxLoad_of_le_capacity this
      unfold capacityFor at this
      rwa [e] at this
    · omega

/-- `noshrink_reserve` on an emptied container -/
theorem reserve_spec (cfg : Cfg) {t : Table K V} (hi : t.Inv) (n : Nat) :
    ∃ t', t.reserve cfg n = some t' ∧ t'.Inv ∧ t'.fns = t.fns ∧ t'.al = t.al ∧ t'.contents.Perm t.contents ∧
      (t.ml = Table.initMl t.arr → t'.ml = Table.initMl t'.arr ∧ n ≤ t'.ml) := by
  obtain ⟨t', h1, h2, h3, h4, h5, h6, h7⟩ := reserve_spec' cfg hi n
  refine ⟨t', h1, h2, h3, h4, h5, ?_⟩
  intro hml
  have hml' : t'.ml = Table.initMl t'.arr := by
    rcases h6 with rfl | h
    · exact hml
    · exact h
  exact ⟨hml', by rw [hml']; exact h7⟩

theorem noshrinkReserve_spec (cfg : Cfg) {t : Table K V} (hi : t.Inv) (he : t.contents = [])
    (hml : t.ml = Table.initMl t.arr) (n : Nat) :
    ∃ t', t.noshrinkReserve cfg n = some t' ∧ t'.Inv ∧ t'.fns = t.fns ∧ t'.al = t.al ∧ t'.contents = [] ∧
      t'.ml = Table.initMl t'.arr ∧ n ≤ t'.ml := by
  have h0 : t.size = 0 := by rw [hi.size, he]; rfl
  unfold Table.noshrinkReserve
  by_cases hn : n = 0
  · rw [if_neg (by simpa using hn)]
    exact ⟨t, rfl, hi, rfl, rfl, he, hml, by omega⟩
  · rw [if_pos hn]
    have hs : 0 < capacityFor (slotsFor n) := by
      have := le_capacityFor (slotsFor n)
      have := slotsFor_pos (Nat.pos_of_ne_zero hn)
      omega
    by_cases hc : capacityFor (slotsFor n) > t.capacity
    · simp only [hc, if_true, hi.delete_]
      refine ⟨_, rfl, ⟨hi.law, new_inv cfg _ _ _, fun _ => new_al _ _ _, ?_, ?_, le_rfl⟩, rfl, rfl,
        new_contents _ _ _, rfl, ?_⟩
      · show t.size = (Arrays.new_ cfg t.al _ : Arrays K V).contents.length
        rw [new_contents, h0]; rfl
      · show t.size ≤ _
        rw [h0]; exact Nat.zero_le _
      · show n ≤ Table.initMl (Arrays.new_ cfg t.al (capacityFor (slotsFor n)))
        unfold Table.initMl
        rw [new_capacity cfg _ _ hs, capacityFor_capacityFor]
        exact le_maxLoad_slotsFor n
    · rw [if_neg hc]
      refine ⟨t, rfl, hi, rfl, rfl, he, hml, ?_⟩
      have hc' : capacityFor (slotsFor n) ≤ t.arr.capacity := by
        have : t.capacity = t.arr.capacity := rfl
        omega
      rw [hml]
      unfold Table.initMl
      unfold Arrays.capacity at hc' ⊢
      split at hc'
      · next hel =>
        rw [if_pos hel]
        have hk : 1 ≤ t.arr.k := by
          rcases hi.arr with ⟨_, hl⟩ | ⟨hx, _⟩
          · exact hl.kpos
          · rw [hel] at hx; cases hx
        have e := kFor_capOf _ hk
        have : capacityFor (slotsFor n) ≤ capacityFor (capOf t.arr.k) := by
          unfold capacityFor; unfold capacityFor at hc'; rw [e]; exact hc'
        have := le_maxLoad_of_le_capacity this
        unfold capacityFor at this
        rwa [e] at this
      · omega

theorem copyElementsFrom_spec {t x : Table K V} (hi : t.Inv) (he : t.contents = []) (hx : x.Inv)
    (hf : t.fns = x.fns) (hlen : x.size ≤ t.ml) :
    ∃ t', t.copyElementsFrom x = some t' ∧ t'.Inv ∧ t'.fns = x.fns ∧ t'.al = t.al ∧ t'.contents.Perm x.contents := by
  have h0 : t.size = 0 := by rw [hi.size, he]; rfl
  have hxs : x.size = x.arr.contents.length := hx.size
  unfold Table.copyElementsFrom
  by_cases hm : t.arr.mask = x.arr.mask
  · rw [if_pos hm]
    by_cases hb : t.arr.hasElems = true ∧ x.arr.hasElems = true
    · rw [if_pos hb]
      have hk : t.arr.k = x.arr.k := by
        unfold Arrays.mask at hm
        have h1 := Nat.two_pow_pos t.arr.k
        have h2 := Nat.two_pow_pos x.arr.k
        exact Nat.pow_right_injective (le_refl 2) (by simp only; omega)
      have hlx : Live x.fns x.arr := by
        rcases hx.arr with ⟨_, hl⟩ | ⟨h, _⟩
        · exact hl
        · rw [hb.2] at h; cases h
      have hocc : ({ t.arr with grp := x.arr.grp, slot := x.arr.slot } : Arrays K V).contents = x.arr.contents := by
        unfold Arrays.contents Arrays.occ
        simp only [hb.1, hb.2, hk]
      refine ⟨_, rfl, ⟨?_, ?_, ?_, ?_, hx.size_le, ?_⟩, hf, rfl, ?_⟩
      · show t.fns.Lawful; exact hi.law
      · left
        refine ⟨hb.1, ?_⟩
        show Live t.fns _
        rw [hf]
        refine ⟨?_, ?_, ?_, ?_, ?_, hlx.uniq⟩
        · show 1 ≤ t.arr.k; rw [hk]; exact hlx.kpos
        · show (x.arr.grp (2 ^ t.arr.k - 1)).md 14 = 1; rw [hk]; exact hlx.sent
        · show ∀ g j, Valid t.arr.k g j → _; rw [hk]; exact hlx.cell
        · show ∀ g j, ¬ Valid t.arr.k g j → _; rw [hk]; exact hlx.inval
        · intro g j y hy pre post hp
          refine hlx.probe g j y hy pre post ?_
          rw [← hp]
          unfold Arrays.mask Arrays.posFor
          simp only [hk]
      · intro _; exact hi.al hb.1
      · show x.size = _
        rw [Table.contents, hocc]; exact hx.size
      · show x.ml ≤ Table.initMl _
        have : x.ml ≤ Table.initMl x.arr := hx.ml_init
        unfold Table.initMl Arrays.capacity at *
        simp only [hb.1, hb.2, hk] at *
        exact this
      · rw [Table.contents, hocc]; exact List.Perm.refl _
    · rw [if_neg hb]
      have hx0 : x.size = 0 := by
        by_contra hc
        have h1 := capacity_pos_of_size hx (Nat.pos_of_ne_zero hc)
        have h2 := hi.ml_le
        unfold Table.capacity Arrays.capacity at h2
        by_cases ht : t.arr.hasElems = true
        · exact hb ⟨ht, h1⟩
        · simp [ht] at h2; omega
      have hxc : x.contents = [] := by
        apply List.eq_nil_of_length_eq_zero; rw [← hx.size, hx0]
      exact ⟨t, rfl, hi, hf, rfl, by rw [he, hxc]⟩
  · rw [if_neg hm]
    obtain ⟨t', h1, h2, h3, h4, h5, _⟩ := insertAll_spec hi he (src := x.arr) (by rw [hf]; exact hx.arr) (by omega)
    exact ⟨t', h1, h2, h3.trans hf, h4, h5⟩

theorem copyCtor_spec (cfg : Cfg) {x : Table K V} (hx : x.Inv) (al : Nat) :
    ∃ t', x.copyCtor cfg al = some t' ∧ t'.Inv ∧ t'.fns = x.fns ∧ t'.al = al ∧ t'.contents.Perm x.contents := by
  unfold Table.copyCtor
  have hml : x.size ≤ (Table.mk_ cfg x.fns al (slotsFor x.size) : Table K V).ml := by
    show x.size ≤ Table.initMl (Arrays.new_ cfg al (slotsFor x.size) : Arrays K V)
    rcases Nat.eq_zero_or_pos x.size with h | h
    · rw [h]; exact Nat.zero_le _
    · unfold Table.initMl
      rw [new_capacity cfg _ _ (slotsFor_pos h)]
      exact le_maxLoad_slotsFor _
  exact copyElementsFrom_spec (mk_inv cfg hx.law al _) (mk_contents _ _ _ _) hx rfl hml

/-- invariant of a container whose arrays have just been replaced by empty ones -/
theorem emptied_inv (cfg : Cfg) {f : Fns K} (hf : f.Lawful) (al : Nat) :
    ({ fns := f, al := al, arr := Arrays.new_ cfg al 0, ml := Table.initMl (Arrays.new_ cfg al 0 : Arrays K V), size := 0 } :
      Table K V).Inv := mk_inv cfg hf al 0

theorem moveCtor_spec (cfg : Cfg) {x : Table K V} (hx : x.Inv) :
    (x.moveCtor cfg).1 = x ∧ (x.moveCtor cfg).2.Inv ∧ (x.moveCtor cfg).2.contents = [] ∧
    (x.moveCtor cfg).2.fns = x.fns ∧ (x.moveCtor cfg).2.al = x.al :=
  ⟨rfl, emptied_inv cfg hx.law x.al, new_contents _ _ _, rfl, rfl⟩

theorem moveCtorAlloc_spec (cfg : Cfg) {x : Table K V} (hx : x.Inv) (al : Nat) :
    ∃ t' x', x.moveCtorAlloc cfg al = some (t', x') ∧ t'.Inv ∧ t'.fns = x.fns ∧ t'.al = al ∧
      t'.contents.Perm x.contents ∧ x'.Inv ∧ x'.fns = x.fns ∧ x'.al = x.al ∧ x'.contents = [] := by
  unfold Table.moveCtorAlloc
  by_cases ha : (Table.mk_ cfg x.fns al 0 : Table K V).al = x.al
  · simp only [ha, if_true]
    have ha : al = x.al := ha
    subst ha
    refine ⟨_, _, rfl, ⟨hx.law, hx.arr, hx.al, hx.size, hx.size_le, hx.ml_init⟩, rfl, rfl, List.Perm.refl _,
      mk_inv cfg hx.law x.al 0, rfl, rfl, new_contents _ _ _⟩
  · simp only [ha, if_false]
    obtain ⟨t1, h1, h2, h3, h4, h5, h6⟩ := reserve_spec cfg (mk_inv (V := V) cfg hx.law al 0) x.size
    rw [mk_contents] at h5
    obtain ⟨t2, e1, e2, e3, e4, e5, _⟩ := insertAll_spec h2 h5.eq_nil (src := x.arr) (by rw [h3]; exact hx.arr) (by
      have := (h6 rfl).2
      have := hx.size
      change x.size = x.arr.contents.length at this
      omega)
    have hc := clear_spec hx
    refine ⟨t2, x.clear, ?_, e2, e3.trans h3, e4.trans h4, e5, hc.1, hc.2.2.1, hc.2.2.2.1, hc.2.1⟩
    rw [h1]
    simp only [e1]

theorem with_fns_inv {t : Table K V} (hi : t.Inv) (he : t.contents = []) {f : Fns K} (hf : f.Lawful) :
    ({ t with fns := f } : Table K V).Inv :=
  ⟨hf, Inv.of_empty hi.arr he, hi.al, hi.size, hi.size_le, hi.ml_init⟩

theorem copyAssign_spec (cfg : Cfg) {t x : Table K V} (hi : t.Inv) (hx : x.Inv) :
    ∃ t', t.copyAssign cfg x = some t' ∧ t'.Inv ∧ t'.fns = x.fns ∧
      t'.al = (if cfg.pocca then x.al else t.al) ∧ t'.contents.Perm x.contents := by
  obtain ⟨c1, c2, c3, c4, c5, c6, c7, c8⟩ := clear_spec hi
  have ci : ({ t.clear with fns := x.fns } : Table K V).Inv := with_fns_inv c1 c2 hx.law
  have cml : t.clear.ml = Table.initMl t.clear.arr := by
    rw [c7]; unfold Table.initMl Arrays.capacity; rw [c5, c6]
  have key : ∀ t1 : Table K V, t1.Inv → t1.contents = [] → t1.fns = x.fns → t1.ml = Table.initMl t1.arr →
      ∃ t', (match t1.noshrinkReserve cfg x.size with
        | none => none
        | some t => t.copyElementsFrom x) = some t' ∧ t'.Inv ∧ t'.fns = x.fns ∧ t'.al = t1.al ∧
        t'.contents.Perm x.contents := by
    intro t1 h1 h2 h3 h4
    obtain ⟨t2, e1, e2, e3, e4, e5, e6, e7⟩ := noshrinkReserve_spec cfg h1 h2 h4 x.size
    obtain ⟨t3, f1, f2, f3, f4, f5⟩ := copyElementsFrom_spec e2 e5 hx (e3.trans h3) e7
    exact ⟨t3, by rw [e1]; exact f1, f2, f3, f4.trans e4, f5⟩
  unfold Table.copyAssign
  dsimp only
  by_cases hp : cfg.pocca = true
  · by_cases ha : t.clear.al ≠ x.al
    · have hdel : t.clear.arr.delete_ t.clear.al = some () := c1.delete_
      simp only [hp, if_true, ha, ne_eq, not_false_eq_true, hdel]
      obtain ⟨t', h1, h2, h3, h4, h5⟩ := key
        { fns := x.fns, al := x.al, arr := Arrays.new_ cfg x.al (slotsFor x.size),
          ml := Table.initMl (Arrays.new_ cfg x.al (slotsFor x.size) : Arrays K V), size := t.clear.size }
        (by rw [c8]; exact mk_inv cfg hx.law x.al _) (new_contents _ _ _) rfl rfl
      exact ⟨t', h1, h2, h3, h4, h5⟩
    · have ha : t.clear.al = x.al := by simpa using ha
      simp only [hp, if_true, ha, ne_eq, not_true_eq_false, if_false]
      obtain ⟨t', h1, h2, h3, h4, h5⟩ := key { t.clear with fns := x.fns, al := x.al }
        (by
          have : ({ t.clear with fns := x.fns, al := x.al } : Table K V) = { t.clear with fns := x.fns } := by
            rw [← ha]
          rw [this]; exact ci) c2 rfl cml
      exact ⟨t', h1, h2, h3, h4, h5⟩
  · have hp : cfg.pocca = false := by simpa using hp
    simp only [hp, Bool.false_eq_true, if_false]
    obtain ⟨t', h1, h2, h3, h4, h5⟩ := key { t.clear with fns := x.fns } ci c2 rfl cml
    exact ⟨t', h1, h2, h3, by rw [h4]; exact c4, h5⟩

theorem clear_with_fns (x : Table K V) (f : Fns K) :
    ({ x with fns := f } : Table K V).clear = { x.clear with fns := f } := by
  unfold Table.clear
  by_cases h : x.arr.hasElems = true
  · simp only [h, if_true]
  · simp only [h, Bool.false_eq_true, if_false]

theorem moveAssign_spec (cfg : Cfg) {t x : Table K V} (hi : t.Inv) (hx : x.Inv) :
    ∃ t' x', t.moveAssign cfg x = some (t', x') ∧ t'.Inv ∧ t'.fns = x.fns ∧
      t'.al = (if cfg.pocma then x.al else t.al) ∧ t'.contents.Perm x.contents ∧
      x'.Inv ∧ x'.fns = t.fns ∧ x'.al = x.al ∧ x'.contents = [] := by
  obtain ⟨c1, c2, c3, c4, c5, c6, c7, c8⟩ := clear_spec hi
  have cml : t.clear.ml = Table.initMl t.clear.arr := by
    rw [c7]; unfold Table.initMl Arrays.capacity; rw [c5, c6]
  unfold Table.moveAssign
  dsimp only
  by_cases hp : cfg.pocma = true ∨ t.clear.al = x.al
  · have hdel : t.clear.arr.delete_ t.clear.al = some () := c1.delete_
    simp only [hp, if_true, hdel]
    refine ⟨_, _, rfl, ?_, rfl, ?_, List.Perm.refl _, ?_, c3, rfl, new_contents _ _ _⟩
    · refine ⟨hx.law, hx.arr, ?_, hx.size, hx.size_le, hx.ml_init⟩
      intro h
      show x.arr.al = if cfg.pocma = true then x.al else t.clear.al
      rw [hx.al h]
      split
      · rfl
      · rcases hp with hp | hp
        · contradiction
        · exact hp.symm
    · show (if cfg.pocma = true then x.al else t.clear.al) = _
      rw [c4]
    · exact emptied_inv cfg (by rw [c3]; exact hi.law) x.al
  · rw [if_neg hp]
    have hpm : cfg.pocma = false := by
      by_contra h; exact hp (Or.inl (by simpa using h))
    obtain ⟨t2, e1, e2, e3, e4, e5, e6, e7⟩ := noshrinkReserve_spec cfg
      (t := { t.clear with fns := x.fns }) (with_fns_inv c1 c2 hx.law) c2 cml x.size
    obtain ⟨t3, f1, f2, f3, f4, f5, _⟩ := insertAll_spec e2 e5 (src := x.arr) (by rw [e3]; exact hx.arr) (by
      have := hx.size
      change x.size = x.arr.contents.length at this
      omega)
    simp only [e1, f1]
    obtain ⟨d1, d2, d3, d4, d5, d6, d7, d8⟩ := clear_spec hx
    have heq := clear_with_fns x t.clear.fns
    refine ⟨_, _, rfl, f2, f3.trans e3, ?_, f5, ?_, ?_, ?_, ?_⟩
    · rw [f4, e4, hpm]; exact c4
    · rw [heq]; exact with_fns_inv d1 d2 (by rw [c3]; exact hi.law)
    · rw [heq]; exact c3
    · rw [heq]; exact d4
    · rw [heq]; exact d2

theorem swap_spec (cfg : Cfg) {t x : Table K V} (hi : t.Inv) (hx : x.Inv) (hpre : cfg.pocs = true ∨ t.al = x.al) :
    t.swap cfg x = some (x, t) := by
  unfold Table.swap
  split
  · rfl
  · next hp =>
    have ha : t.al = x.al := by
      rcases hpre with h | h
      · exact absurd h hp
      · exact h
    rw [if_pos ha]
    cases t; cases x; simp only at ha; subst ha; rfl

/-! ### erase_if -/

theorem eraseIfLoop_spec (pr : K × V → Bool) :
    ∀ (ps : List Pos) (t : Table K V), t.Inv → ps.Nodup → (∀ p ∈ ps, ∃ x, t.arr.slot p.1 p.2 = some x) →
    ∃ t', Table.eraseIfLoop pr ps t = some t' ∧ t'.Inv ∧ t'.fns = t.fns ∧ t'.al = t.al ∧
      (∀ g j x, t'.arr.slot g j = some x ↔ t.arr.slot g j = some x ∧ ¬ ((g, j) ∈ ps ∧ pr x = true)) ∧
      t.contents.Perm (((ps.filterMap (fun p => t.arr.slot p.1 p.2)).filter pr) ++ t'.contents) := by
  intro ps
  induction ps with
  | nil => intro t hi _ _; exact ⟨t, rfl, hi, rfl, rfl, by simp, by simp⟩
  | cons p ps ih =>
    intro t hi hnd hs
    obtain ⟨g, j⟩ := p
    obtain ⟨x, hx⟩ := hs (g, j) (by simp)
    simp only at hx
    rw [List.nodup_cons] at hnd
    rw [List.filterMap_cons_some (f := fun p : Pos => t.arr.slot p.1 p.2) (b := x) hx]
    by_cases hp : pr x = true
    · obtain ⟨t1, h1, h2, h3, h4, _, _, h7, _, h9, _⟩ := eraseAt_spec hi hx
      have hsl : ∀ q ∈ ps, t1.arr.slot q.1 q.2 = t.arr.slot q.1 q.2 := by
        rintro ⟨i, l⟩ hq
        rw [h7, if_neg]
        rintro ⟨rfl, rfl⟩
        exact hnd.1 hq
      obtain ⟨t2, e1, e2, e3, e4, e5, e6⟩ := ih t1 h2 hnd.2 (by
        intro q hq
        rw [hsl q hq]
        exact hs q (by simp [hq]))
      refine ⟨t2, by simp only [Table.eraseIfLoop, hx, hp, if_true, h1, e1], e2, e3.trans h3, e4.trans h4, ?_, ?_⟩
      · intro i l y
        rw [e5, h7]
        by_cases hil : i = g ∧ l = j
        · obtain ⟨rfl, rfl⟩ := hil
          simp only [and_self, if_true, List.mem_cons, true_or, true_and]
          constructor
          · rintro ⟨h, _⟩; cases h
          · rintro ⟨h, hn⟩; rw [hx] at h; cases h; exact absurd hp hn
        · simp only [hil, if_false, List.mem_cons, Prod.mk.injEq, false_or]
      · rw [List.filter_cons_of_pos hp]
        refine h9.trans ?_
        rw [List.cons_append]
        refine List.Perm.cons _ (e6.trans (List.Perm.of_eq ?_))
        congr 2
        exact List.filterMap_congr hsl
    · obtain ⟨t2, e1, e2, e3, e4, e5, e6⟩ := ih t hi hnd.2 (fun q hq => hs q (by simp [hq]))
      refine ⟨t2, by simp only [Table.eraseIfLoop, hx, hp, Bool.false_eq_true, if_false, e1], e2, e3, e4, ?_, ?_⟩
      · intro i l y
        rw [e5]
        constructor
        · rintro ⟨h, hn⟩
          refine ⟨h, ?_⟩
          rintro ⟨hm, hy⟩
          rcases List.mem_cons.mp hm with hm | hm
          · cases hm; rw [hx] at h; cases h; exact hp hy
          · exact hn ⟨hm, hy⟩
        · rintro ⟨h, hn⟩
          exact ⟨h, fun ⟨hm, hy⟩ => hn ⟨by simp [hm], hy⟩⟩
      · rw [List.filter_cons_of_neg hp]; exact e6

theorem eraseIf_spec {t : Table K V} (hi : t.Inv) (pr : K × V → Bool) :
    ∃ t', t.eraseIf pr = some (t', (t.contents.filter pr).length) ∧ t'.Inv ∧ t'.fns = t.fns ∧ t'.al = t.al ∧
      t'.contents.Perm (t.contents.filter (fun x => !pr x)) := by
  obtain ⟨t', h1, h2, h3, h4, h5, h6⟩ := eraseIfLoop_spec pr t.arr.occ t hi (nodup_occ _) (slots_of_occ hi.arr)
  change t.contents.Perm ((t.contents.filter pr) ++ t'.contents) at h6
  have hlen : t.size = (t.contents.filter pr).length + t'.size := by
    rw [hi.size, h2.size, ← List.length_append]; exact h6.length_eq
  refine ⟨t', ?_, h2, h3, h4, ?_⟩
  · unfold Table.eraseIf
    rw [h1]
    simp only [Option.map_some]
    congr 2
    omega
  · have hp2 : (t.contents.filter pr ++ t.contents.filter (fun x => !pr x)).Perm t.contents :=
      List.filter_append_perm pr t.contents
    exact ((List.perm_append_left_iff _).mp (hp2.trans h6)).symm

/-! ### merge -/

/-- membership test used by merge -/
def hasKey (f : Fns K) (l : List (K × V)) (k : K) : Bool := l.any (fun e => f.eq k e.1)

theorem hasKey_perm {f : Fns K} {l l' : List (K × V)} (h : l.Perm l') (k : K) : hasKey f l k = hasKey f l' k := by
  unfold hasKey; rw [Bool.eq_iff_iff, List.any_eq_true, List.any_eq_true]
  simp only [h.mem_iff]

theorem mergeLoop_spec (cfg : Cfg) :
    ∀ (ps : List Pos) (t x : Table K V), t.Inv → x.Inv → t.fns.eq = x.fns.eq → ps.Nodup →
    (∀ p ∈ ps, ∃ e, x.arr.slot p.1 p.2 = some e) →
    ∃ t' x', Table.mergeLoop cfg ps t x = some (t', x') ∧ t'.Inv ∧ x'.Inv ∧ t'.fns = t.fns ∧ t'.al = t.al ∧
      x'.fns = x.fns ∧ x'.al = x.al ∧
      t'.contents.Perm ((ps.filterMap (fun p => x.arr.slot p.1 p.2)).filter (fun e => !hasKey t.fns t.contents e.1)
        ++ t.contents) ∧
      x.contents.Perm ((ps.filterMap (fun p => x.arr.slot p.1 p.2)).filter (fun e => !hasKey t.fns t.contents e.1)
        ++ x'.contents) := by
  intro ps
  induction ps with
  | nil => intro t x hi hx _ _ _; exact ⟨t, x, rfl, hi, hx, rfl, rfl, rfl, rfl, by simp, by simp⟩
  | cons p ps ih =>
    intro t x hi hx hf hnd hs
    obtain ⟨g, j⟩ := p
    obtain ⟨e, he⟩ := hs (g, j) (by simp)
    simp only at he
    rw [List.nodup_cons] at hnd
    rw [List.filterMap_cons_some (f := fun p : Pos => x.arr.slot p.1 p.2) (b := e) he]
    rcases emplaceImpl_spec cfg hi e with ⟨g', j', y, h1, _, h3, h4⟩ | ⟨t1, g', j', h1, h2, h3, h4, h5, h6, h7, _⟩
    · have hk : hasKey t.fns t.contents e.1 = true := by
        unfold hasKey; rw [List.any_eq_true]
        exact ⟨y, hi.mem.mpr ⟨g', j', h3⟩, h4⟩
      obtain ⟨t2, x2, e1, e2, e3, e4, e5, e6, e7, e8, e9⟩ := ih t x hi hx hf hnd.2 (fun q hq => hs q (by simp [hq]))
      refine ⟨t2, x2, by simp only [Table.mergeLoop, he, h1, e1], e2, e3, e4, e5, e6, e7, ?_, ?_⟩
      · rw [List.filter_cons_of_neg (by simp [hk])]; exact e8
      · rw [List.filter_cons_of_neg (by simp [hk])]; exact e9
    · have hk : hasKey t.fns t.contents e.1 = false := by
        unfold hasKey; rw [List.any_eq_false]
        intro y hy; simpa using h5 y hy
      obtain ⟨x1, d1, d2, d3, d4, _, _, d7, _, d9, _⟩ := eraseAt_spec hx he
      have hsl : ∀ q ∈ ps, x1.arr.slot q.1 q.2 = x.arr.slot q.1 q.2 := by
        rintro ⟨i, l⟩ hq
        rw [d7, if_neg]
        rintro ⟨rfl, rfl⟩
        exact hnd.1 hq
      obtain ⟨t2, x2, e1, e2, e3, e4, e5, e6, e7, e8, e9⟩ := ih t1 x1 h2 d2 (by rw [h3, d3, hf]) hnd.2 (by
        intro q hq
        rw [hsl q hq]
        exact hs q (by simp [hq]))
      rw [List.filterMap_congr hsl] at e8 e9
      -- elements of x other than e are not equivalent to e, so membership is unchanged for them
      have hfil : (ps.filterMap (fun p => x.arr.slot p.1 p.2)).filter (fun d => !hasKey t1.fns t1.contents d.1) =
          (ps.filterMap (fun p => x.arr.slot p.1 p.2)).filter (fun d => !hasKey t.fns t.contents d.1) := by
        apply List.filter_congr
        intro d hd
        obtain ⟨⟨i, l⟩, hq, hd⟩ := List.mem_filterMap.mp hd
        simp only at hd
        rw [hasKey_perm h7, h3]
        unfold hasKey
        rw [List.any_cons]
        have : t.fns.eq d.1 e.1 = false := by
          by_contra hc
          have hc : x.fns.eq d.1 e.1 = true := by rw [← hf]; simpa using hc
          have hlx : Live x.fns x.arr := by
            rcases hx.arr with ⟨_, hl⟩ | ⟨_, hdm⟩
            · exact hl
            · rw [hdm.slot] at he; cases he
          have := hlx.uniq i l d g j e hd he hc
          rw [this.1, this.2] at hq
          exact hnd.1 hq
        rw [this]; rfl
      rw [hfil] at e8 e9
      refine ⟨t2, x2, by simp only [Table.mergeLoop, he, h1, d1, e1], e2, e3, e4.trans h3, e5.trans h4, e6.trans d3,
        e7.trans d4, ?_, ?_⟩
      · rw [List.filter_cons_of_pos (by simp [hk])]
        refine e8.trans ?_
        exact (List.Perm.append_left _ h7).trans List.perm_middle
      · rw [List.filter_cons_of_pos (by simp [hk])]
        refine d9.trans ?_
        exact List.Perm.cons _ e9

theorem merge_spec (cfg : Cfg) {t x : Table K V} (hi : t.Inv) (hx : x.Inv) (hf : t.fns.eq = x.fns.eq) :
    ∃ t' x', t.merge cfg x = some (t', x') ∧ t'.Inv ∧ x'.Inv ∧ t'.fns = t.fns ∧ t'.al = t.al ∧
      x'.fns = x.fns ∧ x'.al = x.al ∧
      t'.contents.Perm (x.contents.filter (fun e => !hasKey t.fns t.contents e.1) ++ t.contents) ∧
      x'.contents.Perm (x.contents.filter (fun e => hasKey t.fns t.contents e.1)) := by
  obtain ⟨t', x', h1, h2, h3, h4, h5, h6, h7, h8, h9⟩ :=
    mergeLoop_spec cfg x.arr.occ t x hi hx hf (nodup_occ _) (slots_of_occ hx.arr)
  refine ⟨t', x', h1, h2, h3, h4, h5, h6, h7, h8, ?_⟩
  have hp2 := List.filter_append_perm (fun e => !hasKey t.fns t.contents e.1) x.contents
  simp only [Bool.not_not] at hp2
  exact ((List.perm_append_left_iff _).mp (hp2.trans h9)).symm

theorem mergeSelf_spec (cfg : Cfg) {t : Table K V} (hi : t.Inv) : ∀ (ps : List Pos),
    (∀ p ∈ ps, ∃ e, t.arr.slot p.1 p.2 = some e) → Table.mergeSelfLoop cfg ps t = some t := by
  intro ps
  induction ps with
  | nil => intro _; rfl
  | cons p ps ih =>
    intro hs
    obtain ⟨e, he⟩ := hs p (by simp)
    rcases emplaceImpl_spec cfg hi e with ⟨g', j', y, h1, _⟩ | ⟨t1, g', j', h1, h2, h3, h4, h5, _⟩
    · simp only [Table.mergeSelfLoop, he, h1]
      exact ih (fun q hq => hs q (by simp [hq]))
    · exfalso
      have := h5 e (hi.mem.mpr ⟨p.1, p.2, he⟩)
      rw [hi.law.refl] at this; cases this

/-! ### operator== -/

theorem equalLoop_spec (veq : K × V → K × V → Bool) {x y : Table K V} (hx : x.Inv) (hy : y.Inv) :
    ∀ ps : List Pos, (∀ p ∈ ps, ∃ e, x.arr.slot p.1 p.2 = some e) →
    Table.equalLoop veq x y ps = some ((ps.filterMap (fun p => x.arr.slot p.1 p.2)).all
      (fun e => y.contents.any (fun e' => y.fns.eq e.1 e'.1 && veq e e'))) := by
  intro ps
  induction ps with
  | nil => intro _; rfl
  | cons p ps ih =>
    intro hs
    obtain ⟨e, he⟩ := hs p (by simp)
    rw [List.filterMap_cons_some (f := fun p : Pos => x.arr.slot p.1 p.2) (b := e) he, List.all_cons,
      ← Option.some_inj.mpr rfl]
    have ih := ih (fun q hq => hs q (by simp [hq]))
    rcases hy.find_spec e.1 with ⟨g, j, e', h1, h2, h3⟩ | ⟨h1, h2⟩
    · have hany : y.contents.any (fun e' => y.fns.eq e.1 e'.1 && veq e e') = veq e e' := by
        rw [Bool.eq_iff_iff, List.any_eq_true]
        constructor
        · rintro ⟨d, hd, hde⟩
          rw [Bool.and_eq_true] at hde
          obtain ⟨i, l, hil⟩ := hy.mem.mp hd
          have hly : Live y.fns y.arr := by
            rcases hy.arr with ⟨_, hl⟩ | ⟨_, hdm⟩
            · exact hl
            · rw [hdm.slot] at h2; cases h2
          have := hly.uniq i l d g j e' hil h2 (hy.law.trans _ _ _ (hy.law.symm _ _ hde.1) h3)
          rw [this.1, this.2, h2] at hil
          cases hil; exact hde.2
        · intro hv
          exact ⟨e', hy.mem.mpr ⟨g, j, h2⟩, by rw [h3, hv]; rfl⟩
      simp only [Table.equalLoop, he, h1, h2, hany]
      by_cases hv : veq e e' = true
      · simp only [hv, if_true, Bool.true_and]; exact ih
      · have hv : veq e e' = false := by simpa using hv
        simp only [hv, Bool.false_eq_true, if_false, Bool.false_and]
    · have hany : y.contents.any (fun e' => y.fns.eq e.1 e'.1 && veq e e') = false := by
        rw [List.any_eq_false]
        intro d hd
        obtain ⟨i, l, hil⟩ := hy.mem.mp hd
        rw [h2 i l d hil]; simp
      simp only [Table.equalLoop, he, h1, hany, Bool.false_and]

theorem equal_spec (veq : K × V → K × V → Bool) {x y : Table K V} (hx : x.Inv) (hy : y.Inv) :
    Table.equal veq x y = some (decide (x.contents.length = y.contents.length) &&
      x.contents.all (fun e => y.contents.any (fun e' => y.fns.eq e.1 e'.1 && veq e e'))) := by
  unfold Table.equal
  rw [hx.size, hy.size]
  split
  · next h =>
    rw [equalLoop_spec veq hx hy _ (slots_of_occ hx.arr)]
    simp only [h, decide_true, Bool.true_and]; rfl
  · next h => simp [h]

/-! ### assignment through an iterator -/

theorem assignAt_spec {t : Table K V} (hi : t.Inv) {g j : Nat} {x : K × V} (hx : t.arr.slot g j = some x) (v : V) :
    ∃ t', t.assignAt (g, j) v = some t' ∧ t'.Inv ∧ t'.fns = t.fns ∧ t'.al = t.al ∧
      t'.arr.slot g j = some (x.1, v) ∧
      t'.contents = t.contents.map (fun e => if t.fns.eq x.1 e.1 then (e.1, v) else e) := by
  have he : t.arr.hasElems = true := by
    rcases hi.arr with ⟨he, _⟩ | ⟨_, hd⟩
    · exact he
    · rw [hd.slot] at hx; cases hx
  have hl : Live t.fns t.arr := by
    rcases hi.arr with ⟨_, hl⟩ | ⟨h, _⟩
    · exact hl
    · rw [he] at h; cases h
  set a' := t.arr.setSlot g j (some (x.1, v)) with ha'
  have hslot : ∀ i l, a'.slot i l = if i = g ∧ l = j then some (x.1, v) else t.arr.slot i l := fun _ _ => rfl
  have hslot' : ∀ i l y, a'.slot i l = some y → ∃ z, t.arr.slot i l = some z ∧ z.1 = y.1 := by
    intro i l y h
    rw [hslot] at h
    split at h
    · next e => cases h; rw [e.1, e.2]; exact ⟨x, hx, rfl⟩
    · exact ⟨y, h, rfl⟩
  have hl' : Live t.fns a' := by
    refine ⟨hl.kpos, hl.sent, ?_, ?_, ?_, ?_⟩
    · intro i l hv
      show ((t.arr.grp i).md l = 0 ∧ _) ∨ (∃ y, _ ∧ (t.arr.grp i).md l = _)
      rw [hslot]
      by_cases hil : i = g ∧ l = j
      · right
        obtain ⟨rfl, rfl⟩ := hil
        exact ⟨(x.1, v), by simp, (hl.slot_valid hx).2⟩
      · simp only [hil, if_false]; exact hl.cell i l hv
    · intro i l hv
      rw [hslot, if_neg]
      · exact hl.inval i l hv
      · rintro ⟨rfl, rfl⟩; exact hv (hl.slot_valid hx).1
    · intro i l y hy
      obtain ⟨z, hz, hk⟩ := hslot' i l y hy
      rw [← hk]
      exact hl.probe i l z hz
    · intro i l y i' l' y' hy hy' hyy
      obtain ⟨z, hz, hk⟩ := hslot' i l y hy
      obtain ⟨z', hz', hk'⟩ := hslot' i' l' y' hy'
      rw [← hk, ← hk'] at hyy
      exact hl.uniq i l z i' l' z' hz hz' hyy
  have hcont : a'.contents = t.contents.map (fun e => if t.fns.eq x.1 e.1 then (e.1, v) else e) := by
    unfold Table.contents Arrays.contents
    rw [List.map_filterMap]
    have hocc : a'.occ = t.arr.occ := rfl
    rw [hocc]
    apply List.filterMap_congr
    rintro ⟨i, l⟩ hil
    rw [hslot]
    by_cases hgj : i = g ∧ l = j
    · simp only [hgj.1, hgj.2, and_self, if_true, hx, Option.map_some, hi.law.refl]
    · simp only [hgj, if_false]
      cases hs : t.arr.slot i l with
      | none => rfl
      | some y =>
        simp only [Option.map_some]
        rw [if_neg]
        intro hc
        have := hl.uniq g j x i l y hx hs hc
        exact hgj ⟨this.1.symm, this.2.symm⟩
  refine ⟨{ t with arr := a' }, by simp only [Table.assignAt, hx]; rfl,
    ⟨hi.law, Or.inl ⟨he, hl'⟩, hi.al, ?_, hi.size_le, hi.ml_init⟩, rfl, rfl, ?_, hcont⟩
  · show t.size = a'.contents.length
    rw [hcont, List.length_map]; exact hi.size
  · show a'.slot g j = _
    rw [hslot]; simp

end Foa

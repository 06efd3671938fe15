/-
Specification lemmas for the operations of the open-addressing table model.
-/
import Verif.Foa.Inv

namespace Foa

variable {K V : Type}

/-- Representation invariant of a container. -/
structure Table.Inv (t : Table K V) : Prop where
  law : t.fns.Lawful
  arr : t.arr.Inv t.fns
  al : t.arr.hasElems = true → t.arr.al = t.al
  size : t.size = t.contents.length
  size_le : t.size ≤ t.ml
  ml_init : t.ml ≤ Table.initMl t.arr

/-- inequivalence of keys -/
def Ineq (f : Fns K) (x y : K × V) : Prop := f.eq x.1 y.1 = false

theorem Ineq.symm {f : Fns K} (hf : f.Lawful) {x y : K × V} (h : Ineq f x y) : Ineq f y x := by
  unfold Ineq at *
  by_contra hc
  have := hf.symm _ _ (by simpa using hc)
  rw [h] at this; cases this

theorem initMl_le (a : Arrays K V) : Table.initMl a ≤ a.capacity := by
  unfold Table.initMl Arrays.capacity
  split
  · exact initialMaxLoad_le_cap _
  · simp [initialMaxLoad, N]

theorem Table.Inv.ml_le {t : Table K V} (h : t.Inv) : t.ml ≤ t.capacity := h.ml_init.trans (initMl_le _)

theorem initMl_congr {a b : Arrays K V} (h : a.capacity = b.capacity) : Table.initMl a = Table.initMl b := by
  unfold Table.initMl; rw [h]

/-! ### fresh arrays -/

theorem fresh_live (f : Fns K) (k al : Nat) (hk : 1 ≤ k) :
    Live f ({ k := k, hasElems := true, al := al,
              grp := fun g => if g = 2 ^ k - 1 then Group.empty.setSentinel else Group.empty,
              slot := fun _ _ => none } : Arrays K V) := by
  refine ⟨hk, ?_, ?_, fun _ _ _ => rfl, ?_, ?_⟩
  · simp [Group.setSentinel, N]
  · intro g j hv
    left
    refine ⟨?_, rfl⟩
    simp only
    split
    · next e =>
      simp only [Group.setSentinel, Group.empty, N]
      rw [if_neg]
      intro hj; exact hv.2.2 ⟨e, hj⟩
    · rfl
  · intro g j x hx; cases hx
  · intro g j x g' j' y hx; cases hx

theorem new_hasElems (cfg : Cfg) (al n : Nat) (hn : 0 < n) : (Arrays.new_ cfg al n : Arrays K V).hasElems = true := by
  unfold Arrays.new_; rw [if_neg]; omega

theorem new_k (cfg : Cfg) (al n : Nat) : (Arrays.new_ cfg al n : Arrays K V).k = kFor n := by
  unfold Arrays.new_; split
  · next h => rw [h.1]
  · rfl

theorem new_al (cfg : Cfg) (al n : Nat) : (Arrays.new_ cfg al n : Arrays K V).al = al := by
  unfold Arrays.new_; split <;> rfl

theorem new_slot (cfg : Cfg) (al n g j : Nat) : (Arrays.new_ cfg al n : Arrays K V).slot g j = none := by
  unfold Arrays.new_; split <;> rfl

theorem new_inv (cfg : Cfg) (f : Fns K) (al n : Nat) : (Arrays.new_ cfg al n : Arrays K V).Inv f := by
  unfold Arrays.new_
  split
  · exact Or.inr ⟨rfl, ⟨show kFor 0 = 1 by decide, fun _ => rfl, fun _ _ => rfl⟩⟩
  · exact Or.inl ⟨rfl, fresh_live f _ _ (kFor_pos n)⟩

theorem new_contents (cfg : Cfg) (al n : Nat) : (Arrays.new_ cfg al n : Arrays K V).contents = [] := by
  unfold Arrays.contents
  rw [List.filterMap_eq_nil_iff]
  intro p _
  exact new_slot cfg al n p.1 p.2

theorem new_capacity (cfg : Cfg) (al n : Nat) (hn : 0 < n) :
    (Arrays.new_ cfg al n : Arrays K V).capacity = capacityFor n := by
  unfold Arrays.capacity
  rw [new_hasElems cfg al n hn, if_pos rfl, new_k]; rfl

theorem mk_inv (cfg : Cfg) {f : Fns K} (hf : f.Lawful) (al n : Nat) : (Table.mk_ cfg f al n : Table K V).Inv where
  law := hf
  arr := new_inv cfg f al n
  al := fun _ => new_al cfg al n
  size := by
    show 0 = (Arrays.new_ cfg al n : Arrays K V).contents.length
    rw [new_contents]; rfl
  size_le := Nat.zero_le _
  ml_init := le_rfl

theorem mk_contents (cfg : Cfg) (f : Fns K) (al n : Nat) : (Table.mk_ cfg f al n : Table K V).contents = [] :=
  new_contents cfg al n

/-! ### find at table level -/

theorem Table.Inv.find_spec {t : Table K V} (hi : t.Inv) (x : K) :
    (∃ g j y, t.find x = some (some (g, j)) ∧ t.arr.slot g j = some y ∧ t.fns.eq x y.1 = true) ∨
    (t.find x = some none ∧ ∀ g j y, t.arr.slot g j = some y → t.fns.eq x y.1 = false) :=
  Foa.find_spec hi.law hi.arr x

theorem Table.Inv.mem {t : Table K V} (hi : t.Inv) {x : K × V} : x ∈ t.contents ↔ ∃ g j, t.arr.slot g j = some x :=
  Inv.mem_contents hi.arr

/-! ### insertion into arrays with room -/

theorem emplace_inv {f : Fns K} (hf : f.Lawful) {a : Arrays K V} (hi : a.Inv f) (x : K × V)
    (hno : ∀ y ∈ a.contents, f.eq x.1 y.1 = false) (hlen : a.contents.length < a.capacity) :
    ∃ a' g j, a.emplace (f.hash x.1) x = some (a', (g, j)) ∧ a'.Inv f ∧ Placed a a' (f.hash x.1) x g j ∧
      a.hasElems = true ∧ a'.contents.Perm (x :: a.contents) := by
  have he : a.hasElems = true := by
    unfold Arrays.capacity at hlen
    by_contra h
    simp [h] at hlen
  have hl : Live f a := by
    rcases hi with ⟨_, hl⟩ | ⟨h, _⟩
    · exact hl
    · rw [he] at h; cases h
  rw [Inv.length_contents hi] at hlen
  have hcap : a.capacity = capOf a.k := by simp [Arrays.capacity, he]
  obtain ⟨a', g, j, h1, h2, h3⟩ := emplace_spec hf x a hl he (by omega) (by
    intro g j y hy
    exact hno y ((Inv.mem_contents hi).mpr ⟨g, j, hy⟩))
  exact ⟨a', g, j, h1, Or.inl ⟨by rw [h3.hasElems, he], h2⟩, h3, he, h3.contents_perm hl he⟩

theorem Placed.capacity {a a' : Arrays K V} {h g j : Nat} {x : K × V} (hp : Placed a a' h x g j) :
    a'.capacity = a.capacity := by
  unfold Arrays.capacity; rw [hp.hasElems, hp.k]

/-! ### bulk transfer -/

theorem transferAll_spec {f : Fns K} (hf : f.Lawful) (src : Arrays K V) :
    ∀ (ps : List Pos) (dst : Arrays K V), (∀ p ∈ ps, ∃ x, src.slot p.1 p.2 = some x) →
    (ps.filterMap (fun p => src.slot p.1 p.2) ++ dst.contents).Pairwise (Ineq f) → dst.Inv f →
    dst.contents.length + ps.length ≤ dst.capacity →
    ∃ dst', Arrays.transferAll f src ps dst = some dst' ∧ dst'.Inv f ∧ dst'.k = dst.k ∧
      dst'.hasElems = dst.hasElems ∧ dst'.al = dst.al ∧
      (∀ g j x, dst.slot g j = some x → dst'.slot g j = some x) ∧
      dst'.contents.Perm (ps.filterMap (fun p => src.slot p.1 p.2) ++ dst.contents) := by
  intro ps
  induction ps with
  | nil =>
    intro dst _ _ hi _
    exact ⟨dst, rfl, hi, rfl, rfl, rfl, fun _ _ _ h => h, by simp⟩
  | cons p ps ih =>
    intro dst hp hpw hi hlen
    obtain ⟨x, hx⟩ := hp p (by simp)
    rw [List.filterMap_cons_some (f := fun p : Pos => src.slot p.1 p.2) hx] at hpw ⊢
    rw [List.cons_append, List.pairwise_cons] at hpw
    have hlen' : dst.contents.length + (ps.length + 1) ≤ dst.capacity := by simpa using hlen
    obtain ⟨d1, g, j, h1, h2, h3, h4, h5⟩ := emplace_inv hf hi x
      (fun y hy => hpw.1 y (List.mem_append_right _ hy)) (by omega)
    have hperm : (ps.filterMap (fun p => src.slot p.1 p.2) ++ d1.contents).Perm
        (x :: (ps.filterMap (fun p => src.slot p.1 p.2) ++ dst.contents)) :=
      (List.Perm.append_left _ h5).trans List.perm_middle
    obtain ⟨d2, e1, e2, e3, e4, e5, e6, e7⟩ := ih d1 (fun q hq => hp q (by simp [hq]))
      ((hperm.pairwise_iff (fun h => Ineq.symm hf h)).mpr (List.pairwise_cons.mpr hpw)) h2 (by
        rw [h5.length_eq, h3.capacity]; simp; omega)
    refine ⟨d2, ?_, e2, e3.trans h3.k, e4.trans h3.hasElems, e5.trans h3.al, ?_, e7.trans hperm⟩
    · simp only [Arrays.transferAll, hx, h1, e1]
    · intro i l y hy
      apply e6
      rw [h3.slot]
      split
      · next e => rw [e.1, e.2, h3.free] at hy; cases hy
      · exact hy

theorem insertAll_eq (src : Arrays K V) : ∀ (ps : List Pos) (t : Table K V),
    Table.insertAll src ps t =
      (Arrays.transferAll t.fns src ps t.arr).map (fun a => { t with arr := a, size := t.size + ps.length }) := by
  intro ps
  induction ps with
  | nil => intro t; rfl
  | cons p ps ih =>
    intro t
    simp only [Table.insertAll, Arrays.transferAll, Table.uncheckedInsert]
    cases src.slot p.1 p.2 with
    | none => rfl
    | some x =>
      simp only
      cases t.arr.emplace (t.fns.hash x.1) x with
      | none => rfl
      | some r =>
        simp only
        rw [ih]
        simp only [List.length_cons]
        congr 1
        funext a
        congr 1
        omega

theorem slots_of_occ {f : Fns K} {a : Arrays K V} (hi : a.Inv f) : ∀ p ∈ a.occ, ∃ x, a.slot p.1 p.2 = some x := by
  rintro ⟨g, j⟩ hp
  rcases hi with ⟨he, hl⟩ | ⟨he, _⟩
  · exact (hl.mem_occ he).mp hp
  · simp [Arrays.occ, he] at hp

/-! ### rehash -/

theorem Table.Inv.delete_ {t : Table K V} (hi : t.Inv) : t.arr.delete_ t.al = some () := by
  unfold Arrays.delete_
  rw [if_neg]
  rintro ⟨h1, h2⟩
  exact h2 (hi.al h1)

theorem uncheckedRehash_spec {t : Table K V} (hi : t.Inv) (new : Arrays K V) (hn : new.Inv t.fns)
    (hal : new.hasElems = true → new.al = t.al)
    (hpw : (t.contents ++ new.contents).Pairwise (Ineq t.fns))
    (hlen : new.contents.length + t.size ≤ Table.initMl new) :
    ∃ t', t.uncheckedRehash new = some t' ∧ t'.fns = t.fns ∧ t'.al = t.al ∧ t'.size = t.size ∧
      t'.arr.Inv t.fns ∧ (t'.arr.hasElems = true → t'.arr.al = t.al) ∧ t'.arr.k = new.k ∧
      t'.arr.hasElems = new.hasElems ∧ t'.ml = Table.initMl new ∧
      (∀ g j x, new.slot g j = some x → t'.arr.slot g j = some x) ∧
      t'.contents.Perm (t.contents ++ new.contents) := by
  have hsz : t.arr.occ.length = t.size := by rw [← Inv.length_contents hi.arr, hi.size]; rfl
  obtain ⟨d, h1, h2, h3, h4, h5, h6, h7⟩ := transferAll_spec hi.law t.arr t.arr.occ new (slots_of_occ hi.arr) hpw hn (by
    rw [hsz]; exact hlen.trans (initMl_le new))
  refine ⟨{ t with arr := d, ml := Table.initMl d }, ?_, rfl, rfl, rfl, h2, ?_, h3, h4, ?_, h6, h7⟩
  · simp only [Table.uncheckedRehash, h1, hi.delete_]
  · intro h; rw [show d.al = new.al from h5]; exact hal (by rw [← h4]; exact h)
  · show initialMaxLoad d.capacity = initialMaxLoad new.capacity
    congr 1; unfold Arrays.capacity; rw [h3, h4]

theorem contents_pairwise {t : Table K V} (hi : t.Inv) : t.contents.Pairwise (Ineq t.fns) :=
  Inv.contents_uniq hi.arr

theorem kFor_capOf (k : Nat) (hk : 1 ≤ k) : kFor (capOf k) = k := by
  have h2k := Nat.two_pow_pos k
  have h : kFor (capOf k) ≤ k := kFor_le hk (by unfold capOf N; omega)
  have h' := lt_kFor (capOf k)
  have : 2 ^ k < 2 ^ (kFor (capOf k) + 1) := by
    rw [pow_succ]; unfold capOf N at h'
    have : 2 ^ k ≤ 2 ^ kFor (2 ^ k * 15 - 1) := by omega
    unfold capOf N; omega
  have := (Nat.pow_lt_pow_iff_right (by norm_num : 1 < 2)).mp this
  omega

theorem capacityFor_capacityFor (n : Nat) : capacityFor (capacityFor n) = capacityFor n := by
  unfold capacityFor; rw [kFor_capOf _ (kFor_pos n)]

theorem capOf_mono {k k' : Nat} (h : k ≤ k') : capOf k ≤ capOf k' := by
  unfold capOf N
  have := Nat.pow_le_pow_right (by norm_num : 0 < 2) h
  omega

theorem kFor_mono {n n' : Nat} (h : n ≤ n') : kFor n ≤ kFor n' := kFor_le (kFor_pos n') (h.trans_lt (lt_kFor n'))

theorem capacityFor_mono {n n' : Nat} (h : n ≤ n') : capacityFor n ≤ capacityFor n' := capOf_mono (kFor_mono h)

theorem maxLoad_le_of_small {k : Nat} (hk : k ≤ 2) (hk1 : 1 ≤ k) :
    initialMaxLoad (capOf k) = if k = 1 then 29 else 51 := by
  have : k = 1 ∨ k = 2 := by omega
  rcases this with rfl | rfl <;> decide +kernel

/-- the maximum load grows with the capacity -/
theorem initialMaxLoad_mono {k k' : Nat} (hk : 1 ≤ k) (h : k ≤ k') :
    initialMaxLoad (capOf k) ≤ initialMaxLoad (capOf k') := by
  rcases Nat.eq_or_lt_of_le h with rfl | hlt
  · exact le_rfl
  · by_cases h3 : 3 ≤ k'
    · have h1 := maxLoad_ge h3
      have h2 := initialMaxLoad_le_cap k
      have h4 : capOf k ≤ capOf (k' - 1) := capOf_mono (by omega)
      obtain ⟨d, rfl⟩ : ∃ d, k' = d + 3 := ⟨k' - 3, by omega⟩
      have h5 : capOf (d + 3 - 1) = 60 * 2 ^ d - 1 := by
        unfold capOf N
        rw [show d + 3 - 1 = d + 2 by omega, pow_add]; omega
      rw [show d + 3 - 3 = d by omega] at h1
      omega
    · rw [maxLoad_le_of_small (by omega) hk, maxLoad_le_of_small (by omega) (by omega)]
      split <;> split <;> omega

theorem le_maxLoad_of_le_capacity {n m : Nat} (h : capacityFor (slotsFor n) ≤ capacityFor m) :
    n ≤ initialMaxLoad (capacityFor m) := by
  refine (le_maxLoad_slotsFor n).trans ?_
  unfold capacityFor at *
  apply initialMaxLoad_mono (kFor_pos _)
  by_contra hc
  have h1 : 2 ^ kFor m < 2 ^ kFor (slotsFor n) := Nat.pow_lt_pow_right (by norm_num) (by omega)
  have := Nat.two_pow_pos (kFor m)
  unfold capOf N at h
  omega

theorem rehash_full (cfg : Cfg) {t : Table K V} (hi : t.Inv) (n : Nat) :
    ∃ t', t.rehash cfg n = some t' ∧ t'.Inv ∧ t'.fns = t.fns ∧ t'.al = t.al ∧ t'.contents.Perm t.contents ∧
      (t' = t ∨ t'.ml = Table.initMl t'.arr) ∧ n ≤ t'.capacity ∧
      (0 < n ∨ 0 < t.size → t'.capacity = capacityFor (max n (slotsFor t.size))) ∧
      (n = 0 → t.size = 0 → t'.capacity = if cfg.fancy ∧ t.capacity ≠ 0 then 29 else 0) := by
  unfold Table.rehash
  dsimp only
  generalize hm : (if slotsFor t.size > n then slotsFor t.size else n) = m
  have hm1 : slotsFor t.size ≤ m := by rw [← hm]; split <;> omega
  have hm2 : n ≤ m := by rw [← hm]; split <;> omega
  generalize hq : (if m ≠ 0 then capacityFor m else m) = q
  have hmx : m = max n (slotsFor t.size) := by
    rw [← hm]; split
    · next h => rw [max_eq_right h.le]
    · next h => rw [max_eq_left (by omega)]
  have hmp : 0 < n ∨ 0 < t.size → m ≠ 0 := by
    rintro (h | h)
    · omega
    · have := slotsFor_pos h; omega
  have hmz : n = 0 → t.size = 0 → m = 0 := by
    intro h1 h2; rw [hmx, h1, h2, slotsFor_zero]; rfl
  by_cases hc : q ≠ t.capacity
  · rw [if_pos hc]
    have hq2 : t.size ≤ Table.initMl (Arrays.new_ cfg t.al q : Arrays K V) ∧
        n ≤ (Arrays.new_ cfg t.al q : Arrays K V).capacity := by
      by_cases hm0 : m = 0
      · have h0 : t.size = 0 := by
          by_contra h
          have := slotsFor_pos (Nat.pos_of_ne_zero h)
          omega
        rw [h0]; exact ⟨Nat.zero_le _, by omega⟩
      · rw [if_pos hm0] at hq
        have hqpos : 0 < q := by have := le_capacityFor m; omega
        unfold Table.initMl
        rw [new_capacity cfg _ _ hqpos, ← hq, capacityFor_capacityFor]
        refine ⟨le_maxLoad_of_le_capacity (capacityFor_mono hm1), ?_⟩
        have := le_capacityFor m; omega
    obtain ⟨t', h1, h2, h3, h4, h5, h6, h7, h7', h8, _, h9⟩ := uncheckedRehash_spec hi (Arrays.new_ cfg t.al q)
      (new_inv cfg _ _ _) (fun _ => new_al _ _ _)
      (by rw [new_contents, List.append_nil]; exact contents_pairwise hi)
      (by rw [new_contents]; simpa using hq2.1)
    rw [new_contents, List.append_nil] at h9
    have hcap : t'.arr.capacity = (Arrays.new_ cfg t.al q : Arrays K V).capacity := by
      unfold Arrays.capacity; rw [h7, h7']
    have hml : t'.ml = Table.initMl t'.arr := by
      rw [h8]; unfold Table.initMl; rw [hcap]
    refine ⟨t', h1, ⟨?_, ?_, ?_, ?_, ?_, ?_⟩, h2, h3, h9, Or.inr hml, ?_, ?_, ?_⟩
    · rw [h2]; exact hi.law
    · rw [h2]; exact h5
    · rw [h3]; exact h6
    · rw [h4, hi.size, h9.length_eq]
    · rw [h4, h8]; exact hq2.1
    · exact hml.le
    · show n ≤ t'.arr.capacity
      rw [hcap]; exact hq2.2
    · intro hp
      show t'.arr.capacity = _
      have h0 := hmp hp
      rw [if_pos h0] at hq
      have hqpos : 0 < q := by have := le_capacityFor m; omega
      rw [hcap, new_capacity cfg _ _ hqpos, ← hq, capacityFor_capacityFor, hmx]
    · intro hn0 hs0
      show t'.arr.capacity = _
      rw [if_neg (by simpa using hmz hn0 hs0), hmz hn0 hs0] at hq
      rw [hcap, ← hq]
      have hct : t.capacity ≠ 0 := by rw [← hq] at hc; exact fun h => hc h.symm
      unfold Arrays.capacity Arrays.new_
      cases hfy : cfg.fancy <;> simp [hct, kFor, capOf, N]
  · rw [if_neg hc]
    refine ⟨t, rfl, hi, rfl, rfl, List.Perm.refl _, Or.inl rfl, ?_, ?_, ?_⟩ <;> have hc : q = t.capacity := by simpa using hc
    · rw [← hc, ← hq]
      split
      · have := le_capacityFor m; omega
      · omega
    · intro hp
      rw [← hc, ← hq, if_pos (hmp hp), hmx]
    · intro hn0 hs0
      rw [if_neg (by simpa using hmz hn0 hs0), hmz hn0 hs0] at hq
      rw [← hc, ← hq]; simp

theorem rehash_spec (cfg : Cfg) {t : Table K V} (hi : t.Inv) (n : Nat) :
    ∃ t', t.rehash cfg n = some t' ∧ t'.Inv ∧ t'.fns = t.fns ∧ t'.al = t.al ∧ t'.contents.Perm t.contents ∧
      (t' = t ∨ t'.ml = Table.initMl t'.arr) ∧ n ≤ t'.capacity := by
  obtain ⟨t', h1, h2, h3, h4, h5, h6, h7, _⟩ := rehash_full cfg hi n
  exact ⟨t', h1, h2, h3, h4, h5, h6, h7⟩

/-! ### insertion -/

theorem emplaceIntoNew_of {t t' : Table K V} {x : K × V} {a new : Arrays K V} {p : Pos}
    (h1 : new.emplace (t.fns.hash x.1) x = some (a, p)) (h2 : t.uncheckedRehash a = some t') :
    t.emplaceIntoNew x new = some ({ t' with size := t'.size + 1 }, p) := by
  simp only [Table.emplaceIntoNew, h1, h2]

theorem emplaceImpl_spec (cfg : Cfg) {t : Table K V} (hi : t.Inv) (x : K × V) :
    (∃ g j y, t.emplaceImpl cfg x = some (t, (g, j), false) ∧ t.find x.1 = some (some (g, j)) ∧
      t.arr.slot g j = some y ∧ t.fns.eq x.1 y.1 = true) ∨
    (∃ t' g j, t.emplaceImpl cfg x = some (t', (g, j), true) ∧ t'.Inv ∧ t'.fns = t.fns ∧ t'.al = t.al ∧
      (∀ y ∈ t.contents, t.fns.eq x.1 y.1 = false) ∧ t'.arr.slot g j = some x ∧
      t'.contents.Perm (x :: t.contents) ∧
      (t.size < t.ml → t'.ml = t.ml ∧ t'.arr.k = t.arr.k ∧ t'.arr.hasElems = t.arr.hasElems ∧
        Placed t.arr t'.arr (t.fns.hash x.1) x g j) ∧
      (¬ t.size < t.ml → t'.ml = Table.initMl t'.arr)) := by
  rcases hi.find_spec x.1 with ⟨g, j, y, h1, h2, h3⟩ | ⟨h1, h2⟩
  · left
    exact ⟨g, j, y, by simp [Table.emplaceImpl, h1], h1, h2, h3⟩
  · right
    have hno : ∀ y ∈ t.contents, t.fns.eq x.1 y.1 = false := by
      intro y hy
      obtain ⟨g, j, h⟩ := hi.mem.mp hy
      exact h2 g j y h
    by_cases hlt : t.size < t.ml
    · have hlen : t.arr.contents.length < t.arr.capacity := by
        have e1 := hi.size; have e2 := hi.ml_le
        change t.size = t.arr.contents.length at e1
        change t.ml ≤ t.arr.capacity at e2
        omega
      obtain ⟨a', g, j, e1, e2, e3, e4, e5⟩ := emplace_inv hi.law hi.arr x hno hlen
      refine ⟨{ t with arr := a', size := t.size + 1 }, g, j, ?_, ?_, rfl, rfl, hno, ?_, e5,
        fun _ => ⟨rfl, e3.k, e3.hasElems, e3⟩, fun h => absurd hlt h⟩
      · simp [Table.emplaceImpl, h1, hlt, Table.uncheckedInsert, e1]
      · refine ⟨hi.law, e2, ?_, ?_, hlt, ?_⟩
        · intro h; rw [show a'.al = t.arr.al from e3.al]; exact hi.al e4
        · show t.size + 1 = a'.contents.length
          rw [e5.length_eq, hi.size]; rfl
        · show t.ml ≤ Table.initMl a'
          rw [initMl_congr e3.capacity]; exact hi.ml_init
      · show a'.slot g j = some x
        rw [e3.slot]; simp
    · have hgr : 0 < growthRequest t.size := slotsFor_pos (by omega)
      have hcap := new_capacity (K := K) (V := V) cfg t.al (growthRequest t.size) hgr
      have hml := lt_maxLoad_growth t.size
      have hcl := initialMaxLoad_le_cap (kFor (growthRequest t.size))
      obtain ⟨a', g, j, e1, e2, e3, e4, e5⟩ := emplace_inv hi.law (new_inv cfg t.fns t.al (growthRequest t.size)) x
        (by rw [new_contents]; simp) (by rw [new_contents, hcap]; unfold capacityFor at *; simp; omega)
      rw [new_contents] at e5
      have hperm : (t.contents ++ a'.contents).Perm (x :: t.contents) :=
        (List.Perm.append_left _ e5).trans (List.perm_append_comm)
      have hpw : (t.contents ++ a'.contents).Pairwise (Ineq t.fns) := by
        rw [hperm.pairwise_iff (fun h => Ineq.symm hi.law h), List.pairwise_cons]
        exact ⟨hno, contents_pairwise hi⟩
      have hmle : Table.initMl a' = initialMaxLoad (capacityFor (growthRequest t.size)) := by
        unfold Table.initMl; rw [e3.capacity, hcap]
      obtain ⟨t', f1, f2, f3, f4, f5, f6, f7, f7', f8, f10, f9⟩ := uncheckedRehash_spec hi a' e2
        (fun _ => by rw [e3.al, new_al]) hpw (by rw [e5.length_eq, hmle]; simp; omega)
      have hcap' : t'.arr.capacity = a'.capacity := by unfold Arrays.capacity; rw [f7, f7']
      refine ⟨{ t' with size := t'.size + 1 }, g, j, ?_, ?_, f2, f3, hno, ?_, f9.trans hperm, fun h => absurd h hlt, ?_⟩
      · have hw : t.emplaceWithRehash cfg x = some ({ t' with size := t'.size + 1 }, (g, j)) := by
          exact emplaceIntoNew_of e1 f1
        unfold Table.emplaceImpl
        rw [h1]; dsimp only
        rw [if_neg hlt, hw]; rfl
      · have hs : t'.size + 1 = t'.contents.length := by
          rw [f4, (f9.trans hperm).length_eq, hi.size]; rfl
        refine ⟨?_, ?_, ?_, hs, ?_, ?_⟩
        · show t'.fns.Lawful; rw [f2]; exact hi.law
        · show t'.arr.Inv t'.fns; rw [f2]; exact f5
        · show t'.arr.hasElems = true → t'.arr.al = t'.al
          rw [f3]; exact f6
        · show t'.size + 1 ≤ t'.ml
          rw [f4, f8, hmle]; omega
        · show t'.ml ≤ Table.initMl t'.arr
          rw [f8, initMl_congr hcap']
      · exact f10 g j x (by rw [e3.slot]; simp)
      · intro _
        show t'.ml = Table.initMl t'.arr
        rw [f8]; unfold Table.initMl; rw [hcap']

/-! ### erasure -/

theorem eraseAt_spec {t : Table K V} (hi : t.Inv) {g j : Nat} {x : K × V} (hx : t.arr.slot g j = some x) :
    ∃ t', t.eraseAt (g, j) = some t' ∧ t'.Inv ∧ t'.fns = t.fns ∧ t'.al = t.al ∧ t'.arr.k = t.arr.k ∧
      t'.arr.hasElems = t.arr.hasElems ∧
      (∀ i l, t'.arr.slot i l = if i = g ∧ l = j then none else t.arr.slot i l) ∧
      (∀ i l, (t'.arr.grp i).md l = if i = g ∧ l = j then 0 else (t.arr.grp i).md l) ∧
      t.contents.Perm (x :: t'.contents) ∧
      t'.ml = t.ml - (if (t.arr.grp g).maybeCausedOverflow j then 1 else 0) := by
  have he : t.arr.hasElems = true := by
    rcases hi.arr with ⟨he, _⟩ | ⟨_, hd⟩
    · exact he
    · rw [hd.slot] at hx; cases hx
  have hl : Live t.fns t.arr := by
    rcases hi.arr with ⟨_, hl⟩ | ⟨h, _⟩
    · exact hl
    · rw [he] at h; cases h
  have hv := hl.slot_valid hx
  have hmem : x ∈ t.contents := hi.mem.mpr ⟨g, j, hx⟩
  have hpos : 1 ≤ t.size := by rw [hi.size]; exact List.length_pos_of_mem hmem
  have hsl := hi.size_le
  set d := (if (t.arr.grp g).maybeCausedOverflow j then 1 else 0) with hd
  have hd1 : d ≤ 1 := by rw [hd]; split <;> omega
  set a' := (t.arr.setSlot g j none).setGrp g ((t.arr.grp g).reset j) with ha'
  have hslot : ∀ i l, a'.slot i l = if i = g ∧ l = j then none else t.arr.slot i l := fun _ _ => rfl
  have hmd : ∀ i l, (a'.grp i).md l = if i = g ∧ l = j then 0 else (t.arr.grp i).md l := by
    intro i l
    simp only [ha', Arrays.setGrp, Arrays.setSlot]
    by_cases hi : i = g
    · subst hi; simp [Group.reset]
    · simp [hi]
  have hofw : ∀ i, (a'.grp i).ofw = (t.arr.grp i).ofw := by
    intro i
    simp only [ha', Arrays.setGrp, Arrays.setSlot]
    split
    · next e => subst e; rfl
    · rfl
  have hsub : ∀ i l y, a'.slot i l = some y → t.arr.slot i l = some y := by
    intro i l y h
    rw [hslot] at h
    split at h
    · cases h
    · exact h
  have hl' : Live t.fns a' := by
    refine ⟨hl.kpos, ?_, ?_, ?_, ?_, ?_⟩
    · show (a'.grp (2 ^ t.arr.k - 1)).md 14 = 1
      rw [hmd, if_neg]
      · exact hl.sent
      · rintro ⟨e1, e2⟩; exact hv.1.2.2 ⟨e1.symm, e2.symm⟩
    · intro i l hvi
      rw [hmd, hslot]
      by_cases hil : i = g ∧ l = j
      · left; simp [hil]
      · simp only [hil, if_false]; exact hl.cell i l hvi
    · intro i l hvi
      rw [hslot]; split
      · rfl
      · exact hl.inval i l hvi
    · intro i l y hy pre post hp g' hg'
      rw [hofw]
      exact hl.probe i l y (hsub i l y hy) pre post hp g' hg'
    · intro i l y i' l' z hy hz
      exact hl.uniq i l y i' l' z (hsub _ _ _ hy) (hsub _ _ _ hz)
  have hplaced : Placed a' t.arr (t.fns.hash x.1) x g j := by
    refine ⟨rfl, rfl, rfl, hv.1, by rw [hslot]; simp, ?_, ?_⟩
    · intro i l
      rw [hslot]
      by_cases hil : i = g ∧ l = j
      · simp [hil, hx]
      · simp [hil]
    · intro i l
      rw [hmd]
      by_cases hil : i = g ∧ l = j
      · simp [hil, hv.2]
      · simp [hil]
  have hperm : t.contents.Perm (x :: a'.contents) := hplaced.contents_perm hl' he
  refine ⟨{ t with arr := a', ml := t.ml - d, size := t.size - 1 }, ?_, ?_, rfl, rfl, rfl, rfl, hslot, hmd, hperm, rfl⟩
  · unfold Table.eraseAt
    simp only [hx]
    rw [if_pos]
    exact ⟨he, by omega, hpos⟩
  · refine ⟨hi.law, Or.inl ⟨he, hl'⟩, hi.al, ?_, ?_, ?_⟩
    · show t.size - 1 = a'.contents.length
      rw [hi.size, hperm.length_eq]; rfl
    · show t.size - 1 ≤ t.ml - d
      omega
    · show t.ml - d ≤ Table.initMl t.arr
      have := hi.ml_init; omega

/-! ### clear -/

theorem clear_spec {t : Table K V} (hi : t.Inv) : t.clear.Inv ∧ t.clear.contents = [] ∧ t.clear.fns = t.fns ∧
    t.clear.al = t.al ∧ t.clear.arr.k = t.arr.k ∧ t.clear.arr.hasElems = t.arr.hasElems ∧
    t.clear.ml = Table.initMl t.arr ∧ t.clear.size = 0 := by
  unfold Table.clear
  split
  · next he =>
    have hl : Live t.fns t.arr := by
      rcases hi.arr with ⟨_, hl⟩ | ⟨h, _⟩
      · exact hl
      · rw [he] at h; cases h
    have hc : ({ t.arr with
      grp := fun g => if g = 2 ^ t.arr.k - 1 then Group.empty.setSentinel else Group.empty,
      slot := fun _ _ => none } : Arrays K V).contents = [] := by
      unfold Arrays.contents
      rw [List.filterMap_eq_nil_iff]
      intro p _; rfl
    refine ⟨⟨hi.law, Or.inl ⟨he, ?_⟩, hi.al, ?_, Nat.zero_le _, le_rfl⟩, hc, rfl, rfl, rfl, rfl, rfl, rfl⟩
    · have := fresh_live (V := V) t.fns t.arr.k t.arr.al hl.kpos
      rw [← he] at this
      exact this
    · show 0 = _
      rw [Table.contents, hc]; rfl
  · next he =>
    have he : t.arr.hasElems = false := by simpa using he
    have hc : t.contents = [] := by
      unfold Table.contents Arrays.contents Arrays.occ; simp [he]
    have h0 : t.size = 0 := by rw [hi.size, hc]; rfl
    refine ⟨hi, hc, rfl, rfl, rfl, rfl, ?_, h0⟩
    have h1 := hi.ml_le
    unfold Table.capacity Arrays.capacity at h1
    unfold Table.initMl Arrays.capacity
    simp [he] at h1 ⊢
    rw [h1]; simp [initialMaxLoad]

end Foa

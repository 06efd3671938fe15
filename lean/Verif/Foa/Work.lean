/-
Array work done by an insertion of the open-addressing containers: the model of `Verif/Foa/Table.lean` with counters for
everything whose amount depends on the size of the arrays.
Sources: /repo/include/boost/unordered/detail/foa/core.hpp, /repo/include/boost/unordered/detail/foa/table.hpp.

Not counted: the probing of the lookup and of the placements (its length depends on the hash function), comparisons, and the
constant amount of work per call.
-/
import Verif.Foa.HeapLemmas
import Verif.SpecCost
import Mathlib.Tactic.IntervalCases

namespace Foa.Cost
open SpecCost (Work Call)
variable {K V : Type}

/-- The loop of `unchecked_rehash` with the counter of transferred elements (core.hpp:2291-2293, 2331-2364). -/
def transferAllW (f : Fns K) (src : Arrays K V) : List Pos → Arrays K V → Option (Arrays K V × Nat)
  | [], dst => some (dst, 0)
  | p :: ps, dst =>
    match src.slot p.1 p.2 with
    | none => none
    | some x =>
      match dst.emplace (f.hash x.1) x with
      | none => none
      | some (dst', _) => (transferAllW f src ps dst').map (fun r => (r.1, r.2 + 1))

/-- Groups visited by `for_all_elements` (core.hpp:2058-2075): all of them, none if there is no element array. -/
def scanGroups (a : Arrays K V) : Nat := if a.hasElems then 2 ^ a.k else 0

/-- `set_arrays` (core.hpp:1036-1079): one allocation and the initialization of every group, nothing for the dummy
groups. -/
def newWork (a : Arrays K V) : Work := if a.hasElems then { inited := 2 ^ a.k, allocs := 1 } else {}

/-- `unchecked_rehash(new_arrays_)` (core.hpp:2287-2322); the pass that destroys the copied elements is not counted
separately. -/
def uncheckedRehashW (t : Table K V) (new : Arrays K V) : Option (Table K V × Work) :=
  match transferAllW t.fns t.arr t.arr.occ new with
  | none => none
  | some (a, m) =>
    match t.arr.delete_ t.al with
    | none => none
    | some _ => some ({ t with arr := a, ml := Table.initMl a }, { moved := m, scanned := scanGroups t.arr })

/-- `unchecked_emplace_with_rehash` (core.hpp:1980-2002) after the new arrays have been allocated. -/
def emplaceIntoNewW (t : Table K V) (x : K × V) (new : Arrays K V) : Option (Table K V × Work) :=
  match new.emplace (t.fns.hash x.1) x with
  | none => none
  | some (a, _) =>
    match uncheckedRehashW t a with
    | none => none
    | some (t', w) => some ({ t' with size := t'.size + 1 }, (newWork new).add w)

/-- `table::emplace_impl` (table.hpp:628-655) with `new_arrays_for_growth` (core.hpp:2119-2133). -/
def emplaceImplW (cfg : Cfg) (t : Table K V) (x : K × V) : Option (Table K V × Bool × Work) :=
  match t.find x.1 with
  | none => none
  | some (some _) => some (t, false, {})
  | some none =>
    if t.size < t.ml then
      (t.uncheckedInsert x).map (fun r => (r.1, true, {}))
    else
      (emplaceIntoNewW t x (Arrays.new_ cfg t.al (growthRequest t.size))).map (fun r => (r.1, true, r.2))

/-- Insert/erase traffic on one container, with the total work. Erasure by key (table.hpp:484-496) never touches the arrays
beyond the slot of the element. -/
def calls (cfg : Cfg) : List (Call K V) → Table K V → Option (Table K V × Work)
  | [], t => some (t, {})
  | .insert x :: l, t =>
    match emplaceImplW cfg t x with
    | none => none
    | some (t', _, w) => (calls cfg l t').map (fun r => (r.1, w.add r.2))
  | .erase k :: l, t =>
    match t.eraseKey k with
    | none => none
    | some (t', _) => calls cfg l t'

/-! ### The counters do not change the program -/

theorem transferAllW_eq (f : Fns K) (src : Arrays K V) : ∀ (ps : List Pos) (dst : Arrays K V),
    transferAllW f src ps dst = (Arrays.transferAll f src ps dst).map (fun a => (a, ps.length)) := by
  intro ps
  induction ps with
  | nil => intro dst; rfl
  | cons p ps ih =>
    intro dst
    simp only [transferAllW, Arrays.transferAll]
    cases src.slot p.1 p.2 with
    | none => rfl
    | some x =>
      dsimp only
      cases dst.emplace (f.hash x.1) x with
      | none => rfl
      | some r => dsimp only; rw [ih]; simp [Option.map_map, Function.comp_def]

theorem uncheckedRehashW_eq (t : Table K V) (new : Arrays K V) :
    uncheckedRehashW t new = (t.uncheckedRehash new).map
      (fun t' => (t', { moved := t.arr.occ.length, scanned := scanGroups t.arr })) := by
  unfold uncheckedRehashW Table.uncheckedRehash
  rw [transferAllW_eq]
  cases Arrays.transferAll t.fns t.arr t.arr.occ new with
  | none => rfl
  | some a => simp only [Option.map_some]; cases t.arr.delete_ t.al <;> rfl

theorem emplaceIntoNewW_eq (t : Table K V) (x : K × V) (new : Arrays K V) :
    emplaceIntoNewW t x new = (t.emplaceIntoNew x new).map
      (fun r => (r.1, (newWork new).add { moved := t.arr.occ.length, scanned := scanGroups t.arr })) := by
  unfold emplaceIntoNewW Table.emplaceIntoNew
  cases new.emplace (t.fns.hash x.1) x with
  | none => rfl
  | some r =>
    dsimp only
    rw [uncheckedRehashW_eq]
    cases t.uncheckedRehash _ <;> rfl

/-- work of a growing insertion into `t` -/
def growthWork (t : Table K V) (new : Arrays K V) : Work :=
  (newWork new).add { moved := t.arr.occ.length, scanned := scanGroups t.arr }

theorem emplaceImplW_eq (cfg : Cfg) (t : Table K V) (x : K × V) :
    emplaceImplW cfg t x = (t.emplaceImpl cfg x).map (fun r => (r.1, r.2.2,
      if r.2.2 = true ∧ ¬ t.size < t.ml then growthWork t (Arrays.new_ cfg t.al (growthRequest t.size)) else {})) := by
  unfold emplaceImplW Table.emplaceImpl Table.emplaceWithRehash
  generalize (Arrays.new_ cfg t.al (growthRequest t.size) : Arrays K V) = new
  cases t.find x.1 with
  | none => rfl
  | some o =>
    cases o with
    | some p => simp
    | none =>
      dsimp only
      by_cases hl : t.size < t.ml
      · rw [if_pos hl, if_pos hl]
        cases t.uncheckedInsert x <;> simp [hl]
      · rw [if_neg hl, if_neg hl, emplaceIntoNewW_eq]
        cases t.emplaceIntoNew x new <;> simp [hl, growthWork]

/-- the same traffic without counters -/
def plain (cfg : Cfg) : List (Call K V) → Table K V → Option (Table K V)
  | [], t => some t
  | .insert x :: l, t => (t.emplaceImpl cfg x).bind (fun r => plain cfg l r.1)
  | .erase k :: l, t => (t.eraseKey k).bind (fun r => plain cfg l r.1)

theorem calls_plain (cfg : Cfg) : ∀ (l : List (Call K V)) (t : Table K V),
    (calls cfg l t).map Prod.fst = plain cfg l t := by
  intro l
  induction l with
  | nil => intro t; rfl
  | cons a l ih =>
    intro t
    cases a with
    | insert x =>
      simp only [calls, plain, emplaceImplW_eq]
      cases t.emplaceImpl cfg x with
      | none => rfl
      | some r => simp only [Option.map_some, Option.map_map, Option.bind_some, ← ih]; rfl
    | erase k =>
      simp only [calls, plain]
      cases t.eraseKey k with
      | none => rfl
      | some r => simp only [Option.bind_some, ← ih]

/-! ### Arithmetic -/

theorem rnd_ub (p q : Nat) : F32.rnd 24 p q ≤ p / q + p / q / 2 ^ 23 + 1 := by
  unfold F32.rnd
  dsimp only
  generalize he : Nat.log2 (p / q) + 1 - 24 = e
  have h1 : F32.rne p (q * 2 ^ e) ≤ p / (q * 2 ^ e) + 1 := by
    unfold F32.rne; dsimp only; split <;> omega
  have h2 : F32.rne p (q * 2 ^ e) * 2 ^ e ≤ p / q + 2 ^ e := by
    calc _ ≤ (p / (q * 2 ^ e) + 1) * 2 ^ e := Nat.mul_le_mul_right _ h1
      _ = p / q / 2 ^ e * 2 ^ e + 2 ^ e := by rw [Nat.div_div_eq_div_mul]; ring
      _ ≤ _ := Nat.add_le_add_right (Nat.div_mul_le_self _ _) _
  have h3 : 2 ^ e ≤ p / q / 2 ^ 23 + 1 := by
    by_cases h0 : e = 0
    · subst h0; simp
    · have hv : p / q ≠ 0 := by
        intro h; rw [h] at he; simp at he; omega
      have := Nat.log2_self_le hv
      have h4 : 2 ^ e ≤ p / q / 2 ^ 23 := by
        rw [Nat.le_div_iff_mul_le (by norm_num), ← pow_add]
        have : e + 23 = Nat.log2 (p / q) := by omega
        rw [this]; assumption
      omega
  omega

theorem slotsFor_le (n : Nat) : 6 * slotsFor n ≤ 7 * n + 12 := by
  unfold slotsFor F32.div F32.ceilN
  have h1 := rnd_ub (F32.ofNat n * F32.SC) mlf
  have h2 : F32.ofNat n ≤ n * F32.SC + n * F32.SC / 2 ^ 23 + 1 := by
    have := rnd_ub (n * F32.SC) 1
    simpa [F32.ofNat] using this
  generalize F32.ofNat n = a at h1 h2
  have h3 : a * F32.SC / mlf = a * 8 / 7 := by
    have e1 : F32.SC = 8 * 2 ^ 146 := by unfold F32.SC; norm_num
    unfold mlf
    rw [e1, ← Nat.mul_assoc, Nat.mul_div_mul_right _ _ (by positivity)]
  rw [h3] at h1
  generalize F32.rnd 24 (a * F32.SC) mlf = b at h1
  have hS : 1000 ≤ F32.SC := by unfold F32.SC; norm_num
  generalize F32.SC = S at *
  generalize hX : n * S = X at *
  have hb : 6 * b ≤ 7 * X + S := by
    norm_num at h1 h2
    omega
  have h4 := Nat.div_mul_le_self (b + S - 1) S
  generalize (b + S - 1) / S = c at *
  have h5 : (6 * c) * S < (7 * n + 7) * S := by
    calc (6 * c) * S = 6 * (c * S) := by ring
      _ < 7 * X + 7 * S := by omega
      _ = _ := by rw [← hX]; ring
  have := Nat.lt_of_mul_lt_mul_right h5
  omega

/-- number of groups allocated for a request of `n` slots -/
theorem groups_le (n : Nat) : 15 * 2 ^ kFor n ≤ 2 * n + 30 := by
  by_cases h : kFor n = 1
  · rw [h]; omega
  · have h1 := kFor_pos n
    by_contra hc
    have : kFor n ≤ kFor n - 1 := by
      apply kFor_le (by omega)
      have : 2 ^ kFor n = 2 * 2 ^ (kFor n - 1) := by
        rw [← pow_succ']; congr 1; omega
      omega
    omega

/-- number of groups of the arrays allocated by a growth with `s` elements -/
theorem growth_groups_le (s : Nat) : 100 * 2 ^ kFor (growthRequest s) ≤ 16 * s + 260 := by
  have h1 := groups_le (growthRequest s)
  have h2 := slotsFor_le (s + s / 61 + 1)
  unfold growthRequest at *
  generalize slotsFor (s + s / 61 + 1) = q at *
  generalize 2 ^ kFor q = g at *
  omega

/-- number of groups against their maximum load -/
theorem groups_le_maxLoad {k : Nat} (hk : 1 ≤ k) : 105 * 2 ^ k ≤ 8 * initialMaxLoad (capOf k) + 12 := by
  by_cases h : 3 ≤ k
  · have := maxLoad_ge h
    have : 2 ^ k = 8 * 2 ^ (k - 3) := by
      have : 8 = 2 ^ 3 := by norm_num
      rw [this, ← pow_add]; congr 1; omega
    omega
  · have : k = 1 ∨ k = 2 := by omega
    rw [maxLoad_le_of_small (by omega) hk]
    rcases this with rfl | rfl <;> simp

/-! ### Growth -/

theorem intoNew_arrays {t t' : Table K V} {x : K × V} {p : Pos} {new : Arrays K V}
    (h : t.emplaceIntoNew x new = some (t', p)) : Same t'.arr new ∧ t'.ml = Table.initMl t'.arr := by
  unfold Table.emplaceIntoNew at h
  cases e1 : new.emplace (t.fns.hash x.1) x with
  | none => rw [e1] at h; simp at h
  | some r =>
    rw [e1] at h
    dsimp only at h
    unfold Table.uncheckedRehash at h
    cases e2 : Arrays.transferAll t.fns t.arr t.arr.occ r.1 with
    | none => rw [e2] at h; simp at h
    | some a =>
      rw [e2] at h
      dsimp only at h
      cases e3 : t.arr.delete_ t.al with
      | none => rw [e3] at h; simp at h
      | some u =>
        rw [e3] at h
        simp only [Option.some.injEq, Prod.mk.injEq] at h
        obtain ⟨rfl, _⟩ := h
        exact ⟨(transferAll_same e2).trans (emplace_same e1), rfl⟩

theorem withRehash_of {cfg : Cfg} {t t' : Table K V} {x : K × V} {p : Pos} (hr : ¬ t.size < t.ml)
    (h : t.emplaceImpl cfg x = some (t', p, true)) : t.emplaceWithRehash cfg x = some (t', p) := by
  unfold Table.emplaceImpl at h
  rw [if_neg hr] at h
  cases hf : t.find x.1 with
  | none => rw [hf] at h; simp at h
  | some o =>
    rw [hf] at h
    cases o with
    | some p => simp at h
    | none =>
      dsimp only at h
      cases e : t.emplaceWithRehash cfg x with
      | none => rw [e] at h; simp at h
      | some r =>
        rw [e] at h
        simp only [Option.map_some, Option.some.injEq, Prod.mk.injEq] at h
        obtain ⟨h1, h2, _⟩ := h
        rw [← h1, ← h2]

theorem new_arrays' {cfg : Cfg} {al q : Nat} (hq : 0 < q) {a : Arrays K V} (h : Same a (Arrays.new_ cfg al q)) :
    a.k = kFor q ∧ a.hasElems = true ∧ Table.initMl a = initialMaxLoad (capacityFor q) := by
  have hn1 := new_k (K := K) (V := V) cfg al q
  have hn2 := new_hasElems (K := K) (V := V) cfg al _ hq
  have h1 := h.1.trans hn1
  have h2 := h.2.1.trans hn2
  refine ⟨h1, h2, ?_⟩
  unfold Table.initMl Arrays.capacity capacityFor
  rw [h2, h1, if_pos rfl]

/-- the arrays after a growth -/
theorem growth_arrays {cfg : Cfg} {t t' : Table K V} {x : K × V} {p : Pos} (hr : ¬ t.size < t.ml)
    (h : t.emplaceImpl cfg x = some (t', p, true)) :
    t'.arr.k = kFor (growthRequest t.size) ∧ t'.arr.hasElems = true ∧
      t'.ml = initialMaxLoad (capacityFor (growthRequest t.size)) := by
  have hg : 0 < growthRequest t.size := slotsFor_pos (by omega)
  have h1 := withRehash_of hr h
  unfold Table.emplaceWithRehash at h1
  obtain ⟨h2, h3⟩ := intoNew_arrays h1
  obtain ⟨h4, h5, h6⟩ := new_arrays' hg h2
  exact ⟨h4, h5, h3.trans h6⟩

/-- groups scanned against the load of the table and its drift -/
theorem scan_le {t : Table K V} (hi : t.Inv) : 105 * scanGroups t.arr ≤ 8 * Table.initMl t.arr + 12 := by
  unfold scanGroups Table.initMl Arrays.capacity
  cases h : t.arr.hasElems with
  | false => simp
  | true =>
    simp only [if_true]
    rcases hi.arr with ⟨_, hl⟩ | ⟨h0, _⟩
    · exact groups_le_maxLoad hl.kpos
    · rw [h] at h0; cases h0

/-! ### The potential -/

/-- Stored work: twice the size plus what the maximum load has drifted, less 122 for every insertion that is certain not to
rehash. -/
def phi (t : Table K V) : Nat := 2 * t.size + (Table.initMl t.arr - t.ml) - 122 * (t.ml - t.size)

theorem phi_le (t : Table K V) : phi t ≤ 2 * t.size + t.capacity := by
  have : Table.initMl t.arr ≤ t.capacity := initMl_le _
  unfold phi; omega

theorem growthWork_le {cfg : Cfg} {t : Table K V} (hi : t.Inv) (hr : ¬ t.size < t.ml) :
    (growthWork t (Arrays.new_ cfg t.al (growthRequest t.size))).total ≤ phi t + 4 := by
  have h1 := scan_le hi
  have h2 := growth_groups_le t.size
  have h3 : t.arr.occ.length = t.size := by
    rw [← Inv.length_contents hi.arr]; exact hi.size.symm
  have h4 := hi.size_le
  have hg : 0 < growthRequest t.size := slotsFor_pos (by omega)
  unfold growthWork newWork Work.add Work.total phi
  rw [new_hasElems _ _ _ hg, new_k, if_pos rfl, h3]
  dsimp only
  generalize 2 ^ kFor (growthRequest t.size) = g at *
  generalize scanGroups t.arr = s at *
  generalize Table.initMl t.arr = m at *
  omega

/-- insertion: actual work plus change of potential is at most 126 -/
theorem insert_cost (cfg : Cfg) {t : Table K V} (hi : t.Inv) (x : K × V) :
    ∃ t' p b w, emplaceImplW cfg t x = some (t', b, w) ∧ t.emplaceImpl cfg x = some (t', p, b) ∧ t'.Inv ∧
      w.total + phi t' ≤ phi t + 126 := by
  rcases emplaceImpl_spec cfg hi x with ⟨g, j, y, h1, _, _, _⟩ | ⟨t1, g, j, h1, h2, _, _, _, _, h7, h8, h9⟩
  · refine ⟨t, (g, j), false, {}, by rw [emplaceImplW_eq, h1]; simp, h1, hi, ?_⟩
    show 0 + 0 + 0 + phi t ≤ _
    omega
  · have hs : t1.size = t.size + 1 := by rw [h2.size, h7.length_eq, hi.size]; simp
    by_cases hr : t.size < t.ml
    · refine ⟨t1, (g, j), true, {}, by rw [emplaceImplW_eq, h1]; simp [hr], h1, h2, ?_⟩
      obtain ⟨m1, m2, m3, _⟩ := h8 hr
      have : Table.initMl t1.arr = Table.initMl t.arr := by unfold Table.initMl Arrays.capacity; rw [m2, m3]
      show 0 + 0 + 0 + phi t1 ≤ _
      unfold phi
      rw [this, m1, hs]
      omega
    · refine ⟨t1, (g, j), true, _, by rw [emplaceImplW_eq, h1]; simp only [Option.map_some, hr]; rfl, h1, h2, ?_⟩
      have a1 := growthWork_le (cfg := cfg) hi hr
      obtain ⟨a2, a3, a4⟩ := growth_arrays hr h1
      have a5 := le_maxLoad_slotsFor (t.size + t.size / 61 + 1)
      have a6 : phi t1 ≤ 122 := by
        unfold phi
        rw [h9 hr, Nat.sub_self, ← h9 hr, a4, hs]
        unfold growthRequest
        generalize initialMaxLoad (capacityFor (slotsFor (t.size + t.size / 61 + 1))) = M at *
        omega
      simp only [not_false_eq_true, and_self, if_true]
      omega

/-- erasure does no array work and raises the potential by at most 1 -/
theorem erase_cost {t : Table K V} (hi : t.Inv) (k : K) :
    ∃ t' n, t.eraseKey k = some (t', n) ∧ t'.Inv ∧ phi t' ≤ phi t + 1 := by
  rcases hi.find_spec k with ⟨g, j, y, h1, h2, _⟩ | ⟨h1, _⟩
  · obtain ⟨t1, a1, a2, _, _, a5, a6, _, _, a9, a10⟩ := eraseAt_spec hi h2
    have hs : t.size = t1.size + 1 := by rw [hi.size, a9.length_eq, a2.size]; simp
    refine ⟨t1, 1, by simp [Table.eraseKey, h1, a1], a2, ?_⟩
    have : Table.initMl t1.arr = Table.initMl t.arr := by unfold Table.initMl Arrays.capacity; rw [a5, a6]
    have b1 := hi.size_le
    have b2 := a2.size_le
    have b3 : t.ml ≤ t1.ml + 1 := by rw [a10]; split <;> omega
    unfold phi
    rw [this]
    omega
  · exact ⟨t, 0, by simp [Table.eraseKey, h1], hi, by omega⟩

/-! ### Insertions only -/

theorem maxLoad_small {k : Nat} (h3 : 3 ≤ k) (h : k ≤ 20) : initialMaxLoad (capOf k) = 105 * 2 ^ (k - 3) - 1 := by
  interval_cases k <;> decide +kernel

theorem maxLoad_big {k : Nat} (h : 21 ≤ k) : initialMaxLoad (capOf k) = 105 * 2 ^ (k - 3) := by
  obtain ⟨d, rfl⟩ : ∃ d, k = 3 + d := ⟨k - 3, by omega⟩
  have e : 3 + d - 3 = d := by omega
  rw [e]
  apply Nat.le_antisymm
  · have hc : ¬ capOf (3 + d) ≤ 2 * N - 1 := by
      unfold capOf N
      have : 2 ^ 2 ≤ 2 ^ (3 + d) := Nat.pow_le_pow_right (by norm_num) (by omega)
      omega
    unfold initialMaxLoad
    rw [if_neg hc]
    have h1 : F32.ofNat (capOf (3 + d)) ≤ 15 * 2 ^ (3 + d) * F32.SC :=
      F32.ofNat_le (by norm_num) (by unfold capOf N; omega)
    have h2 : F32.mul mlf (F32.ofNat (capOf (3 + d))) ≤ 105 * 2 ^ d * F32.SC := by
      have e : 105 * 2 ^ d * F32.SC = 105 * 2 ^ (d + 149) := by unfold F32.SC; rw [pow_add]; ring
      rw [e]
      unfold F32.mul
      apply F32.rnd_le (by norm_num) F32.SC_pos (by norm_num)
      calc mlf * F32.ofNat (capOf (3 + d)) ≤ mlf * (15 * 2 ^ (3 + d) * F32.SC) := Nat.mul_le_mul_left _ h1
        _ = 105 * 2 ^ (d + 149) * F32.SC := by
          have : mlf * 2 ^ (3 + d) = 7 * 2 ^ (d + 149) := by
            unfold mlf; rw [Nat.mul_assoc, ← pow_add]; congr 2; omega
          calc mlf * (15 * 2 ^ (3 + d) * F32.SC) = (mlf * 2 ^ (3 + d)) * 15 * F32.SC := by ring
            _ = _ := by rw [this]; ring
    unfold F32.truncN
    generalize F32.mul mlf (F32.ofNat (capOf (3 + d))) = M at h2
    have := F32.SC_pos
    generalize F32.SC = S at *
    apply Nat.div_le_of_le_mul
    rw [Nat.mul_comm]; exact h2
  · have := ofNat_cap_big h
    exact le_initialMaxLoad_of (k := 3 + d) (c := 105) (e := d) (by omega) (by norm_num) (by
      calc 8 * (105 * 2 ^ d) * F32.SC = 7 * (15 * 2 ^ (3 + d) * F32.SC) := by rw [pow_add]; ring
        _ ≤ _ := Nat.mul_le_mul_left _ this)

/-- the next level at least doubles the maximum load, except from the first to the second level -/
theorem maxLoad_double {k k' : Nat} (hk : 2 ≤ k) (h : k < k') :
    2 * initialMaxLoad (capOf k) ≤ initialMaxLoad (capOf k') := by
  have hm := initialMaxLoad_mono (k := k + 1) (k' := k') (by omega) h
  have : 2 * initialMaxLoad (capOf k) ≤ initialMaxLoad (capOf (k + 1)) := by
    by_cases h2 : k = 2
    · subst h2
      rw [maxLoad_le_of_small (by omega) (by omega), maxLoad_small (by omega) (by omega)]
      decide
    · have e : 2 ^ (k + 1 - 3) = 2 * 2 ^ (k - 3) := by
        rw [← pow_succ']; congr 1; omega
      by_cases hb : k ≤ 20
      · rw [maxLoad_small (by omega) hb]
        have := maxLoad_ge (k := k + 1) (by omega)
        omega
      · rw [maxLoad_big (by omega), maxLoad_big (by omega)]
        omega
  omega

/-- state of a container that only ever had insertions, `m` elements having been moved so far -/
structure Fresh (t : Table K V) (m : Nat) : Prop where
  inv : t.Inv
  ml : t.ml = Table.initMl t.arr
  first : t.arr.k = 1 → m = 0
  dummy : t.arr.hasElems = false → m = 0
  le_ml : m ≤ t.ml
  le_size : m ≤ 2 * t.size

theorem fresh_insert (cfg : Cfg) {t : Table K V} {m : Nat} (h : Fresh t m) (x : K × V) :
    ∃ t' b w, emplaceImplW cfg t x = some (t', b, w) ∧ Fresh t' (m + w.moved) := by
  have hi := h.inv
  rcases emplaceImpl_spec cfg hi x with ⟨g, j, y, h1, _, _, _⟩ | ⟨t1, g, j, h1, h2, _, _, _, _, h7, h8, h9⟩
  · exact ⟨t, false, {}, by rw [emplaceImplW_eq, h1]; simp, h⟩
  · have hs : t1.size = t.size + 1 := by rw [h2.size, h7.length_eq, hi.size]; simp
    by_cases hr : t.size < t.ml
    · refine ⟨t1, true, {}, by rw [emplaceImplW_eq, h1]; simp [hr], ?_⟩
      obtain ⟨m1, m2, m3, _⟩ := h8 hr
      refine ⟨h2, ?_, ?_, ?_, ?_, ?_⟩
      · rw [m1, h.ml]; unfold Table.initMl Arrays.capacity; rw [m2, m3]
      · rw [m2]; exact h.first
      · rw [m3]; exact h.dummy
      · rw [m1]; exact h.le_ml
      · rw [hs]; have := h.le_size; show m ≤ _; omega
    · refine ⟨t1, true, _, by rw [emplaceImplW_eq, h1]; simp only [Option.map_some, hr]; rfl, ?_⟩
      simp only [not_false_eq_true, and_self, if_true]
      obtain ⟨a2, a3, a4⟩ := growth_arrays hr h1
      have hocc : t.arr.occ.length = t.size := by rw [← Inv.length_contents hi.arr]; exact hi.size.symm
      have hmv : (growthWork t (Arrays.new_ cfg t.al (growthRequest t.size))).moved = t.size := by
        unfold growthWork newWork Work.add
        dsimp only
        rw [hocc]
        generalize (Arrays.new_ cfg t.al (growthRequest t.size) : Arrays K V) = new
        cases new.hasElems <;> simp
      rw [hmv]
      have b1 := hi.size_le
      have b2 := h2.size_le
      have b3 := h.le_ml
      cases he : t.arr.hasElems with
      | false =>
        have hm := h.dummy he
        have hml : t.ml = 0 := by
          rw [h.ml]; unfold Table.initMl Arrays.capacity; rw [he]; rfl
        have hz : m + t.size = 0 := by omega
        rw [hz]
        exact ⟨h2, h9 hr, fun _ => rfl, fun _ => rfl, by omega, by omega⟩
      | true =>
        have hk1 : 1 ≤ t.arr.k := by
          rcases hi.arr with ⟨_, hl⟩ | ⟨h0, _⟩
          · exact hl.kpos
          · rw [he] at h0; cases h0
        have hml : t.ml = initialMaxLoad (capOf t.arr.k) := by
          rw [h.ml]; unfold Table.initMl Arrays.capacity; rw [if_pos he]
        have hml' : t1.ml = initialMaxLoad (capOf t1.arr.k) := by
          rw [h9 hr]; unfold Table.initMl Arrays.capacity; rw [if_pos a3]
        have hk1' : 1 ≤ t1.arr.k := by rw [a2]; exact kFor_pos _
        have hlt : t.arr.k < t1.arr.k := by
          by_contra hc
          have := initialMaxLoad_mono hk1' (show t1.arr.k ≤ t.arr.k by omega)
          omega
        refine ⟨h2, h9 hr, (fun hc => by omega), (fun hc => by rw [a3] at hc; cases hc), ?_, by omega⟩
        by_cases hk : t.arr.k = 1
        · have := h.first hk
          omega
        · have := maxLoad_double (by omega) hlt
          omega

end Foa.Cost

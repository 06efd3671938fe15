/-
erase(iterator), erase(first,last) and iteration interleaved with erasure.
Source: /repo/include/boost/unordered/detail/foa/table.hpp:238-275, 474-482;
/repo/include/boost/unordered/detail/foa/core.hpp:1693-1704, 2260-2274;
/repo/include/boost/unordered/unordered_flat_map.hpp:468-486.
-/
import Verif.Foa.Iter

namespace Foa
variable {K V : Type}

namespace Table

/-- `super::erase(pc,p)` (core.hpp:1700-1704, 2260-2274): destroys the element at `p`, resets the metadata byte at `pc`. -/
def eraseBytes (t : Table K V) (pc p : Nat) : Option (Table K V) :=
  match t.arr.slot (p / N) (p % N) with
  | none => none
  | some _ =>
    let G := t.arr.grp (pc / 16)
    let d := if G.maybeCausedOverflow (pc % 16) then 1 else 0
    if t.arr.hasElems = true ∧ d ≤ t.ml ∧ 1 ≤ t.size then
      some { t with
        arr := (t.arr.setSlot (p / N) (p % N) none).setGrp (pc / 16) (G.reset (pc % 16)),
        ml := t.ml - d, size := t.size - 1 }
    else none

/-- `erase(const_iterator)` (table.hpp:474-482) followed by the conversion of its result to an iterator
(table_erase_return_type, table.hpp:257-262), which increments the erased position. -/
def eraseIt (regular : Bool) (t : Table K V) (it : It) : Option (Table K V × It) :=
  match it.p with
  | none => none
  | some p =>
    match t.eraseBytes it.pc p with
    | none => none
    | some t' =>
      match t'.arr.inc regular it with
      | none => none
      | some it' => some (t', it')

/-- `*it`. -/
def derefIt (t : Table K V) (it : It) : Option (K × V) :=
  match it.p with
  | none => none
  | some p => t.arr.slot (p / N) (p % N)

/-- The idiom `while(it!=end) if(pr(*it)) it=erase(it); else ++it;`; returns the final table and the list of elements
visited; at most `fuel` rounds. -/
def eraseWalk (regular : Bool) (pr : K × V → Bool) : Nat → Table K V → It → Option (Table K V × List (K × V))
  | fuel, t, it =>
    if it.p = none then some (t, [])
    else
      match fuel with
      | 0 => none
      | fuel + 1 =>
        match t.derefIt it with
        | none => none
        | some x =>
          if pr x then
            match t.eraseIt regular it with
            | none => none
            | some (t', it') => (eraseWalk regular pr fuel t' it').map (fun r => (r.1, x :: r.2))
          else
            match t.arr.inc regular it with
            | none => none
            | some it' => (eraseWalk regular pr fuel t it').map (fun r => (r.1, x :: r.2))

/-- `erase(first,last)` (unordered_flat_map.hpp:480-486): `while(first!=last) erase(first++)`; iterators compare by `p`.
At most `fuel` rounds. -/
def eraseRange (regular : Bool) : Nat → Table K V → It → It → Option (Table K V)
  | fuel, t, first, last =>
    if first.p = last.p then some t
    else
      match fuel with
      | 0 => none
      | fuel + 1 =>
        match t.arr.inc regular first with
        | none => none
        | some first' =>
          match first.p with
          | none => none
          | some p =>
            match t.eraseBytes first.pc p with
            | none => none
            | some t' => eraseRange regular fuel t' first' last

end Table

/-- `it` points at the first element of the suffix `s` of the iteration order. -/
def IsAt (s : List Pos) (it : It) : Prop :=
  match s with
  | [] => it.p = none
  | p :: _ => it = itAt p

theorem eraseBytes_itAt (t : Table K V) {g j : Nat} (hj : j < 15) :
    t.eraseBytes (itAt (g, j)).pc (15 * g + j) = t.eraseAt (g, j) := by
  unfold Table.eraseBytes Table.eraseAt itAt
  simp only [N]
  rw [show (16 * g + j) / 16 = g by omega, show (16 * g + j) % 16 = j by omega,
    show (15 * g + j) / 15 = g by omega, show (15 * g + j) % 15 = j by omega]
  cases t.arr.slot g j <;> rfl

theorem valid_lin {k i : Nat} (h : i < 15 * 2 ^ k - 1) : Valid k (i / 15) (i % 15) := by
  refine ⟨by omega, by omega, ?_⟩
  rintro ⟨h1, h2⟩; omega

theorem nodup_rest {a : Arrays K V} {i : Nat} : (rest a i).Nodup := by
  unfold rest
  refine List.Nodup.map ?_ (List.Nodup.filter _ List.nodup_range')
  intro x y h
  simp only [toPos, Prod.mk.injEq] at h
  omega

theorem rest_suffix {a : Arrays K V} {i : Nat} (hi : i < lastIdx a) (hne : lin a i ≠ 0) :
    ∃ pre, rest a 0 = pre ++ toPos i :: rest a (i + 1) := by
  refine ⟨((List.range i).filter (fun m => lin a m != 0)).map toPos, ?_⟩
  rw [← rest_cons hi hne]
  unfold rest
  rw [← List.map_append, ← List.filter_append, Nat.sub_zero, ← List.range_eq_range']
  congr 2
  rw [List.range_eq_range', List.range_eq_range']
  have := List.range'_append (s := 0) (m := i) (n := lastIdx a - i) (step := 1)
  simp only [Nat.one_mul, Nat.zero_add] at this
  rw [this]; congr 1; omega

theorem split_unique {α : Type} {p : α} : ∀ {l l' s s' : List α}, p ∉ l → p ∉ l' → l ++ p :: s = l' ++ p :: s' → s = s'
  | [], [], _, _, _, _, h => by simpa using h
  | [], y :: l', _, _, _, h2, h => by simp at h; simp [h.1] at h2
  | y :: l, [], _, _, h1, _, h => by simp at h; simp [h.1] at h1
  | y :: l, y' :: l', s, s', h1, h2, h => by
    simp only [List.cons_append, List.cons.injEq] at h
    exact split_unique (fun hm => h1 (by simp [hm])) (fun hm => h2 (by simp [hm])) h.2

/-- suffix of the iteration order after a given position -/
theorem suffix_eq {a : Arrays K V} (he : a.hasElems = true) {pre s : List Pos} {p : Pos}
    (h : a.occ = pre ++ p :: s) : s = rest a (15 * p.1 + p.2 + 1) ∧ Valid a.k p.1 p.2 := by
  have hp : p ∈ a.occ := by rw [h]; simp
  rw [mem_occ_iff] at hp
  obtain ⟨_, hv, hne⟩ := hp
  refine ⟨?_, hv⟩
  obtain ⟨h1, h2, h3⟩ := hv
  have hi : 15 * p.1 + p.2 < lastIdx a := by unfold lastIdx; omega
  have hto : toPos (15 * p.1 + p.2) = p := by
    unfold toPos
    rw [show (15 * p.1 + p.2) / 15 = p.1 by omega, show (15 * p.1 + p.2) % 15 = p.2 by omega]
  obtain ⟨pre', hpre⟩ := rest_suffix hi (by
    unfold lin
    rw [show (15 * p.1 + p.2) / 15 = p.1 by omega, show (15 * p.1 + p.2) % 15 = p.2 by omega]
    exact hne)
  rw [hto] at hpre
  have hnd : (rest a 0).Nodup := nodup_rest
  rw [occ_eq_rest he] at h
  have hnd1 := hnd
  have hnd2 := hnd
  rw [h] at hnd1
  rw [hpre] at hnd2
  rw [List.nodup_append] at hnd1 hnd2
  have e := h.symm.trans hpre
  have hx1 : p ∉ pre := fun hm => hnd1.2.2 p hm p (by simp) rfl
  have hx2 : p ∉ pre' := fun hm => hnd2.2.2 p hm p (by simp) rfl
  exact split_unique hx1 hx2 e

/-- `++` at a live position moves to the following one, also if that position itself has just been erased. -/
theorem inc_suffix {f : Fns K} {a b : Arrays K V} (hl : Live f b) (hk : b.k = a.k)
    (he : a.hasElems = true) {pre s : List Pos} {p : Pos} (h : a.occ = pre ++ p :: s)
    (hmd : ∀ g j, (g, j) ≠ p → (b.grp g).md j = (a.grp g).md j) (regular : Bool) :
    ∃ it, b.inc regular (itAt p) = some it ∧ IsAt s it := by
  obtain ⟨hs, hv⟩ := suffix_eq he h
  have hlast : lastIdx b = lastIdx a := by unfold lastIdx; rw [hk]
  have hr : rest b (15 * p.1 + p.2 + 1) = rest a (15 * p.1 + p.2 + 1) := by
    unfold rest
    rw [hlast]
    congr 1
    apply List.filter_congr
    intro m hm
    rw [List.mem_range'_1] at hm
    unfold lin
    rw [hmd]
    rintro rfl
    simp only at hm; omega
  have hn := inc_spec hl regular (g := p.1) (j := p.2) (by rw [hk]; exact hv)
  obtain ⟨it, e1, e2⟩ := hn.rest
  refine ⟨it, e1, ?_⟩
  rw [hr, ← hs] at e2
  rcases e2 with ⟨q1, q2⟩ | ⟨i', q1, q2, q3, q4, q5⟩
  · rw [q2]; exact q1
  · rw [q5]; exact q4

theorem begin_isAt {f : Fns K} {a : Arrays K V} (hi : a.Inv f) (regular : Bool) :
    ∃ it, a.begin_ regular = some it ∧ IsAt a.occ it := by
  rcases hi with ⟨he, hl⟩ | ⟨he, hd⟩
  · obtain ⟨it, h1, h2⟩ := begin_spec hl he regular
    refine ⟨it, h1, ?_⟩
    rw [occ_eq_rest he]
    rcases h2 with ⟨q1, q2⟩ | ⟨i', _, q2, q3⟩
    · rw [q2]; exact q1
    · rw [q3]; exact q2
  · refine ⟨⟨0, none⟩, by unfold Arrays.begin_; simp [he], ?_⟩
    have : a.occ = [] := by unfold Arrays.occ; simp [he]
    rw [this]; rfl

theorem occ_eraseAt {t t' : Table K V} {p : Pos} (he : t.arr.hasElems = true) (hk : t'.arr.k = t.arr.k)
    (hh : t'.arr.hasElems = t.arr.hasElems)
    (hmd : ∀ i l, (t'.arr.grp i).md l = if i = p.1 ∧ l = p.2 then 0 else (t.arr.grp i).md l) :
    t'.arr.occ = t.arr.occ.filter (fun q => q ≠ p) := by
  unfold Arrays.occ
  rw [hh, hk, if_pos he, if_pos he, List.filter_filter]
  apply List.filter_congr
  rintro ⟨g, j⟩ _
  rw [hmd]
  by_cases h : g = p.1 ∧ j = p.2
  · have : (g, j) = p := by rw [h.1, h.2]
    rw [if_pos h]; simp [this]
  · have : (g, j) ≠ p := fun e => h ⟨by rw [← e], by rw [← e]⟩
    simp [h, this]

theorem filter_ne_mid {pre s : List Pos} {p : Pos} (hnd : (pre ++ p :: s).Nodup) :
    (pre ++ p :: s).filter (fun q => q ≠ p) = pre ++ s := by
  rw [List.nodup_append] at hnd
  obtain ⟨_, h2, h3⟩ := hnd
  rw [List.nodup_cons] at h2
  rw [List.filter_append, List.filter_cons_of_neg (by simp)]
  congr 1
  · rw [List.filter_eq_self]
    intro q hq
    have := h3 q hq p (by simp)
    simpa using this
  · rw [List.filter_eq_self]
    intro q hq
    have : q ≠ p := by rintro rfl; exact h2.1 hq
    simpa using this

/-- Everything `erase(it)` guarantees. -/
theorem eraseIt_spec {t : Table K V} (hi : t.Inv) {pre s : List Pos} {p : Pos} (h : t.arr.occ = pre ++ p :: s)
    (regular : Bool) :
    ∃ t' it' x, t.eraseIt regular (itAt p) = some (t', it') ∧ t'.Inv ∧ t'.fns = t.fns ∧ t'.al = t.al ∧
      t'.arr.occ = pre ++ s ∧ IsAt s it' ∧ t.arr.slot p.1 p.2 = some x ∧
      (∀ g j, (g, j) ≠ p → t'.arr.slot g j = t.arr.slot g j) ∧
      t.eraseAt p = some t' := by
  have hp : p ∈ t.arr.occ := by rw [h]; simp
  obtain ⟨he, hv, _⟩ := mem_occ_iff.mp hp
  obtain ⟨x, hx⟩ := slots_of_occ hi.arr p hp
  obtain ⟨g, j⟩ := p
  obtain ⟨t', h1, h2, h3, h4, h5, h6, h7, h8, h9, h10⟩ := eraseAt_spec hi hx
  have hl : Live t'.fns t'.arr := by
    rcases h2.arr with ⟨_, hl⟩ | ⟨hc, _⟩
    · exact hl
    · rw [h6, he] at hc; cases hc
  obtain ⟨it', e1, e2⟩ := inc_suffix hl h5 he h (by
    intro i l hne
    rw [h8, if_neg]
    rintro ⟨rfl, rfl⟩; exact hne rfl) regular
  refine ⟨t', it', x, ?_, h2, h3, h4, ?_, e2, hx, ?_, h1⟩
  · unfold Table.eraseIt
    have : (itAt (g, j)).p = some (15 * g + j) := rfl
    simp only [this, eraseBytes_itAt t hv.2.1, h1, e1]
  · rw [occ_eraseAt (p := (g, j)) he h5 h6 h8, h]
    apply filter_ne_mid
    rw [← h]; exact nodup_occ _
  · intro i l hne
    rw [h7, if_neg]
    rintro ⟨rfl, rfl⟩; exact hne rfl

theorem derefIt_itAt (t : Table K V) {p : Pos} (hj : p.2 < 15) : t.derefIt (itAt p) = t.arr.slot p.1 p.2 := by
  unfold Table.derefIt itAt
  simp only [N]
  rw [show (15 * p.1 + p.2) / 15 = p.1 by omega, show (15 * p.1 + p.2) % 15 = p.2 by omega]

theorem filterMap_slot_congr {a b : Arrays K V} {l : List Pos} (h : ∀ p ∈ l, b.slot p.1 p.2 = a.slot p.1 p.2) :
    l.filterMap (fun p => b.slot p.1 p.2) = l.filterMap (fun p => a.slot p.1 p.2) :=
  List.filterMap_congr h

theorem eraseWalk_spec (regular : Bool) (pr : K × V → Bool) : ∀ (fuel : Nat) (t : Table K V) (it : It) (pre s : List Pos),
    t.Inv → t.arr.occ = pre ++ s → IsAt s it → s.length ≤ fuel →
    ∃ t', t.eraseWalk regular pr fuel it = some (t', s.filterMap (fun p => t.arr.slot p.1 p.2)) ∧ t'.Inv ∧
      t'.fns = t.fns ∧ t'.al = t.al ∧
      t'.contents = pre.filterMap (fun p => t.arr.slot p.1 p.2) ++
        (s.filterMap (fun p => t.arr.slot p.1 p.2)).filter (fun x => !pr x) := by
  intro fuel
  induction fuel with
  | zero =>
    intro t it pre s hi ho hat hlen
    have : s = [] := by cases s; rfl; simp at hlen
    subst this
    refine ⟨t, ?_, hi, rfl, rfl, ?_⟩
    · unfold Table.eraseWalk; rw [if_pos (show it.p = none from hat)]; rfl
    · unfold Table.contents Arrays.contents; rw [ho]; simp
  | succ fuel ih =>
    intro t it pre s hi ho hat hlen
    cases s with
    | nil =>
      refine ⟨t, ?_, hi, rfl, rfl, ?_⟩
      · unfold Table.eraseWalk; rw [if_pos (show it.p = none from hat)]; rfl
      · unfold Table.contents Arrays.contents; rw [ho]; simp
    | cons p s =>
      have hat' : it = itAt p := hat
      subst hat'
      have hp : p ∈ t.arr.occ := by rw [ho]; simp
      obtain ⟨he, hv, _⟩ := mem_occ_iff.mp hp
      obtain ⟨t', it', x, h1, h2, h3, h4, h5, h6, h7, h8, _⟩ := eraseIt_spec hi ho regular
      have hne : (itAt p).p ≠ none := by simp [itAt]
      have hnd : (pre ++ p :: s).Nodup := by rw [← ho]; exact nodup_occ _
      have hps : p ∉ s := by
        rw [List.nodup_append] at hnd
        exact (List.nodup_cons.mp hnd.2.1).1
      have hpp : p ∉ pre := by
        rw [List.nodup_append] at hnd
        intro hm; exact hnd.2.2 p hm p (by simp) rfl
      unfold Table.eraseWalk
      rw [if_neg hne]
      simp only [derefIt_itAt t hv.2.1, h7]
      rw [List.filterMap_cons_some (f := fun p : Pos => t.arr.slot p.1 p.2) (b := x) h7]
      by_cases hpr : pr x = true
      · rw [if_pos hpr, h1]
        obtain ⟨t2, e1, e2, e3, e4, e5⟩ := ih t' it' pre s h2 h5 h6 (by simpa using hlen)
        have c1 : s.filterMap (fun p => t'.arr.slot p.1 p.2) = s.filterMap (fun p => t.arr.slot p.1 p.2) :=
          filterMap_slot_congr (fun q hq => h8 q.1 q.2 (by rintro rfl; exact hps hq))
        have c2 : pre.filterMap (fun p => t'.arr.slot p.1 p.2) = pre.filterMap (fun p => t.arr.slot p.1 p.2) :=
          filterMap_slot_congr (fun q hq => h8 q.1 q.2 (by rintro rfl; exact hpp hq))
        refine ⟨t2, ?_, e2, e3.trans h3, e4.trans h4, ?_⟩
        · simp only [e1, Option.map_some, c1]
        · rw [e5, c1, c2, List.filter_cons_of_neg (by simp [hpr])]
      · rw [if_neg hpr]
        have hl : Live t.fns t.arr := by
          rcases hi.arr with ⟨_, hl⟩ | ⟨hc, _⟩
          · exact hl
          · rw [he] at hc; cases hc
        obtain ⟨it2, q1, q2⟩ := inc_suffix hl rfl he ho (fun _ _ _ => rfl) regular
        obtain ⟨t2, e1, e2, e3, e4, e5⟩ := ih t it2 (pre ++ [p]) s hi (by rw [ho]; simp) q2 (by simpa using hlen)
        refine ⟨t2, ?_, e2, e3, e4, ?_⟩
        · simp only [q1, e1, Option.map_some]
        · rw [e5, List.filterMap_append, List.filter_cons_of_pos (by simp [hpr])]
          have : [p].filterMap (fun p => t.arr.slot p.1 p.2) = [x] := by simp [h7]
          rw [this]; simp

theorem eraseRange_spec (regular : Bool) : ∀ (fuel : Nat) (t : Table K V) (first last : It) (pre mid post : List Pos),
    t.Inv → t.arr.occ = pre ++ (mid ++ post) → IsAt (mid ++ post) first → IsAt post last → mid.length ≤ fuel →
    ∃ t', t.eraseRange regular fuel first last = some t' ∧ t'.Inv ∧ t'.fns = t.fns ∧ t'.al = t.al ∧
      t'.arr.occ = pre ++ post ∧ (∀ p ∈ pre ++ post, t'.arr.slot p.1 p.2 = t.arr.slot p.1 p.2) := by
  intro fuel
  have base : ∀ (n : Nat) (t : Table K V) (first last : It) (pre post : List Pos), t.Inv → t.arr.occ = pre ++ post →
      IsAt post first → IsAt post last → 
      ∃ t', t.eraseRange regular n first last = some t' ∧ t'.Inv ∧ t'.fns = t.fns ∧ t'.al = t.al ∧
      t'.arr.occ = pre ++ post ∧ (∀ p ∈ pre ++ post, t'.arr.slot p.1 p.2 = t.arr.slot p.1 p.2) := by
    intro n t first last pre post hi ho h1 h2
    refine ⟨t, ?_, hi, rfl, rfl, ho, fun _ _ => rfl⟩
    unfold Table.eraseRange
    rw [if_pos]
    cases post with
    | nil => exact h1.trans h2.symm
    | cons q _ =>
      have h1 : first = itAt q := h1
      have h2 : last = itAt q := h2
      rw [h1, h2]
  induction fuel with
  | zero =>
    intro t first last pre mid post hi ho h1 h2 hlen
    have : mid = [] := by cases mid; rfl; simp at hlen
    subst this
    exact base 0 t first last pre post hi ho h1 h2
  | succ fuel ih =>
    intro t first last pre mid post hi ho h1 h2 hlen
    cases mid with
    | nil => exact base _ t first last pre post hi ho h1 h2
    | cons p mid =>
      have h1 : first = itAt p := h1
      subst h1
      rw [List.cons_append] at ho
      have hp : p ∈ t.arr.occ := by rw [ho]; simp
      obtain ⟨he, hv, _⟩ := mem_occ_iff.mp hp
      have hl : Live t.fns t.arr := by
        rcases hi.arr with ⟨_, hl⟩ | ⟨hc, _⟩
        · exact hl
        · rw [he] at hc; cases hc
      have hnd : (pre ++ p :: (mid ++ post)).Nodup := by rw [← ho]; exact nodup_occ _
      obtain ⟨it2, q1, q2⟩ := inc_suffix hl rfl he ho (fun _ _ _ => rfl) regular
      obtain ⟨t', it', x, g1, g2, g3, g4, g5, g6, g7, g8, g9⟩ := eraseIt_spec hi ho regular
      obtain ⟨t2, e1, e2, e3, e4, e5, e6⟩ := ih t' it2 last pre mid post g2 g5 q2 h2 (by simpa using hlen)
      refine ⟨t2, ?_, e2, e3.trans g3, e4.trans g4, e5, ?_⟩
      · unfold Table.eraseRange
        have hne : (itAt p).p ≠ last.p := by
          cases post with
          | nil => have h2 : last.p = none := h2; rw [h2]; simp [itAt]
          | cons q post =>
            have h2 : last = itAt q := h2
            rw [h2]
            have hq : q ∈ t.arr.occ := by rw [ho]; simp
            have hvq := (mem_occ_iff.mp hq).2.1
            intro heq
            simp only [itAt, Option.some.injEq] at heq
            have h15 := hv.2.1
            have h15q := hvq.2.1
            have : p = q := by
              ext
              · omega
              · omega
            subst this
            rw [List.nodup_append] at hnd
            exact (List.nodup_cons.mp hnd.2.1).1 (by simp)
        rw [if_neg hne]
        have hpp : (itAt p).p = some (15 * p.1 + p.2) := rfl
        have hb : t.eraseBytes (itAt p).pc (15 * p.1 + p.2) = some t' := by
          rw [← g9]; exact eraseBytes_itAt t hv.2.1
        simp only [q1, hpp, hb, e1]
      · intro q hq
        rw [e6 q hq]
        apply g8
        rintro rfl
        rw [List.nodup_append] at hnd
        rcases List.mem_append.mp hq with hq | hq
        · exact hnd.2.2 q hq q (by simp) rfl
        · exact (List.nodup_cons.mp hnd.2.1).1 (by simp [hq])

end Foa

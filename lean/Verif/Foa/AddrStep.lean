/- C62, one call: the elements a call does not destroy keep their addresses. -/
import Verif.Foa.AddrLemmas

namespace Foa
open Spec (Op Res Obj upd)
open SpecAddrO (Obs Destroyed InHome assigned Steady)
variable {K V : Type}

/-- Element `x` is stored in slot `a.2` of block `a.1`, which belongs to the container. -/
def HTable.At (t : HTable K V) (a : Nat × Pos) (x : K × V) : Prop := t.id = a.1 ∧ t.t.arr.slot a.2.1 a.2.2 = some x

/-- what can be observed of the containers of a program -/
def HState.obs (s : HState K V) : Nat → Obs K := fun r => (s.1 r).t.obs

theorem keep_addr {s S : HState K V} {q r : Nat} {y : Option (Table K V × Res K V)} {o : Res K V} {a : Nat × Pos} {x : K × V}
    (h : keep s q y = some (S, o)) (hs : ∀ t z, y = some (t, z) → Sub t (s.1 q).t) (hi : ∀ i, (s.1 i).t.Inv)
    (hi' : ∀ i, (S.1 i).t.Inv) (hx : (s.1 r).At a x) (hm : x ∈ (S.1 r).t.contents) : (S.1 r).At a x := by
  cases y with
  | none => cases h
  | some y =>
    cases h
    by_cases hr : r = q
    · subst hr
      have h1 := hs y.1 y.2 rfl
      simp only [upd, if_true] at hm ⊢
      refine ⟨hx.1, ?_⟩
      have := hi' r
      simp only [upd, if_true] at this
      exact h1.stays (hi r) this (p := a.2) hx.2 hm
    · simpa [upd, hr] using hx

theorem hon1_other {s S : HState K V} {q r : Nat} {y : Option ((HTable K V × Res K V) × Heap)} {o : Res K V}
    (h : hon1 s q y = some (S, o)) (hr : r ≠ q) : S.1 r = s.1 r := by
  cases y with
  | none => cases h
  | some y => cases h; simp [upd, hr]

theorem hon1_same {s S : HState K V} {q : Nat} {y : Option ((HTable K V × Res K V) × Heap)} {o : Res K V}
    (h : hon1 s q y = some (S, o)) : ∃ z, y = some ((S.1 q, o), z) := by
  cases y with
  | none => cases h
  | some y => cases h; exact ⟨y.2, by simp [upd]⟩

theorem hon1_addr {s S : HState K V} {q r : Nat} {y : Option ((HTable K V × Res K V) × Heap)} {o : Res K V} {a : Nat × Pos}
    {x : K × V} (h : hon1 s q y = some (S, o)) (hx : (s.1 r).At a x)
    (hs : r = q → ∀ t h', y = some ((t, o), h') → t.id = (s.1 q).id ∧ Super t.t (s.1 q).t) : (S.1 r).At a x := by
  by_cases hr : r = q
  · subst hr
    obtain ⟨z, hz⟩ := hon1_same h
    obtain ⟨h1, h2⟩ := hs rfl _ _ hz
    exact ⟨h1.trans hx.1, h2 _ _ _ hx.2⟩
  · rw [hon1_other h hr]; exact hx

theorem hon0_addr {s S : HState K V} {y : Option (Res K V)} {o : Res K V} (h : hon0 s y = some (S, o)) : S = s := by
  cases y with
  | none => cases h
  | some y => cases h; rfl

theorem has_find {t : Table K V} (hi : t.Inv) {k : K} (h : t.obs.has k) : ∃ q, t.find k = some (some q) := by
  obtain ⟨y, hy, he⟩ := h
  rcases hi.find_spec k with ⟨g, j, y', h1, _, _⟩ | ⟨_, h2⟩
  · exact ⟨_, h1⟩
  · obtain ⟨g, j, hs⟩ := hi.mem.1 hy
    have := h2 g j y hs
    rw [he] at this; cases this

theorem hon2_parts {s S : HState K V} {q p : Nat} {y : Option ((HTable K V × HTable K V) × Heap)} {o : Res K V}
    (h : hon2 s q p y = some (S, o)) : ∃ t x z, y = some ((t, x), z) ∧ S.1 = upd (upd s.1 q t) p x := by
  cases y with
  | none => cases h
  | some y => cases h; exact ⟨_, _, _, rfl, rfl⟩

theorem opInsert_addr {cfg : Cfg} {t t' : HTable K V} {y : K × V} {h h' : Heap} {o : Res K V}
    (ht : t.opInsert cfg y h = some ((t', o), h')) (hc : (∃ q, t.t.find y.1 = some (some q)) ∨ t.t.size < t.t.ml) :
    t'.id = t.id ∧ Super t'.t t.t := by
  unfold HTable.opInsert at ht
  cases e1 : t.emplaceImpl cfg y h with
  | none => rw [e1] at ht; cases ht
  | some w =>
    obtain ⟨⟨t1, p, b⟩, h1⟩ := w
    rw [e1] at ht
    dsimp only at ht
    cases hd : t1.t.deref p with
    | none => rw [hd] at ht; cases ht
    | some e =>
      rw [hd] at ht
      have ht := (Prod.mk.inj (Prod.mk.inj (Option.some.inj ht)).1).1
      have := emplaceImpl_super e1 hc
      rw [← ht]
      exact ⟨this.1, this.2.1⟩

theorem opIndex_addr {cfg : Cfg} {t t' : HTable K V} {k : K} {d : V} {h h' : Heap} {o : Res K V}
    (ht : t.opIndex cfg k d h = some ((t', o), h')) (hc : (∃ q, t.t.find k = some (some q)) ∨ t.t.size < t.t.ml) :
    t'.id = t.id ∧ Super t'.t t.t := by
  unfold HTable.opIndex at ht
  cases e1 : t.emplaceImpl cfg (k, d) h with
  | none => rw [e1] at ht; cases ht
  | some w =>
    obtain ⟨⟨t1, p, b⟩, h1⟩ := w
    rw [e1] at ht
    dsimp only at ht
    cases hd : t1.t.deref p with
    | none => rw [hd] at ht; cases ht
    | some e =>
      rw [hd] at ht
      have ht := (Prod.mk.inj (Prod.mk.inj (Option.some.inj ht)).1).1
      have := emplaceImpl_super e1 hc
      rw [← ht]
      exact ⟨this.1, this.2.1⟩

/-- which element `emplaceImpl` finds or makes -/
theorem emplaceImpl_flag {cfg : Cfg} {t t' : HTable K V} (hi : t.t.Inv) {y : K × V} {h h' : Heap} {p : Pos} {b : Bool}
    (he : t.emplaceImpl cfg y h = some ((t', p, b), h')) :
    (b = true → ∀ g j x, t.t.arr.slot g j = some x → t.t.fns.eq y.1 x.1 = false) ∧
    (b = false → t' = t ∧ ∃ x, t.t.arr.slot p.1 p.2 = some x ∧ t.t.fns.eq y.1 x.1 = true) := by
  unfold HTable.emplaceImpl at he
  rcases hi.find_spec y.1 with ⟨g, j, y', f1, f2, f3⟩ | ⟨f1, h2⟩
  · rw [f1] at he
    dsimp only at he
    injection he with he
    injection he with he1 he2
    injection he1 with he1 he3
    injection he3 with he3 he4
    subst he4
    refine ⟨by simp, fun _ => ⟨he1.symm, y', ?_, f3⟩⟩
    rw [← he3]; exact f2
  · refine ⟨fun _ => h2, ?_⟩
    rintro rfl
    rw [f1] at he
    dsimp only at he
    exfalso
    split at he
    · cases hu : t.t.uncheckedInsert y with
      | none => rw [hu] at he; cases he
      | some w => rw [hu] at he; simp at he
    · cases hu : HTable.emplaceWithRehash cfg t y h with
      | none => rw [hu] at he; cases he
      | some w => rw [hu] at he; simp at he

theorem slot_eq_of_equiv {t : Table K V} (hi : t.Inv) {g j g' j' : Nat} {x y : K × V} (h : t.arr.slot g j = some x)
    (h' : t.arr.slot g' j' = some y) (he : t.fns.eq x.1 y.1 = true) : g = g' ∧ j = j' := by
  rcases hi.arr with ⟨_, hl⟩ | ⟨_, hd⟩
  · exact hl.uniq _ _ _ _ _ _ h h' he
  · rw [hd.slot] at h; cases h

theorem opAssign_addr {cfg : Cfg} {t t' : HTable K V} (hi : t.t.Inv) {k : K} {v : V} {h h' : Heap} {o : Res K V}
    (ht : t.opInsertOrAssign cfg k v h = some ((t', o), h'))
    (hc : (∃ q, t.t.find k = some (some q)) ∨ t.t.size < t.t.ml) {p : Pos} {x : K × V} (hx : t.t.arr.slot p.1 p.2 = some x) :
    t'.id = t.id ∧ t'.t.arr.slot p.1 p.2 = some (if t.t.fns.eq k x.1 = true then (x.1, v) else x) := by
  unfold HTable.opInsertOrAssign at ht
  cases e1 : t.emplaceImpl cfg (k, v) h with
  | none => rw [e1] at ht; cases ht
  | some w =>
    obtain ⟨⟨t1, p1, b⟩, h1⟩ := w
    rw [e1] at ht
    obtain ⟨f1, f2⟩ := emplaceImpl_flag hi e1
    have hs := emplaceImpl_super e1 hc
    cases b with
    | true =>
      dsimp only at ht
      have hk := f1 rfl _ _ _ hx
      dsimp only at hk
      cases hd : t1.t.deref p1 with
      | none => rw [hd] at ht; cases ht
      | some e =>
        rw [hd] at ht
        have ht := (Prod.mk.inj (Prod.mk.inj (Option.some.inj ht)).1).1
        rw [← ht, hk]
        exact ⟨hs.1, hs.2.1 _ _ _ hx⟩
    | false =>
      dsimp only at ht
      obtain ⟨g1, y, g2, g3⟩ := f2 rfl
      dsimp only at g3
      subst g1
      cases ha : t1.t.assignAt p1 v with
      | none => rw [ha] at ht; cases ht
      | some t2 =>
        rw [ha] at ht
        dsimp only at ht
        cases hd : t2.deref p1 with
        | none => rw [hd] at ht; cases ht
        | some e =>
          rw [hd] at ht
          have ht := (Prod.mk.inj (Prod.mk.inj (Option.some.inj ht)).1).1
          rw [← ht]
          refine ⟨rfl, ?_⟩
          unfold Table.assignAt at ha
          rw [g2] at ha
          have ha := Option.some.inj ha
          rw [← ha]
          by_cases hp : p = p1
          · subst hp
            rw [hx] at g2
            cases g2
            rw [if_pos g3]
            simp [Arrays.setSlot]
          · have hk : t1.t.fns.eq k x.1 = false := by
              by_contra hk
              have hk : t1.t.fns.eq k x.1 = true := by simpa using hk
              apply hp
              have := slot_eq_of_equiv hi hx g2 (hi.law.trans _ _ _ (by rw [hi.law.symm]; exact hk) g3)
              exact Prod.ext this.1 this.2
            rw [hk]
            show (t1.t.arr.setSlot p1.1 p1.2 (some (y.1, v))).slot p.1 p.2 = _
            have : ¬ (p.1 = p1.1 ∧ p.2 = p1.2) := fun h => hp (Prod.ext h.1 h.2)
            simp only [Arrays.setSlot]
            rw [if_neg (by simpa using this)]
            simpa using hx

theorem moveCtor_addr (cfg : Cfg) (x : HTable K V) (h : Heap) : (x.moveCtor cfg h).1.1 = x := by
  simp only [HTable.moveCtor]

theorem mk_al (cfg : Cfg) (f : Fns K) (al n : Nat) (h : Heap) : (HTable.mk_ cfg f al n h : HTable K V × Heap).1.t.al = al := by
  simp only [HTable.mk_]

theorem moveCtorAlloc_addr {cfg : Cfg} {x t y : HTable K V} {al : Nat} {h h' : Heap} (hal : al = x.t.al)
    (he : x.moveCtorAlloc cfg al h = some ((t, y), h')) : t.id = x.id ∧ t.t.arr = x.t.arr := by
  unfold HTable.moveCtorAlloc at he
  dsimp only at he
  rw [mk_al, if_pos hal] at he
  have he := (Prod.mk.inj (Prod.mk.inj (Option.some.inj he)).1).1
  rw [← he]
  exact ⟨rfl, rfl⟩

theorem moveAssign_addr {cfg : Cfg} {t x t' x' : HTable K V} {h h' : Heap} (hal : cfg.pocma = true ∨ t.t.al = x.t.al)
    (he : t.moveAssign cfg x h = some ((t', x'), h')) : t'.id = x.id ∧ t'.t.arr = x.t.arr := by
  unfold HTable.moveAssign at he
  dsimp only at he
  rw [if_pos (by rw [clear_al]; exact hal)] at he
  split at he
  · cases he
  · have he := (Prod.mk.inj (Prod.mk.inj (Option.some.inj he)).1).1
    rw [← he]
    exact ⟨rfl, rfl⟩

theorem reserve_addr {cfg : Cfg} {t t' : HTable K V} {n : Nat} {h h' : Heap} (he : t.reserve cfg n h = some (t', h'))
    (hne : t.t.size ≠ 0) (hb : t'.t.capacity = t.t.capacity) : t' = t := by
  unfold HTable.reserve at he
  exact rehash_addr he hne hb

theorem bind_parts {α β : Type} {x : Option α} {f : α → Option β} {y : β} (h : x.bind f = some y) :
    ∃ z, x = some z ∧ f z = some y := by
  cases x with
  | none => cases h
  | some z => exact ⟨z, rfl, h⟩

theorem copyConstruct_other {c : MCfg} {veq : K × V → K × V → Bool} {s S : HState K V} {i j al r : Nat} {o : Res K V}
    (he : hstep c veq s (.copyConstruct i j al) = some (S, o)) (hr : r ≠ i) : S.1 r = s.1 r := by
  simp only [hstep] at he
  obtain ⟨hp, _, he⟩ := bind_parts he
  exact hon1_other he hr

/-- An element that a call does not destroy is, after a call that does not move it, at its address in its home container. -/
theorem hstep_addr (c : MCfg) (veq : K × V → K × V → Bool) {s S : HState K V} {a : Nat → Obj K V} (h : RS s.tables a)
    (op : Op K V) (hpre : Spec.Pre c.traits op a) {o : Res K V} (he : hstep c veq s op = some (S, o))
    (h' : RS S.tables (Spec.step c.traits veq op a).1) {r : Nat} {ad : Nat × Pos} {x : K × V} (hx : (s.1 r).At ad x)
    (hnd : ¬ Destroyed s.obs r x op) (hst : Steady c.traits s.obs S.obs r x op) :
    ∃ q, InHome s.obs r x q op ∧ (S.1 q).At ad (assigned s.obs r x op) := by
  have hi : ∀ i, (s.1 i).t.Inv := fun i => (h i).inv
  have hi' : ∀ i, (S.1 i).t.Inv := fun i => (h' i).inv
  have hxm : x ∈ (a r).elems := (h r).elems.subset ((hi r).mem.2 ⟨_, _, hx.2⟩)
  obtain ⟨q, hq, hm⟩ := spec_fate c.traits veq s.obs a (fun i => (h i).eq) (fun i k => obs_has (h i) k) op hpre hxm hnd
  have hm : assigned s.obs r x op ∈ (S.1 q).t.contents := (h' q).elems.symm.subset hm
  cases op with
  | construct i hs e al n =>
    refine ⟨r, rfl, ?_⟩
    simp only [Destroyed] at hnd
    simp only [hstep] at he
    cases hd : (s.1 i).destroy s.2 with
    | none => rw [hd] at he; cases he
    | some hp =>
      rw [hd] at he
      cases he
      simpa [upd, hnd, assigned] using hx
  | insert i y =>
    simp only [hstep] at he
    refine ⟨r, rfl, ?_⟩
    refine hon1_addr he hx ?_
    intro hr t hp ht
    have hc := hst hr
    exact opInsert_addr ht (hc.imp (has_find (hi i)) id)
  | insertRange i ys =>
    simp only [hstep] at he
    refine ⟨r, rfl, ?_⟩
    refine hon1_addr he hx ?_
    intro hr t hp ht
    have hc := hst hr
    cases hy : HTable.insertRange c.toCfg ys (s.1 i) s.2 with
    | none => rw [hy] at ht; cases ht
    | some y =>
      rw [hy] at ht
      cases ht
      exact insertRange_super hy hc
  | insertOrAssign i k v =>
    simp only [hstep] at he
    refine ⟨r, rfl, ?_⟩
    by_cases hr : r = i
    · subst hr
      obtain ⟨hp, ht⟩ := hon1_same he
      have hc := hst rfl
      obtain ⟨k1, k2⟩ := opAssign_addr (hi r) ht (hc.imp (has_find (hi r)) id) hx.2
      refine ⟨k1.trans hx.1, k2.trans ?_⟩
      simp [assigned, HState.obs, Table.obs]
    · have hh : assigned s.obs r x (.insertOrAssign i k v) = x := by simp [assigned, hr]
      rw [hh, hon1_other he hr]; exact hx
  | index i k d =>
    simp only [hstep] at he
    refine ⟨r, rfl, ?_⟩
    refine hon1_addr he hx ?_
    intro hr t hp ht
    have hc := hst hr
    exact opIndex_addr ht (hc.imp (has_find (hi i)) id)
  | «at» i k =>
    simp only [hstep] at he
    exact ⟨r, rfl, by rw [hon0_addr he]; exact hx⟩
  | find i k =>
    simp only [hstep] at he
    exact ⟨r, rfl, by rw [hon0_addr he]; exact hx⟩
  | count i k =>
    simp only [hstep] at he
    exact ⟨r, rfl, by rw [hon0_addr he]; exact hx⟩
  | contains i k =>
    simp only [hstep] at he
    exact ⟨r, rfl, by rw [hon0_addr he]; exact hx⟩
  | erase i k =>
    simp only [hstep] at he
    obtain rfl : q = r := hq
    refine ⟨q, rfl, keep_addr he ?_ hi hi' hx hm⟩
    intro t z ht
    cases hy : (s.1 i).t.eraseKey k with
    | none => rw [hy] at ht; cases ht
    | some y => rw [hy] at ht; cases ht; exact eraseKey_sub hy
  | eraseIt i k =>
    simp only [hstep] at he
    obtain rfl : q = r := hq
    refine ⟨q, rfl, keep_addr he ?_ hi hi' hx hm⟩
    intro t z ht
    cases hy : (s.1 i).t.opEraseIt k with
    | none => rw [hy] at ht; cases ht
    | some y => rw [hy] at ht; cases ht; exact opEraseIt_sub hy
  | extract i k =>
    simp only [hstep] at he
    obtain rfl : q = r := hq
    exact ⟨q, rfl, keep_addr he (fun t z ht => opExtract_sub ht) hi hi' hx hm⟩
  | eraseIf i pr =>
    simp only [hstep] at he
    obtain rfl : q = r := hq
    refine ⟨q, rfl, keep_addr he ?_ hi hi' hx hm⟩
    intro t z ht
    cases hy : (s.1 i).t.eraseIf pr with
    | none => rw [hy] at ht; cases ht
    | some y =>
      rw [hy] at ht; cases ht
      unfold Table.eraseIf at hy
      cases hz : Table.eraseIfLoop pr (s.1 i).t.arr.occ (s.1 i).t with
      | none => rw [hz] at hy; cases hy
      | some z => rw [hz] at hy; cases hy; exact eraseIfLoop_sub hz
  | eraseWalk i pr =>
    simp only [hstep] at he
    obtain rfl : q = r := hq
    exact ⟨q, rfl, keep_addr he (fun t z ht => opEraseWalk_sub ht) hi hi' hx hm⟩
  | clear i =>
    refine ⟨r, rfl, ?_⟩
    simp only [Destroyed] at hnd
    simp only [hstep, keep, Option.map_some] at he
    cases he
    simpa [upd, hnd, assigned] using hx
  | rehash i n =>
    simp only [hstep] at he
    refine ⟨r, rfl, ?_⟩
    by_cases hr : r = i
    · subst hr
      obtain ⟨hp, ht⟩ := hon1_same he
      have hc := hst rfl
      cases hy : (s.1 r).rehash c.toCfg n s.2 with
      | none => rw [hy] at ht; cases ht
      | some y =>
        rw [hy] at ht
        have e1 : y.1 = S.1 r := (Prod.mk.inj (Prod.mk.inj (Option.some.inj ht)).1).1
        have := rehash_addr (t' := y.1) (h' := y.2) hy (by have := (hi r).size; have h2 := (hi r).mem.2 ⟨_, _, hx.2⟩; have := List.length_pos_of_mem h2; omega) (by rw [e1]; exact hc)
        rw [← e1, this]; exact hx
    · rw [hon1_other he hr]; exact hx
  | reserve i n =>
    simp only [hstep] at he
    refine ⟨r, rfl, ?_⟩
    by_cases hr : r = i
    · subst hr
      obtain ⟨hp, ht⟩ := hon1_same he
      have hc := hst rfl
      cases hy : (s.1 r).reserve c.toCfg n s.2 with
      | none => rw [hy] at ht; cases ht
      | some y =>
        rw [hy] at ht
        have e1 : y.1 = S.1 r := (Prod.mk.inj (Prod.mk.inj (Option.some.inj ht)).1).1
        have := reserve_addr (t' := y.1) (h' := y.2) hy (by have := (hi r).size; have h2 := (hi r).mem.2 ⟨_, _, hx.2⟩; have := List.length_pos_of_mem h2; omega) (by rw [e1]; exact hc)
        rw [← e1, this]; exact hx
    · rw [hon1_other he hr]; exact hx
  | copyConstruct i j al =>
    refine ⟨r, rfl, ?_⟩
    have hnd : r ≠ i := hnd
    rw [copyConstruct_other he hnd]; exact hx
  | moveConstruct i j =>
    simp only [Destroyed] at hnd
    simp only [hstep] at he
    cases hd : (s.1 i).destroy s.2 with
    | none => rw [hd] at he; cases he
    | some hp =>
      simp only [hd, Option.bind_some] at he
      obtain ⟨t, y, z, e1, e2⟩ := hon2_parts he
      have e1 : t = s.1 j := by rw [← moveCtor_addr c.toCfg (s.1 j) hp, Option.some.inj e1]
      refine ⟨q, hq, ?_⟩
      have hq : q = if r = j then i else r := hq
      have hij : i ≠ j := hpre
      rw [hq, e2]
      by_cases hr : r = j
      · subst hr; simpa [upd, hij, e1, assigned] using hx
      · simpa [upd, hr, hnd, assigned] using hx
  | moveConstructAlloc i j al =>
    simp only [Destroyed] at hnd
    simp only [hstep] at he
    cases hd : (s.1 i).destroy s.2 with
    | none => rw [hd] at he; cases he
    | some hp =>
      simp only [hd, Option.bind_some] at he
      obtain ⟨t, y, z, e1, e2⟩ := hon2_parts he
      refine ⟨q, hq, ?_⟩
      have hq : q = if r = j then i else r := hq
      have hij : i ≠ j := hpre
      rw [hq, e2]
      by_cases hr : r = j
      · subst hr
        have hal : al = (s.1 r).t.al := hst rfl
        obtain ⟨k1, k2⟩ := moveCtorAlloc_addr hal e1
        simp only [if_true, upd, hij, if_false]
        exact ⟨k1.trans hx.1, by rw [k2]; exact hx.2⟩
      · simpa [upd, hr, hnd, assigned] using hx
  | copyAssign i j =>
    refine ⟨r, rfl, ?_⟩
    simp only [Destroyed] at hnd
    simp only [hstep] at he
    by_cases hij : i = j
    · rw [if_pos hij] at he; cases he; exact hx
    · rw [if_neg hij] at he
      rw [hon1_other he (fun hr => hnd ⟨hr, hij⟩)]; exact hx
  | moveAssign i j =>
    simp only [Destroyed] at hnd
    simp only [hstep] at he
    refine ⟨q, hq, ?_⟩
    have hq : q = if r = j then i else r := hq
    rw [hq]
    by_cases hij : i = j
    · rw [if_pos hij] at he; cases he; subst hij
      split
      · rename_i hr; subst hr; exact hx
      · exact hx
    · rw [if_neg hij] at he
      obtain ⟨t, y, z, e1, e2⟩ := hon2_parts he
      rw [e2]
      by_cases hr : r = j
      · subst hr
        have hal : c.pocma = true ∨ (s.1 i).t.al = (s.1 r).t.al := hst rfl hij
        obtain ⟨k1, k2⟩ := moveAssign_addr hal e1
        simp only [if_true, upd, hij, if_false]
        exact ⟨k1.trans hx.1, by rw [k2]; exact hx.2⟩
      · have hri : r ≠ i := fun hri => hnd ⟨hri, hij⟩
        simpa [upd, hr, hri, assigned] using hx
  | swap i j =>
    simp only [hstep] at he
    refine ⟨q, hq, ?_⟩
    have hq : q = if r = i then j else if r = j then i else r := hq
    obtain ⟨t, y, z, e1, e2⟩ := hon2_parts he
    rw [hq, e2]
    have ht : t.id = (s.1 j).id ∧ t.t.arr = (s.1 j).t.arr ∧ y.id = (s.1 i).id ∧ y.t.arr = (s.1 i).t.arr := by
      unfold HTable.swap at e1
      split at e1
      · cases e1; exact ⟨rfl, rfl, rfl, rfl⟩
      · split at e1
        · cases e1; exact ⟨rfl, rfl, rfl, rfl⟩
        · cases e1
    obtain ⟨t1, t2, t3, t4⟩ := ht
    by_cases hr : r = i
    · subst hr
      rw [if_pos rfl]
      simp only [upd, if_true]
      exact ⟨t3.trans hx.1, by rw [t4]; exact hx.2⟩
    · rw [if_neg hr]
      by_cases hrj : r = j
      · subst hrj
        rw [if_pos rfl]
        have : i ≠ r := fun h => hr h.symm
        simp only [upd, this, if_false, if_true]
        exact ⟨t1.trans hx.1, by rw [t2]; exact hx.2⟩
      · rw [if_neg hrj]; simpa [upd, hr, hrj, assigned] using hx
  | merge i j =>
    simp only [hstep] at he
    by_cases hij : i = j
    · subst hij
      rw [if_pos rfl] at he
      refine ⟨r, ?_, ?_⟩
      · refine ⟨fun hh => ?_, fun _ => rfl⟩
        exact hh.1
      · refine hon1_addr he hx ?_
        intro hr t hp ht
        cases hy : HTable.mergeSelfLoop c.toCfg (s.1 i).t.arr.occ (s.1 i) s.2 with
        | none => rw [hy] at ht; cases ht
        | some y =>
          rw [hy] at ht; cases ht
          rw [mergeSelf_addr (hi i) _ hy]; exact ⟨rfl, Super.refl _⟩
    · rw [if_neg hij] at he
      obtain ⟨t, y, z, e1, e2⟩ := hon2_parts he
      obtain ⟨g1, g2, g3⟩ := mergeLoop_addr e1
      rcases hst with hst | ⟨hst1, hst2⟩
      · exact absurd hst hij
      have hqr : q = r := hq.2 (fun hh => hh.2 (hst2 hh.1))
      refine ⟨r, by rw [← hqr]; exact hqr ▸ hq, ?_⟩
      subst hqr
      by_cases hj : q = j
      · subst hj
        rw [e2] at hm ⊢
        simp only [upd, if_true] at hm ⊢
        have := hi' q
        rw [e2] at this
        simp only [upd, if_true] at this
        exact ⟨g1.trans hx.1, g2.stays (hi q) this hx.2 hm⟩
      · by_cases hqi : q = i
        · subst hqi
          rw [e2]
          simp only [upd, if_true, hj, if_false]
          have hsz : (s.1 q).t.size + (s.1 j).t.arr.occ.length ≤ (s.1 q).t.ml := by
            have := hst1 rfl
            rw [occ_length (hi j)]; exact this
          obtain ⟨k1, k2⟩ := g3 hsz
          exact ⟨k1.trans hx.1, k2 _ _ _ hx.2⟩
        · rw [e2]; simpa [upd, hj, hqi, assigned] using hx
  | size i =>
    simp only [hstep] at he
    cases he; exact ⟨r, rfl, hx⟩
  | isEmpty i =>
    simp only [hstep] at he
    cases he; exact ⟨r, rfl, hx⟩
  | iterate i =>
    simp only [hstep] at he
    exact ⟨r, rfl, by rw [hon0_addr he]; exact hx⟩
  | equal i j =>
    simp only [hstep] at he
    exact ⟨r, rfl, by rw [hon0_addr he]; exact hx⟩

end Foa

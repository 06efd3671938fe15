/-
Node programs refine the ownership specification: no undefined behaviour, and the memory holds exactly the owned nodes.
-/
import Mathlib.Data.List.Perm.Basic
import Mathlib.Data.List.Nodup
import Verif.Node.Laws

namespace Node
open Spec (upd)
open SpecNode (Op Owner give exchange)
variable {K V C : Type}

abbrev ASt (K V : Type) := SpecNode.St K V

/-- the allocator responsible for the nodes of an owner -/
def ownerAl (a : ASt K V) : Owner → Nat
  | .cont c => a.al c
  | .hand h => (a.hal h).getD 0

/-- container object `t` is container `c` -/
structure RC {I : ContImpl K C} {u kp : Bool} (L : Laws I u kp) (t : C) (a : ASt K V) (c : Nat) : Prop where
  inv : L.Inv t
  eq : L.eq t = a.eq c
  al : I.al t = a.al c
  nodup : ((L.contents t).map Prod.snd).Nodup
  mem : ∀ k i, (k, i) ∈ L.contents t ↔ a.own i = some (.cont c) ∧ (a.elem i).1 = k

/-- handle object `x` is handle `h` -/
structure RH (keep : Bool) (x : Hnd) (a : ASt K V) (h : Nat) : Prop where
  ptr : ∀ i, x.p = some i ↔ a.own i = some (.hand h)
  hal : x.a = a.hal h
  some_ : x.p.isSome = true → x.a.isSome = true
  none_ : keep = false → x.a.isSome = true → x.p.isSome = true

/-- memory: exactly the owned nodes are alive, each with the allocator of its owner; every other node allocated so far has been
freed once -/
structure RM (m : Heap K V) (a : ASt K V) : Prop where
  cell : ∀ i, m.cell i = (a.own i).map (fun o => (a.elem i, ownerAl a o))
  fresh : ∀ i, m.next ≤ i → a.own i = none
  freed : ∀ i, i ∈ m.freed ↔ i < m.next ∧ a.own i = none
  once : m.freed.Nodup

structure R {I : ContImpl K C} {u kp : Bool} (L : Laws I u kp) (s : St K V C) (a : ASt K V) : Prop where
  c : ∀ c, RC L (s.c c) a c
  h : ∀ h, RH kp (s.h h) a h
  m : RM s.m a

theorem upd_eq {α : Type} (f : Nat → α) (r : Nat) (x : α) : upd f r x r = x := by simp [upd]
theorem upd_ne {α : Type} (f : Nat → α) {r i : Nat} (x : α) (h : i ≠ r) : upd f r x i = f i := by simp [upd, h]

section
variable {I : ContImpl K C} {u kp : Bool} {L : Laws I u kp}

theorem RC.congr {t : C} {a a' : ASt K V} {c : Nat} (h : RC L t a c) (he : a'.eq c = a.eq c) (ha : a'.al c = a.al c)
    (ho : ∀ i, a'.own i = some (.cont c) ↔ a.own i = some (.cont c))
    (hk : ∀ i, a.own i = some (.cont c) → (a'.elem i).1 = (a.elem i).1) : RC L t a' c :=
  ⟨h.inv, h.eq.trans he.symm, h.al.trans ha.symm, h.nodup, fun k i => by
    rw [h.mem, ho]; constructor
    · rintro ⟨h1, h2⟩; exact ⟨h1, (hk i h1).trans h2⟩
    · rintro ⟨h1, h2⟩; exact ⟨h1, (hk i h1).symm.trans h2⟩⟩

theorem RH.congr {x : Hnd} {a a' : ASt K V} {g : Nat} (h : RH kp x a g) (hh : a'.hal g = a.hal g)
    (ho : ∀ i, a'.own i = some (.hand g) ↔ a.own i = some (.hand g)) : RH kp x a' g :=
  ⟨fun i => (h.ptr i).trans (ho i).symm, h.hal.trans hh.symm, h.some_, h.none_⟩

theorem RM.congr {m : Heap K V} {a a' : ASt K V} (h : RM m a)
    (ho : ∀ i, a.own i = none → a'.own i = none)
    (hs : ∀ i o, a.own i = some o → ∃ o', a'.own i = some o' ∧ a'.elem i = a.elem i ∧ ownerAl a' o' = ownerAl a o) :
    RM m a' := by
  have hn : ∀ i, a'.own i = none ↔ a.own i = none := fun i => ⟨(fun h1 => by
    cases h2 : a.own i with
    | none => rfl
    | some o => obtain ⟨o', h3, _⟩ := hs i o h2; rw [h3] at h1; cases h1), ho i⟩
  refine ⟨fun i => ?_, fun i hi => ho i (h.fresh i hi), fun i => by rw [h.freed, hn], h.once⟩
  rw [h.cell]
  cases h2 : a.own i with
  | none => rw [ho i h2]; rfl
  | some o => obtain ⟨o', h3, h4, h5⟩ := hs i o h2; rw [h3]; simp only [Option.map_some, h4, h5]

/-- freeing an owned node -/
theorem RM.free {m : Heap K V} {a : ASt K V} (h : RM m a) {i : Nat} {o : Owner} (ho : a.own i = some o) :
    ∃ m', m.free (ownerAl a o) i = some m' ∧ RM m' { a with own := upd a.own i none } := by
  have hc := h.cell i
  rw [ho] at hc; simp only [Option.map_some] at hc
  have hlt : i < m.next := by
    by_contra hn; have := h.fresh i (by omega); rw [ho] at this; cases this
  refine ⟨{ m with cell := upd m.cell i none, freed := i :: m.freed }, by simp [Heap.free, hc], ?_, ?_, ?_, ?_⟩
  · intro j
    by_cases hj : j = i
    · subst hj; simp [upd_eq]
    · simp only [upd_ne _ _ hj]; exact h.cell j
  · intro j hj
    by_cases hji : j = i
    · subst hji; simp [upd_eq]
    · simp only [upd_ne _ _ hji]; exact h.fresh j hj
  · intro j
    simp only [List.mem_cons]
    by_cases hji : j = i
    · subst hji; simp [upd_eq, hlt]
    · simp only [upd_ne _ _ hji, hji, false_or]; exact h.freed j
  · simp only [List.nodup_cons]
    refine ⟨fun hm => ?_, h.once⟩
    have := ((h.freed i).1 hm).2; rw [ho] at this; cases this

theorem ownerAl_own {a : ASt K V} {f : Nat → Option Owner} (o : Owner) : ownerAl { a with own := f } o = ownerAl a o := by
  cases o <;> rfl

/-- freeing several nodes of one container -/
theorem RM.freeAll {a : ASt K V} {o : Owner} : ∀ (l : List Nat) {m : Heap K V} {own : Nat → Option Owner},
    RM m { a with own := own } → l.Nodup → (∀ i ∈ l, own i = some o) →
    ∃ m', m.freeAll (ownerAl a o) l = some m' ∧ RM m' { a with own := fun i => if i ∈ l then none else own i } := by
  intro l
  induction l with
  | nil => intro m own h _ _; exact ⟨m, rfl, by simpa using h⟩
  | cons i l ih =>
    intro m own h hn ho
    obtain ⟨m1, h1, h2⟩ := h.free (i := i) (o := o) (ho i (by simp))
    rw [ownerAl_own] at h1
    obtain ⟨m2, h3, h4⟩ := ih (m := m1) (own := upd own i none) h2 (List.nodup_cons.1 hn).2 (fun j hj => by
      have : j ≠ i := fun he => (List.nodup_cons.1 hn).1 (he ▸ hj)
      rw [upd_ne _ _ this]; exact ho j (List.mem_cons_of_mem _ hj))
    refine ⟨m2, by simp [Heap.freeAll, h1, h3], ?_⟩
    have : (fun j => if j ∈ i :: l then none else own j) = fun j => if j ∈ l then none else upd own i none j := by
      funext j
      by_cases hj : j = i
      · subst hj; simp [upd_eq]
      · simp [hj, upd_ne]
    rw [this]; exact h4

/-- all nodes of a container, from a permutation of its contents -/
theorem RC.ids {t : C} {a : ASt K V} {c : Nat} (h : RC L t a c) {l : List (K × Nat)} (hp : (L.contents t).Perm l) :
    (l.map Prod.snd).Nodup ∧ ∀ i, i ∈ l.map Prod.snd ↔ a.own i = some (.cont c) := by
  refine ⟨(hp.map Prod.snd).nodup_iff.1 h.nodup, fun i => ?_⟩
  constructor
  · intro hi
    obtain ⟨⟨k, j⟩, hj, rfl⟩ := List.mem_map.1 hi
    exact ((h.mem k j).1 (hp.mem_iff.2 hj)).1
  · intro hi
    exact List.mem_map.2 ⟨((a.elem i).1, i), hp.mem_iff.1 ((h.mem _ _).2 ⟨hi, rfl⟩), rfl⟩

theorem RC.freeElems {t : C} {a : ASt K V} {c : Nat} {m : Heap K V} (h : RC L t a c) (hm : RM m a) {l : List (K × Nat)}
    (hp : (L.contents t).Perm l) :
    ∃ m', Node.freeElems m (I.al t) l = some m' ∧ RM m' { a with own := give a.own (.cont c) none } := by
  obtain ⟨h1, h2⟩ := h.ids hp
  obtain ⟨m', h3, h4⟩ := RM.freeAll (a := a) (o := .cont c) (l.map Prod.snd) hm h1 (fun i hi => (h2 i).1 hi)
  refine ⟨m', by rw [Node.freeElems, h.al]; exact h3, ?_⟩
  have : give a.own (.cont c) none = fun i => if i ∈ l.map Prod.snd then none else a.own i := by
    funext i; unfold give; simp only [h2]
  rw [this]; exact h4

/-! ### handles -/

theorem RH.empty {x : Hnd} {a : ASt K V} {g : Nat} (h : RH kp x a g) (hp : x.p = none) : ∀ i, a.own i ≠ some (.hand g) :=
  fun i hi => by rw [(h.ptr i).2 hi] at hp; cases hp

theorem give_empty {own : Nat → Option Owner} {o : Owner} {r : Option Owner} (h : ∀ i, own i ≠ some o) : give own o r = own := by
  funext i; simp [give, h i]

theorem give_single {own : Nat → Option Owner} {o : Owner} {r : Option Owner} {i : Nat}
    (h : ∀ j, own j = some o ↔ j = i) : give own o r = upd own i r := by
  funext j; simp only [give, h, upd]

theorem RH.single {x : Hnd} {a : ASt K V} {g i : Nat} (h : RH kp x a g) (hp : x.p = some i) (j : Nat) :
    a.own j = some (.hand g) ↔ j = i := by
  rw [← h.ptr, hp]; constructor
  · intro h; cases h; rfl
  · rintro rfl; rfl

/-- the node of a handle, if any, is freed -/
theorem RH.freed {x : Hnd} {a : ASt K V} {g : Nat} {m : Heap K V} (h : RH kp x a g) (hm : RM m a) {i al : Nat}
    (hp : x.p = some i) (ha : x.a = some al) :
    ∃ m', m.free al i = some m' ∧ RM m' { a with own := give a.own (.hand g) none } := by
  obtain ⟨m', h1, h2⟩ := hm.free (i := i) ((h.ptr i).1 hp)
  have : ownerAl a (.hand g) = al := by simp [ownerAl, ← h.hal, ha]
  rw [this] at h1
  exact ⟨m', h1, by rw [give_single (h.single hp)]; exact h2⟩

variable (cfg : Cfg)

theorem hDestroy_ok {x : Hnd} {a : ASt K V} {g : Nat} {m : Heap K V} (h : RH cfg.keep x a g) (hm : RM m a) :
    ∃ m', hDestroy cfg m x = some m' ∧ RM m' { a with own := give a.own (.hand g) none } := by
  cases hp : x.p with
  | none =>
    refine ⟨m, ?_, by rw [give_empty (h.empty hp)]; exact hm⟩
    unfold hDestroy Closed.destroy Closed.freeNode Open.destroy
    simp [hp]
  | some i =>
    have hs := h.some_ (by simp [hp])
    obtain ⟨al, ha⟩ := Option.isSome_iff_exists.1 hs
    obtain ⟨m', h1, h2⟩ := h.freed hm hp ha
    refine ⟨m', ?_, h2⟩
    unfold hDestroy Closed.destroy Closed.freeNode Open.destroy Open.destroyNode Open.alOf Open.reset
    cases cfg.keep <;> simp [hp, ha, h1]

theorem hMoveCtor_ok {x : Hnd} {a : ASt K V} {g : Nat} (h : RH cfg.keep x a g) :
    hMoveCtor cfg x = some (x, .dflt) := by
  unfold hMoveCtor Closed.moveCtor Open.moveCtor Open.take Open.alOf Open.emplace Open.reset Hnd.dflt
  cases hk : cfg.keep with
  | true => simp
  | false =>
    obtain ⟨p, al⟩ := x
    cases p with
    | none =>
      have : al = none := by
        by_contra hn
        have := h.none_ hk (by cases al <;> simp_all)
        simp at this
      simp [this]
    | some i =>
      obtain ⟨b, hb⟩ := Option.isSome_iff_exists.1 (h.some_ (by simp))
      cases hb
      simp

theorem hAssign_ok {x y : Hnd} {a : ASt K V} {g h : Nat} {m : Heap K V} (hy : RH cfg.keep y a g) (hx : RH cfg.keep x a h)
    (hm : RM m a)
    (hp : a.hal g = none ∨ cfg.pocma = true ∨ a.hal g = a.hal h ∨ (cfg.keep = false ∧ a.hal h = none)) :
    ∃ m', hAssign cfg m y x = some (m', x, ⟨none, if cfg.keep = true ∧ y.a ≠ none ∧ cfg.pocma = false then x.a else none⟩) ∧
      RM m' { a with own := give a.own (.hand g) none } := by
  obtain ⟨m', h1, h2⟩ := hDestroy_ok cfg hy hm
  refine ⟨m', ?_, h2⟩
  rw [← hy.hal, ← hx.hal] at hp
  have sy := hy.some_; have sx := hx.some_; have ny := hy.none_; have nx := hx.none_
  clear hy hx hm h2
  obtain ⟨py, ay⟩ := y; obtain ⟨px, ax⟩ := x
  unfold hDestroy at h1
  unfold hAssign
  cases hk : cfg.keep with
  | true =>
    simp only [hk, if_true, Closed.destroy] at h1 ⊢
    unfold Closed.assign Closed.optMove
    rw [h1]
    cases hpo : cfg.pocma with
    | true => simp
    | false =>
      simp only [hpo, Bool.false_eq_true, or_false, false_or, and_true] at hp ⊢
      by_cases h0 : ay = none
      · simp [h0]
      · simp only [h0, false_or, hk, reduceCtorEq, false_and, or_false] at hp
        subst hp
        simp [h0]
  | false =>
    simp only [hk, Bool.false_eq_true, if_false, false_and, true_and] at h1 hp ⊢
    unfold Open.destroy at h1
    unfold Open.assign Open.take Open.alOf Open.emplace Open.reset at *
    cases py with
    | none =>
      have hay : ay = none := by
        by_contra hn; have := ny hk (by cases ay <;> simp_all); simp at this
      subst hay
      simp only [Option.isNone_none, if_true, Option.some.injEq] at h1; subst h1
      cases px with
      | none =>
        have hax : ax = none := by
          by_contra hn; have := nx hk (by cases ax <;> simp_all); simp at this
        simp [hax]
      | some i =>
        obtain ⟨b, hb⟩ := Option.isSome_iff_exists.1 (sx (by simp)); cases hb
        simp
    | some j =>
      obtain ⟨d, hd⟩ := Option.isSome_iff_exists.1 (sy (by simp)); cases hd
      simp only [Option.isNone_some, Bool.false_eq_true, if_false] at h1
      cases hdn : Open.destroyNode m ⟨some j, some d⟩ with
      | none => rw [hdn] at h1; simp at h1
      | some m1 =>
        rw [hdn] at h1; simp only [Option.map_some, Option.some.injEq] at h1; subst h1
        cases px with
        | none =>
          have hax : ax = none := by
            by_contra hn; have := nx hk (by cases ax <;> simp_all); simp at this
          simp [hax]
        | some i =>
          obtain ⟨b, hb⟩ := Option.isSome_iff_exists.1 (sx (by simp)); cases hb
          cases hpo : cfg.pocma with
          | true => simp
          | false =>
            simp only [hpo, reduceCtorEq, false_or, or_false, Option.some.injEq, Bool.false_eq_true] at hp
            subst hp
            simp

theorem hAssignSelf_ok {y : Hnd} {a : ASt K V} {g : Nat} {m : Heap K V} (hy : RH cfg.keep y a g) (hm : RM m a) :
    ∃ m', hAssignSelf cfg m y = some (m', ⟨none, if cfg.keep = true ∧ cfg.pocma = false then y.a else none⟩) ∧
      RM m' { a with own := give a.own (.hand g) none } := by
  obtain ⟨m', h1, h2⟩ := hDestroy_ok cfg hy hm
  refine ⟨m', ?_, h2⟩
  have sy := hy.some_; have ny := hy.none_
  clear hy hm h2
  obtain ⟨py, ay⟩ := y
  unfold hDestroy at h1
  unfold hAssignSelf
  cases hk : cfg.keep with
  | true =>
    simp only [hk, if_true, Closed.destroy] at h1 ⊢
    unfold Closed.assignSelf
    rw [h1]
    cases cfg.pocma <;> cases ay <;> simp
  | false =>
    simp only [hk, Bool.false_eq_true, if_false, false_and] at h1 ⊢
    unfold Open.destroy at h1
    unfold Open.assignSelf Open.reset at *
    cases py with
    | none =>
      have hay : ay = none := by
        by_contra hn; have := ny hk (by cases ay <;> simp_all); simp at this
      subst hay
      simp only [Option.isNone_none, if_true, Option.some.injEq] at h1; subst h1
      simp
    | some j =>
      obtain ⟨d, hd⟩ := Option.isSome_iff_exists.1 (sy (by simp)); cases hd
      simp only [Option.isNone_some, Bool.false_eq_true, if_false] at h1 ⊢
      cases hdn : Open.destroyNode m ⟨some j, some d⟩ with
      | none => rw [hdn] at h1; simp at h1
      | some m1 =>
        rw [hdn] at h1; simp only [Option.map_some, Option.some.injEq] at h1; subst h1
        simp

theorem hSwap_ok {x y : Hnd} {a : ASt K V} {g h : Nat} (hy : RH cfg.keep y a g) (hx : RH cfg.keep x a h)
    (hp : a.hal g = none ∨ a.hal h = none ∨ cfg.pocs = true ∨ a.hal g = a.hal h) :
    hSwap cfg y x = some (x, y) := by
  rw [← hy.hal, ← hx.hal] at hp
  have sy := hy.some_; have sx := hx.some_; have ny := hy.none_; have nx := hx.none_
  clear hy hx
  obtain ⟨py, ay⟩ := y; obtain ⟨px, ax⟩ := x
  unfold hSwap
  cases hk : cfg.keep with
  | true =>
    simp only [if_true]
    unfold Closed.swap
    cases hpo : cfg.pocs with
    | true => simp
    | false =>
      simp only [hpo, Bool.false_eq_true, false_or] at hp ⊢
      by_cases h0 : ay = none
      · simp [h0]
      · by_cases h1 : ax = none
        · simp [h1]
        · simp only [h0, h1, false_or] at hp ⊢
          subst hp; simp
  | false =>
    simp only [Bool.false_eq_true, if_false]
    unfold Open.swap Open.take Open.alOf Open.emplace Open.reset
    cases py with
    | none =>
      have hay : ay = none := by
        by_contra hn; have := ny hk (by cases ay <;> simp_all); simp at this
      subst hay
      cases px with
      | none =>
        have hax : ax = none := by
          by_contra hn; have := nx hk (by cases ax <;> simp_all); simp at this
        simp [hax]
      | some i =>
        obtain ⟨b, hb⟩ := Option.isSome_iff_exists.1 (sx (by simp)); cases hb
        simp
    | some j =>
      obtain ⟨d, hd⟩ := Option.isSome_iff_exists.1 (sy (by simp)); cases hd
      cases px with
      | none =>
        have hax : ax = none := by
          by_contra hn; have := nx hk (by cases ax <;> simp_all); simp at this
        simp [hax]
      | some i =>
        obtain ⟨b, hb⟩ := Option.isSome_iff_exists.1 (sx (by simp)); cases hb
        cases hpo : cfg.pocs with
        | true => simp
        | false =>
          simp only [hpo, reduceCtorEq, false_or, Option.some.injEq, Bool.false_eq_true] at hp
          subst hp
          simp

theorem hOfExtract_ok (al : Nat) (i : Option Nat) :
    hOfExtract cfg al i = some ⟨i, if i.isSome = true ∨ cfg.keep = true then some al else none⟩ := by
  unfold hOfExtract Closed.ofExtract Open.ofExtract Open.emplace Hnd.dflt
  cases cfg.keep <;> cases i <;> simp

theorem hAccepts_ok {x : Hnd} {al : Nat} (hp : x.p.isSome = true) (ha : x.a = some al) : hAccepts cfg al x = true := by
  unfold hAccepts Closed.accepts Open.accepts Open.alOf
  cases hk : cfg.keep
  · have : x.p.isNone = false := by cases h : x.p <;> simp_all
    simp [this, ha]
  · simp

theorem hTaken_ok {x : Hnd} (ha : x.a.isSome = true) : hTaken cfg x = some ⟨none, if cfg.keep then x.a else none⟩ := by
  unfold hTaken Closed.taken Open.taken Open.reset
  have : x.a.isNone = false := by cases h : x.a <;> simp_all
  cases cfg.keep <;> simp [this]

theorem hRefused_ok {x : Hnd} {a : ASt K V} {g : Nat} {m : Heap K V} (h : RH cfg.keep x a g) :
    hRefused cfg m x = some (m, x, .dflt) := by
  have h1 := hMoveCtor_ok cfg h
  unfold hMoveCtor at h1
  unfold hRefused Closed.refused Open.refused Closed.assign Closed.optMove Closed.freeNode Hnd.dflt at *
  cases hk : cfg.keep with
  | true => simp
  | false => simp only [hk, Bool.false_eq_true, if_false] at h1 ⊢; rw [h1]; rfl

end
end Node

/-
Node programs refine the ownership specification, continued: every call, whole programs, program end.
-/
import Verif.Node.Refine

namespace Node
open Spec (upd)
open SpecNode (Op Owner give exchange)
variable {K V C : Type} {I : ContImpl K C} {u kp : Bool} {L : Laws I u kp}

theorem RC.perm {t t' : C} {a a' : ASt K V} {c : Nat} (h : RC L t a c) (hi : L.Inv t') (he : L.eq t' = a'.eq c)
    (ha : I.al t' = a'.al c) (hp : (L.contents t').Perm (L.contents t))
    (ho : ∀ i, a'.own i = some (.cont c) ↔ a.own i = some (.cont c))
    (hk : ∀ i, a.own i = some (.cont c) → (a'.elem i).1 = (a.elem i).1) : RC L t' a' c :=
  ⟨hi, he, ha, (hp.map _).nodup_iff.2 h.nodup, fun k i => by
    rw [hp.mem_iff, h.mem, ho]; constructor
    · rintro ⟨h1, h2⟩; exact ⟨h1, (hk i h1).trans h2⟩
    · rintro ⟨h1, h2⟩; exact ⟨h1, (hk i h1).symm.trans h2⟩⟩

theorem RC.add {t t' : C} {a a' : ASt K V} {c i : Nat} {k : K} (h : RC L t a c) (hi : L.Inv t') (he : L.eq t' = a'.eq c)
    (ha : I.al t' = a'.al c) (hp : (L.contents t').Perm ((k, i) :: L.contents t)) (hn : a.own i ≠ some (.cont c))
    (ho : ∀ j, a'.own j = some (.cont c) ↔ a.own j = some (.cont c) ∨ j = i)
    (hk : ∀ j, a.own j = some (.cont c) → (a'.elem j).1 = (a.elem j).1) (hki : (a'.elem i).1 = k) : RC L t' a' c := by
  refine ⟨hi, he, ha, (hp.map _).nodup_iff.2 ?_, fun k' j => ?_⟩
  · simp only [List.map_cons, List.nodup_cons]
    exact ⟨fun hm => hn (((h.ids (List.Perm.refl _)).2 i).1 hm), h.nodup⟩
  · rw [hp.mem_iff, List.mem_cons, h.mem, ho]; constructor
    · rintro (h1 | ⟨h1, h2⟩)
      · cases h1; exact ⟨.inr rfl, hki⟩
      · exact ⟨.inl h1, (hk j h1).trans h2⟩
    · rintro ⟨h1 | h1, h2⟩
      · exact .inr ⟨h1, (hk j h1).symm.trans h2⟩
      · subst h1; left; rw [← h2, hki]

theorem RC.remove {t t' : C} {a a' : ASt K V} {c : Nat} {l : List (K × Nat)} (h : RC L t a c) (hi : L.Inv t')
    (he : L.eq t' = a'.eq c) (ha : I.al t' = a'.al c) (hp : (L.contents t).Perm (l ++ L.contents t'))
    (ho : ∀ j, a'.own j = some (.cont c) ↔ a.own j = some (.cont c) ∧ j ∉ l.map Prod.snd)
    (hk : ∀ j, a.own j = some (.cont c) → (a'.elem j).1 = (a.elem j).1) : RC L t' a' c := by
  have hnd := (hp.map Prod.snd).nodup_iff.1 h.nodup
  rw [List.map_append, List.nodup_append] at hnd
  refine ⟨hi, he, ha, hnd.2.1, fun k' j => ?_⟩
  have hm := h.mem k' j
  rw [hp.mem_iff, List.mem_append] at hm
  rw [ho]; constructor
  · intro h1
    have h2 := hm.1 (.inr h1)
    exact ⟨⟨h2.1, fun h3 => hnd.2.2 j h3 j (List.mem_map.2 ⟨_, h1, rfl⟩) rfl⟩, (hk j h2.1).trans h2.2⟩
  · rintro ⟨⟨h1, h2⟩, h3⟩
    rcases hm.2 ⟨h1, (hk j h1).symm.trans h3⟩ with h4 | h4
    · exact absurd (List.mem_map.2 ⟨_, h4, rfl⟩) h2
    · exact h4

/-- absence of a key, in terms of the contents -/
theorem RC.absent {t : C} {a : ASt K V} {c : Nat} (h : RC L t a c) (k : K) :
    SpecNode.Absent a c k ↔ ∀ e ∈ L.contents t, L.eq t k e.1 = false := by
  unfold SpecNode.Absent
  rw [h.eq]; constructor
  · rintro h1 ⟨k', i⟩ he
    have := (h.mem k' i).1 he
    rw [← this.2]; exact h1 i this.1
  · intro h1 i hi
    exact h1 ((a.elem i).1, i) ((h.mem _ _).2 ⟨hi, rfl⟩)

theorem RC.present {t : C} {a : ASt K V} {c : Nat} (h : RC L t a c) {k : K} {e : K × Nat} (he : e ∈ L.contents t)
    (hk : L.eq t k e.1 = true) : ¬ SpecNode.Absent a c k := fun hn => by
  have := (h.absent k).1 hn e he
  rw [hk] at this; cases this

theorem RM.own_lt {m : Heap K V} {a : ASt K V} (h : RM m a) : a.own m.next = none := h.fresh _ (Nat.le_refl _)

/-- a node of a new address -/
theorem RM.new_ {m : Heap K V} {a : ASt K V} (h : RM m a) (c : Nat) (x : K × V) :
    RM (m.new_ (a.al c) x).1 { a with own := upd a.own m.next (some (.cont c)), elem := upd a.elem m.next x } := by
  refine ⟨fun i => ?_, fun i hi => ?_, fun i => ?_, h.once⟩
  · simp only [Heap.new_]
    by_cases hi : i = m.next
    · subst hi; simp [upd_eq, ownerAl]
    · simp only [upd_ne _ _ hi]; rw [h.cell i]
      cases a.own i with
      | none => rfl
      | some o => cases o <;> rfl
  · simp only [Heap.new_] at hi
    have : i ≠ m.next := by omega
    simp only [upd_ne _ _ this]; exact h.fresh i (by omega)
  · simp only [Heap.new_]
    by_cases hi : i = m.next
    · subst hi; simp only [upd_eq]
      constructor
      · intro h1; have := ((h.freed _).1 h1).1; omega
      · rintro ⟨_, h1⟩; cases h1
    · simp only [upd_ne _ _ hi]; rw [h.freed]
      constructor
      · rintro ⟨h1, h2⟩; exact ⟨by omega, h2⟩
      · rintro ⟨h1, h2⟩; exact ⟨by omega, h2⟩

/-- a node constructed and destroyed again -/
theorem RM.new_free {m : Heap K V} {a : ASt K V} (h : RM m a) (c : Nat) (x : K × V) :
    ∃ m', (m.new_ (a.al c) x).1.free (a.al c) m.next = some m' ∧ RM m' a := by
  obtain ⟨m', h1, h2⟩ := (h.new_ c x).free (i := m.next) (o := .cont c) (by simp [upd_eq])
  refine ⟨m', h1, h2.congr ?_ ?_⟩
  · intro i hi
    by_cases hj : i = m.next
    · rw [hj]; exact h.own_lt
    · simpa only [upd_ne _ _ hj] using hi
  · intro i o hi
    by_cases hj : i = m.next
    · subst hj; simp [upd_eq] at hi
    · simp only [upd_ne _ _ hj] at hi ⊢
      exact ⟨o, hi, by simp, by cases o <;> rfl⟩

/-! ### one call -/

section
variable {cfg : Cfg} {L : Laws I cfg.uniq cfg.keep} {s : St K V C} {a : ASt K V}

/-- the statement for one call -/
def Ok (L : Laws I cfg.uniq cfg.keep) (s : St K V C) (a : ASt K V) (op : Op K V) : Prop :=
  ∃ s' b a', step I cfg s op = some (s', b) ∧ SpecNode.Step cfg a op b a' ∧ R L s' a'

theorem give_none_iff {own : Nat → Option Owner} {o p : Owner} {i : Nat} :
    give own o none i = some p ↔ own i = some p ∧ p ≠ o := by
  unfold give; split
  · rename_i h; rw [h]; simp only [reduceCtorEq, Option.some.injEq, ne_eq, false_iff, not_and, not_not]; exact fun e => e.symm
  · rename_i h
    constructor
    · intro h1; exact ⟨h1, fun e => h (e ▸ h1)⟩
    · exact And.left

theorem step_construct (h : R L s a) {c : Nat} {hash : K → Nat} {eq : K → K → Bool} {al : Nat} (hp : Spec.Lawful hash eq) :
    Ok L s a (.construct c hash eq al) := by
  obtain ⟨l, h1, h2⟩ := L.destroy _ (h.c c).inv
  obtain ⟨m, h3, h4⟩ := (h.c c).freeElems h.m h2
  obtain ⟨n1, n2, n3, n4⟩ := L.new_ hash eq al hp
  refine ⟨_, _, _, by simp only [step, h1, h3]; rfl, ⟨rfl, rfl⟩, fun d => ?_, fun g => ?_, ?_⟩
  · by_cases hd : d = c
    · subst hd
      refine ⟨by simpa only [upd_eq] using n1, by simpa only [upd_eq] using n2, by simpa only [upd_eq] using n3, ?_, ?_⟩
      · simp only [upd_eq, n4]; exact List.nodup_nil
      · intro k i; simp only [upd_eq, n4, List.not_mem_nil, false_iff, give_none_iff]; simp
    · simp only [upd_ne _ _ hd]
      refine (h.c d).congr (by simp only [upd_ne _ _ hd]) (by simp only [upd_ne _ _ hd]) (fun i => ?_) (fun _ _ => rfl)
      simp only [give_none_iff]; simp [hd]
  · exact (h.h g).congr rfl (fun i => by simp only [give_none_iff]; simp)
  · refine h4.congr (fun _ hi => hi) (fun i o hi => ⟨o, hi, rfl, ?_⟩)
    have := give_none_iff.1 hi
    cases o with
    | cont d =>
      have hd : d ≠ c := fun e => this.2 (by rw [e])
      simp only [ownerAl, upd_ne _ _ hd]
    | hand _ => rfl

theorem step_emplace (h : R L s a) (c : Nat) (x : K × V) : Ok L s a (.emplace c x) := by
  obtain ⟨t', b, e1, e2, e3, e4, e5⟩ := L.emplace (s.c c) (x.1, s.m.next) (h.c c).inv
  have hal := (h.c c).al
  rcases e5 with ⟨rfl, hu, hp, e, he, hk⟩ | ⟨rfl, hp, hab⟩
  · obtain ⟨m', g1, g2⟩ := h.m.new_free c x
    refine ⟨{ s with m := m', c := upd s.c c t' }, false, a, ?_, .inl ⟨hu, (h.c c).present he hk, rfl, rfl⟩, fun d => ?_, h.h, g2⟩
    · simp only [step]; simp only [Heap.new_] at g1 ⊢; rw [e1]; simp only [hal]; rw [g1]; rfl
    · by_cases hd : d = c
      · subst hd; simp only [upd_eq]
        exact (h.c d).perm e2 (e3.trans (h.c d).eq) (e4.trans hal) hp (fun _ => Iff.rfl) (fun _ _ => rfl)
      · simp only [upd_ne _ _ hd]; exact h.c d
  · have hfr : a.own s.m.next = none := h.m.own_lt
    refine ⟨{ s with m := (s.m.new_ (a.al c) x).1, c := upd s.c c t' }, true, _, ?_,
      .inr ⟨fun hu => ((h.c c).absent _).2 (hab hu), rfl, s.m.next, hfr, rfl⟩, fun d => ?_, fun g => ?_, h.m.new_ c x⟩
    · simp only [step, Heap.new_]; rw [e1]; simp only [hal]
    · by_cases hd : d = c
      · subst hd; simp only [upd_eq]
        refine (h.c d).add (a' := { a with own := upd a.own s.m.next (some (.cont d)), elem := upd a.elem s.m.next x })
          e2 (e3.trans (h.c d).eq) (e4.trans hal) hp (by rw [hfr]; simp) (fun j => ?_) (fun j hj => ?_) (by simp [upd_eq])
        · by_cases hj : j = s.m.next
          · simp [hj, upd_eq]
          · simp [hj, upd_ne]
        · have : j ≠ s.m.next := fun e => by rw [e, hfr] at hj; cases hj
          simp [upd_ne, this]
      · simp only [upd_ne _ _ hd]
        refine (h.c d).congr rfl rfl (fun j => ?_) (fun j hj => ?_)
        · by_cases hj : j = s.m.next
          · simp only [hj, upd_eq, hfr]; simp [Ne.symm hd]
          · simp [hj, upd_ne]
        · have : j ≠ s.m.next := fun e => by rw [e, hfr] at hj; cases hj
          simp [upd_ne, this]
    · refine (h.h g).congr rfl (fun j => ?_)
      by_cases hj : j = s.m.next
      · simp only [hj, upd_eq, hfr]; simp
      · simp [hj, upd_ne]

theorem step_erase (h : R L s a) (c : Nat) (k : K) : Ok L s a (.erase c k) := by
  obtain ⟨t', l, e1, e2, e3, e4, e5, e6, e7⟩ := L.erase (s.c c) k (h.c c).inv
  have hal := (h.c c).al
  obtain ⟨hn, hids⟩ := (h.c c).ids e5
  rw [List.map_append] at hids hn
  have hl : ∀ i, i ∈ l.map Prod.snd ↔ a.own i = some (.cont c) ∧ a.eq c k (a.elem i).1 = true := by
    intro i; constructor
    · intro hi
      obtain ⟨⟨k', j⟩, hj, rfl⟩ := List.mem_map.1 hi
      have := ((h.c c).mem k' j).1 (e5.mem_iff.2 (List.mem_append_left _ hj))
      refine ⟨this.1, ?_⟩
      rw [this.2, ← (h.c c).eq]; exact e6 _ hj
    · rintro ⟨h1, h2⟩
      have := e5.mem_iff.1 (((h.c c).mem _ i).2 ⟨h1, rfl⟩)
      rcases List.mem_append.1 this with h3 | h3
      · exact List.mem_map.2 ⟨_, h3, rfl⟩
      · have := e7 _ h3; rw [(h.c c).eq, h2] at this; cases this
  obtain ⟨m', g1, g2⟩ := RM.freeAll (a := a) (o := .cont c) (l.map Prod.snd) h.m (List.nodup_append.1 hn).1 (fun i hi => ((hl i).1 hi).1)
  have hown : (fun i => if a.own i = some (.cont c) ∧ a.eq c k (a.elem i).1 = true then none else a.own i) =
      fun i => if i ∈ l.map Prod.snd then none else a.own i := by
    funext i; simp only [hl]
  refine ⟨{ s with m := m', c := upd s.c c t' }, true, _, ?_, ⟨rfl, rfl⟩, fun d => ?_, fun g => ?_, ?_⟩
  · simp only [step, e1, freeElems, hal]; rw [show a.al c = ownerAl a (.cont c) from rfl, g1]; rfl
  · simp only [hown]
    by_cases hd : d = c
    · subst hd; simp only [upd_eq]
      refine (h.c d).remove e2 (e3.trans (h.c d).eq) (e4.trans hal) e5 (fun j => ?_) (fun _ _ => rfl)
      by_cases hj : j ∈ l.map Prod.snd <;> simp only [hj, if_true, if_false] <;> simp
    · simp only [upd_ne _ _ hd]
      refine (h.c d).congr rfl rfl (fun j => ?_) (fun _ _ => rfl)
      by_cases hj : j ∈ l.map Prod.snd
      · simp only [hj, if_true, ((hl j).1 hj).1]; simp [Ne.symm hd]
      · simp only [hj, if_false]
  · simp only [hown]
    refine (h.h g).congr rfl (fun j => ?_)
    by_cases hj : j ∈ l.map Prod.snd
    · simp only [hj, if_true, ((hl j).1 hj).1]; simp
    · simp only [hj, if_false]
  · simp only [hown]; exact g2

theorem step_clear (h : R L s a) (c : Nat) : Ok L s a (.clear c) := by
  obtain ⟨t', l, e1, e2, e3, e4, e5, e6⟩ := L.clear (s.c c) (h.c c).inv
  obtain ⟨m', g1, g2⟩ := (h.c c).freeElems h.m e5
  refine ⟨{ s with m := m', c := upd s.c c t' }, true, _, by simp only [step, e1, g1]; rfl, ⟨rfl, rfl⟩, fun d => ?_, fun g => ?_, g2⟩
  · by_cases hd : d = c
    · subst hd; simp only [upd_eq]
      exact ⟨e2, e3.trans (h.c d).eq, e4.trans (h.c d).al, by rw [e6]; exact List.nodup_nil, fun k i => by
        rw [e6]; simp only [List.not_mem_nil, false_iff, give_none_iff]; simp⟩
    · simp only [upd_ne _ _ hd]
      refine (h.c d).congr rfl rfl (fun i => ?_) (fun _ _ => rfl)
      simp only [give_none_iff]; simp [hd]
  · exact (h.h g).congr rfl (fun i => by simp only [give_none_iff]; simp)

theorem RH.mk_none {x : Hnd} {a : ASt K V} {g : Nat} (hx : x.p = none) (ha : x.a = a.hal g)
    (ho : ∀ i, a.own i ≠ some (.hand g)) (hk : kp = false → a.hal g = none) : RH kp x a g :=
  ⟨fun i => by rw [hx]; simp [ho i], ha, by rw [hx]; simp, fun h1 h2 => by rw [ha, hk h1] at h2; cases h2⟩

theorem RH.mk_some {x : Hnd} {a : ASt K V} {g i al : Nat} (hx : x.p = some i) (ha : x.a = some al) (hh : a.hal g = some al)
    (ho : ∀ j, a.own j = some (.hand g) ↔ j = i) : RH kp x a g :=
  ⟨fun j => by rw [hx, ho]; constructor <;> (intro h; cases h; rfl), ha.trans hh.symm, by simp [ha], by simp [hx]⟩

/-- a handle empty in the sense of the specification -/
theorem RH.empty_iff {x : Hnd} {a : ASt K V} {g : Nat} (h : RH kp x a g) : SpecNode.Empty a g ↔ x.p = none := by
  constructor
  · intro h1
    cases hp : x.p with
    | none => rfl
    | some i => exact absurd ((h.ptr i).1 hp) (h1 i)
  · exact h.empty

theorem step_extract (h : R L s a) (c g : Nat) (k : K) : Ok L s a (.extract c g k) := by
  obtain ⟨t', r, e1, e2, e3, e4, e5⟩ := L.extract (s.c c) k (h.c c).inv
  have hal := (h.c c).al
  obtain ⟨m', g1, g2⟩ := hDestroy_ok cfg (h.h g) h.m
  have hof := hOfExtract_ok cfg (I.al t') (r.map Prod.snd)
  have hstep : ∀ a', SpecNode.Step cfg a (.extract c g k) r.isSome a' →
      R L { s with m := m', c := upd s.c c t', h := upd s.h g ⟨r.map Prod.snd, if (r.map Prod.snd).isSome = true ∨ cfg.keep = true then some (I.al t') else none⟩ } a' →
      Ok L s a (.extract c g k) := by
    intro a' h1 h2
    refine ⟨_, _, a', ?_, h1, h2⟩
    simp only [step, e1, hof, putHandle]; rw [g1]; rfl
  rcases e5 with ⟨⟨k', i⟩, rfl, hp, hk⟩ | ⟨rfl, hp, hab⟩
  · have hmem := ((h.c c).mem k' i).1 (hp.mem_iff.2 (by simp))
    refine hstep _ (.inr ⟨rfl, i, hmem.1, by rw [hmem.2, ← (h.c c).eq]; exact hk, rfl⟩) ⟨fun d => ?_, fun g' => ?_, ?_⟩
    · by_cases hd : d = c
      · subst hd; simp only [upd_eq]
        refine (h.c d).remove (l := [(k', i)]) e2 (e3.trans (h.c d).eq) (e4.trans hal) hp (fun j => ?_) (fun _ _ => rfl)
        by_cases hj : j = i
        · simp [hj, upd_eq]
        · simp only [upd_ne _ _ hj, give_none_iff]; simp [hj]
      · simp only [upd_ne _ _ hd]
        refine (h.c d).congr rfl rfl (fun j => ?_) (fun _ _ => rfl)
        by_cases hj : j = i
        · subst hj; simp only [upd_eq, hmem.1]; simp [Ne.symm hd]
        · simp only [upd_ne _ _ hj, give_none_iff]; simp
    · by_cases hg : g' = g
      · subst hg; simp only [upd_eq]
        refine RH.mk_some (i := i) (al := a.al c) rfl (by simp [e4, hal]) (by simp [upd_eq]) (fun j => ?_)
        by_cases hj : j = i
        · simp [hj, upd_eq]
        · simp only [upd_ne _ _ hj, give_none_iff]; simp [hj]
      · simp only [upd_ne _ _ hg]
        refine (h.h g').congr (by simp [upd_ne, hg]) (fun j => ?_)
        by_cases hj : j = i
        · subst hj; simp only [upd_eq, hmem.1]; simp [Ne.symm hg]
        · simp only [upd_ne _ _ hj, give_none_iff]; simp [hg]
    · refine g2.congr (fun j hj => ?_) (fun j o hj => ?_)
      · have : j ≠ i := by
          rintro rfl; simp only [give, hmem.1] at hj; simp at hj
        simp only [upd_ne _ _ this]; exact hj
      · have ho := give_none_iff.1 hj
        by_cases hji : j = i
        · subst hji
          rw [hmem.1] at ho; cases ho.1
          exact ⟨.hand g, by simp [upd_eq], rfl, by simp [ownerAl, upd_eq]⟩
        · refine ⟨o, by simp only [upd_ne _ _ hji]; exact hj, rfl, ?_⟩
          cases o with
          | cont _ => rfl
          | hand g' =>
            have : g' ≠ g := fun e => ho.2 (by rw [e])
            simp [ownerAl, upd_ne, this]
  · refine hstep _ (.inl ⟨((h.c c).absent _).2 hab, rfl, rfl⟩) ⟨fun d => ?_, fun g' => ?_, ?_⟩
    · by_cases hd : d = c
      · subst hd; simp only [upd_eq]
        exact (h.c d).perm e2 (e3.trans (h.c d).eq) (e4.trans hal) hp (fun j => by simp only [give_none_iff]; simp) (fun _ _ => rfl)
      · simp only [upd_ne _ _ hd]
        exact (h.c d).congr rfl rfl (fun j => by simp only [give_none_iff]; simp) (fun _ _ => rfl)
    · by_cases hg : g' = g
      · subst hg; simp only [upd_eq]
        refine RH.mk_none rfl ?_ (fun j => by simp only [ne_eq, give_none_iff]; simp) ?_
        · simp only [upd_eq, Option.map_none, Option.isSome_none, Bool.false_eq_true, false_or, e4, hal]
        · intro hk; simp [upd_eq, hk]
      · simp only [upd_ne _ _ hg]
        exact (h.h g').congr (by simp [upd_ne, hg]) (fun j => by simp only [give_none_iff]; simp [hg])
    · refine g2.congr (fun j hj => hj) (fun j o hj => ⟨o, hj, rfl, ?_⟩)
      have ho := give_none_iff.1 hj
      cases o with
      | cont _ => rfl
      | hand g' =>
        have : g' ≠ g := fun e => ho.2 (by rw [e])
        simp [ownerAl, upd_ne, this]

/-- a node goes from a handle to a container -/
theorem handToCont (h : R L s a) {c g i : Nat} (hg : (s.h g).p = some i) (hp : a.hal g = some (a.al c)) {t' : C} {k : K}
    (hk : (a.elem i).1 = k)
    (e2 : L.Inv t') (e3 : L.eq t' = L.eq (s.c c)) (e4 : I.al t' = I.al (s.c c))
    (e5 : (L.contents t').Perm ((k, i) :: L.contents (s.c c))) :
    R L { s with c := upd s.c c t', h := upd s.h g ⟨none, if cfg.keep then (s.h g).a else none⟩ }
      { a with own := upd a.own i (some (.cont c)), hal := if cfg.keep then a.hal else upd a.hal g none } := by
  have hi := ((h.h g).ptr i).1 hg
  have hs := (h.h g).single hg
  refine ⟨fun d => ?_, fun g' => ?_, ?_⟩
  · by_cases hd : d = c
    · subst hd; simp only [upd_eq]
      refine (h.c d).add e2 (e3.trans (h.c d).eq) (e4.trans (h.c d).al) e5 (by rw [hi]; simp) (fun j => ?_) (fun _ _ => rfl) hk
      by_cases hj : j = i
      · simp [hj, upd_eq]
      · simp [hj, upd_ne]
    · simp only [upd_ne _ _ hd]
      refine (h.c d).congr rfl rfl (fun j => ?_) (fun _ _ => rfl)
      by_cases hj : j = i
      · subst hj; simp only [upd_eq, hi]; simp [Ne.symm hd]
      · simp [hj, upd_ne]
  · by_cases hg' : g' = g
    · subst hg'; simp only [upd_eq]
      refine RH.mk_none rfl ?_ (fun j => ?_) ?_
      · rw [(h.h g').hal]; cases cfg.keep <;> simp [upd_eq]
      · by_cases hj : j = i
        · simp [hj, upd_eq]
        · simp only [upd_ne _ _ hj, ne_eq, hs]; exact hj
      · intro hk; simp [hk, upd_eq]
    · simp only [upd_ne _ _ hg']
      refine (h.h g').congr (by cases cfg.keep <;> simp [upd_ne, hg']) (fun j => ?_)
      by_cases hj : j = i
      · subst hj; simp only [upd_eq, hi]; simp [Ne.symm hg']
      · simp [hj, upd_ne]
  · refine h.m.congr (fun j hj => ?_) (fun j o hj => ?_)
    · have : j ≠ i := by rintro rfl; rw [hi] at hj; cases hj
      simp only [upd_ne _ _ this]; exact hj
    · by_cases hji : j = i
      · subst hji; rw [hi] at hj; cases hj
        exact ⟨.cont c, by simp [upd_eq], rfl, by simp [ownerAl, hp]⟩
      · refine ⟨o, by simp only [upd_ne _ _ hji]; exact hj, rfl, ?_⟩
        cases o with
        | cont _ => rfl
        | hand g' =>
          have : g' ≠ g := fun e => hji ((hs j).1 (by rw [hj, e]))
          cases cfg.keep <;> simp [ownerAl, upd_ne, this]

theorem R.hcell (h : R L s a) {g i : Nat} (hg : (s.h g).p = some i) :
    s.m.cell i = some (a.elem i, ownerAl a (.hand g)) := by
  rw [h.m.cell, ((h.h g).ptr i).1 hg]; rfl

theorem step_insertHint (h : R L s a) {c n g : Nat} (hn : SpecNode.AtMost a c n)
    (hp : SpecNode.Empty a g ∨ a.hal g = some (a.al c)) : Ok L s a (.insertHint c n g) := by
  cases hg : (s.h g).p with
  | none =>
    exact ⟨s, false, a, by simp only [step, insertNodeHint, hg], .inl ⟨(h.h g).empty_iff.2 hg, rfl, rfl⟩, h⟩
  | some i =>
    have hi := ((h.h g).ptr i).1 hg
    have hp : a.hal g = some (a.al c) := hp.resolve_left (fun he => he i hi)
    have hle : n ≤ (L.contents (s.c c)).length := by
      obtain ⟨l, l1, l2, l3⟩ := hn
      rw [← l2, ← List.length_map (as := L.contents (s.c c)) Prod.snd]
      exact (List.subperm_of_subset l1 (fun j hj => ((h.c c).ids (List.Perm.refl _)).2 j |>.2 (l3 j hj))).length_le
    have hacc : hAccepts cfg (I.al (s.c c)) (s.h g) = true :=
      hAccepts_ok cfg (by simp [hg]) (by rw [(h.h g).hal, hp, (h.c c).al])
    obtain ⟨t', b, e1, e2, e3, e4, e5⟩ := L.insertHint (s.c c) n ((a.elem i).1, i) (h.c c).inv hle
    have htk := hTaken_ok cfg (x := s.h g) (by rw [(h.h g).hal, hp]; rfl)
    rcases e5 with ⟨rfl, hu, hpm, e, he, hk⟩ | ⟨rfl, hpm, hab⟩
    · refine ⟨{ s with c := upd s.c c t' }, false, a, ?_, .inr (.inl ⟨i, hi, hu, (h.c c).present he hk, rfl, rfl⟩), fun d => ?_, h.h, h.m⟩
      · simp only [step, insertNodeHint, hg, hacc, if_true, h.hcell hg, e1]
      · by_cases hd : d = c
        · subst hd; simp only [upd_eq]
          exact (h.c d).perm e2 (e3.trans (h.c d).eq) (e4.trans (h.c d).al) hpm (fun _ => Iff.rfl) (fun _ _ => rfl)
        · simp only [upd_ne _ _ hd]; exact h.c d
    · refine ⟨_, true, _, ?_, .inr (.inr ⟨i, hi, fun hu => ((h.c c).absent _).2 (hab hu), rfl, rfl⟩), handToCont h hg hp rfl e2 e3 e4 hpm⟩
      simp only [step, insertNodeHint, hg, hacc, if_true, h.hcell hg, e1, htk, Option.map_some]

/-- destroying the handle in `g` and leaving an empty one without allocator -/
theorem resetTo (h : R L s a) (g : Nat) : ∃ m', hDestroy cfg s.m (s.h g) = some m' ∧
    R L { s with m := m', h := upd s.h g .dflt } { a with own := give a.own (.hand g) none, hal := upd a.hal g none } := by
  obtain ⟨m', g1, g2⟩ := hDestroy_ok cfg (h.h g) h.m
  refine ⟨m', g1, fun d => ?_, fun g' => ?_, ?_⟩
  · exact (h.c d).congr rfl rfl (fun j => by simp only [give_none_iff]; simp) (fun _ _ => rfl)
  · by_cases hg : g' = g
    · subst hg; simp only [upd_eq]
      exact RH.mk_none rfl (by simp [upd_eq, Hnd.dflt]) (fun j => by simp only [ne_eq, give_none_iff]; simp) (fun _ => by simp [upd_eq])
    · simp only [upd_ne _ _ hg]
      exact (h.h g').congr (by simp [upd_ne, hg]) (fun j => by simp only [give_none_iff]; simp [hg])
  · refine g2.congr (fun j hj => hj) (fun j o hj => ⟨o, hj, rfl, ?_⟩)
    have ho := give_none_iff.1 hj
    cases o with
    | cont _ => rfl
    | hand g' =>
      have : g' ≠ g := fun e => ho.2 (by rw [e])
      simp [ownerAl, upd_ne, this]

theorem give_give_iff {own : Nat → Option Owner} {g h : Nat} (hgh : g ≠ h) {i : Nat} {p : Owner} :
    give (give own (.hand g) none) (.hand h) (some (.hand g)) i = some p ↔
      (own i = some (.hand h) ∧ p = .hand g) ∨ (own i = some p ∧ p ≠ .hand g ∧ p ≠ .hand h) := by
  have hiff : give own (.hand g) none i = some (.hand h) ↔ own i = some (.hand h) := by
    rw [give_none_iff]; simp [Ne.symm hgh]
  rw [give]; simp only [hiff]
  by_cases hh : own i = some (.hand h)
  · simp only [hh, if_true, Option.some.injEq, true_and]
    constructor
    · intro e; exact .inl e.symm
    · rintro (e | ⟨e, e1, e2⟩)
      · exact e.symm
      · exact absurd e.symm e2
  · simp only [hh, if_false, false_and, false_or, give_none_iff]
    constructor
    · rintro ⟨e1, e2⟩; exact ⟨e1, e2, fun e => hh (e ▸ e1)⟩
    · rintro ⟨e1, e2, _⟩; exact ⟨e1, e2⟩

/-- the handle in `g` loses its node, takes over the contents of `h`; `h` is left empty with allocator `w` -/
theorem moveTo (h : R L s a) {g h0 : Nat} (hgh : g ≠ h0) {m' : Heap K V}
    (hm : RM m' { a with own := give a.own (.hand g) none }) (w : Option Nat) (hw : cfg.keep = false → w = none) :
    R L { s with m := m', h := upd (upd s.h g (s.h h0)) h0 ⟨none, w⟩ }
      { a with own := give (give a.own (.hand g) none) (.hand h0) (some (.hand g)), hal := upd (upd a.hal g (a.hal h0)) h0 w } := by
  refine ⟨fun d => ?_, fun g' => ?_, ?_⟩
  · exact (h.c d).congr rfl rfl (fun j => by simp only [give_give_iff hgh]; simp) (fun _ _ => rfl)
  · by_cases h1 : g' = h0
    · subst h1; simp only [upd_eq]
      exact RH.mk_none rfl (by simp [upd_eq]) (fun j => by simp only [ne_eq, give_give_iff hgh]; simp [Ne.symm hgh])
        (fun hk => by simp [upd_eq, hw hk])
    · by_cases h2 : g' = g
      · subst h2; simp only [upd_ne _ _ h1, upd_eq]
        refine ⟨fun j => ?_, ?_, (h.h h0).some_, (h.h h0).none_⟩
        · rw [(h.h h0).ptr]; simp only [give_give_iff hgh]; simp
        · simp only [upd_ne _ _ h1, upd_eq]; exact (h.h h0).hal
      · simp only [upd_ne _ _ h1, upd_ne _ _ h2]
        exact (h.h g').congr (by simp [upd_ne, h1, h2]) (fun j => by simp only [give_give_iff hgh]; simp [h1, h2])
  · refine hm.congr (fun j hj => ?_) (fun j o hj => ?_)
    · simp only at hj ⊢; rw [give, hj]; simp
    · have ho := give_none_iff.1 hj
      by_cases hh : o = .hand h0
      · subst hh
        exact ⟨.hand g, (give_give_iff hgh).2 (.inl ⟨ho.1, rfl⟩), rfl, by simp [ownerAl, upd_ne, hgh, upd_eq]⟩
      · refine ⟨o, (give_give_iff hgh).2 (.inr ⟨ho.1, ho.2, hh⟩), rfl, ?_⟩
        cases o with
        | cont _ => rfl
        | hand g' =>
          have h1 : g' ≠ g := fun e => ho.2 (by rw [e])
          have h2 : g' ≠ h0 := fun e => hh (by rw [e])
          simp [ownerAl, upd_ne, h1, h2]

theorem upd_comm {α : Type} (f : Nat → α) {i j : Nat} (hij : i ≠ j) (x y : α) : upd (upd f i x) j y = upd (upd f j y) i x := by
  funext k; simp only [upd]; split_ifs <;> simp_all

theorem upd_upd {α : Type} (f : Nat → α) (i : Nat) (x y : α) : upd (upd f i x) i y = upd f i y := by
  funext k; simp only [upd]; split_ifs <;> rfl

theorem step_moveHandle (h : R L s a) {g h0 : Nat} (hgh : g ≠ h0) : Ok L s a (.moveHandle g h0) := by
  obtain ⟨m', g1, g2⟩ := hDestroy_ok cfg (h.h g) h.m
  refine ⟨_, true, _, ?_, ⟨rfl, rfl⟩, moveTo h hgh g2 none (fun _ => rfl)⟩
  simp only [step, hMoveCtor_ok cfg (h.h h0), putHandle, upd_ne _ _ hgh, g1, Option.map_some]
  rw [upd_comm _ (Ne.symm hgh)]; rfl

theorem step_assignHandle (h : R L s a) {g h0 : Nat}
    (hp : a.hal g = none ∨ cfg.pocma = true ∨ a.hal g = a.hal h0 ∨ (cfg.keep = false ∧ a.hal h0 = none)) :
    Ok L s a (.assignHandle g h0) := by
  by_cases hgh : g = h0
  · subst hgh
    obtain ⟨m', g1, g2⟩ := hAssignSelf_ok cfg (h.h g) h.m
    refine ⟨_, true, _, by simp only [step, if_true, g1, Option.map_some]; rfl, ⟨rfl, rfl⟩, ?_⟩
    simp only [if_true]
    refine ⟨fun d => ?_, fun g' => ?_, ?_⟩
    · exact (h.c d).congr rfl rfl (fun j => by simp only [give_none_iff]; simp) (fun _ _ => rfl)
    · by_cases hg : g' = g
      · subst hg; simp only [upd_eq]
        refine RH.mk_none rfl ?_ (fun j => by simp only [ne_eq, give_none_iff]; simp) (fun hk => ?_)
        · simp only [(h.h g').hal]; split_ifs <;> simp [upd_eq]
        · simp [hk, upd_eq]
      · simp only [upd_ne _ _ hg]
        exact (h.h g').congr (by simp only []; split_ifs <;> simp [upd_ne, hg]) (fun j => by simp only [give_none_iff]; simp [hg])
    · refine g2.congr (fun j hj => hj) (fun j o hj => ⟨o, hj, rfl, ?_⟩)
      have ho := give_none_iff.1 hj
      cases o with
      | cont _ => rfl
      | hand g' =>
        have : g' ≠ g := fun e => ho.2 (by rw [e])
        simp only [ownerAl]; split_ifs <;> simp [upd_ne, this]
  · obtain ⟨m', g1, g2⟩ := hAssign_ok cfg (h.h g) (h.h h0) h.m hp
    refine ⟨_, true, _, by simp only [step, if_neg hgh, g1, Option.map_some]; rfl, ⟨rfl, rfl⟩, ?_⟩
    simp only [if_neg hgh]
    have := moveTo h hgh g2 (if cfg.keep = true ∧ a.hal g ≠ none ∧ cfg.pocma = false then a.hal h0 else none) (fun hk => by simp [hk])
    rw [(h.h g).hal, (h.h h0).hal]
    exact this

theorem step_resetHandle (h : R L s a) (g : Nat) : Ok L s a (.resetHandle g) := by
  obtain ⟨m', h1, h2⟩ := resetTo h g
  exact ⟨_, true, _, by simp only [step, putHandle, h1, Option.map_some], ⟨rfl, rfl⟩, h2⟩

theorem exchange_iff {own : Nat → Option Owner} {a b p : Owner} {i : Nat} : exchange own a b i = some p ↔
    (own i = some a ∧ p = b) ∨ (own i = some b ∧ p = a) ∨ (own i = some p ∧ p ≠ a ∧ p ≠ b) := by
  unfold exchange
  by_cases h1 : own i = some a
  · simp only [h1, if_true, Option.some.injEq, true_and]
    constructor
    · intro e; exact .inl e.symm
    · rintro (e | ⟨e1, e2⟩ | ⟨e1, e2, e3⟩)
      · exact e.symm
      · rw [e2, e1]
      · exact absurd e1.symm e2
  · by_cases h2 : own i = some b
    · simp only [h2, if_true, Option.some.injEq, true_and]
      have hba : ¬ b = a := fun e => h1 (e ▸ h2)
      simp only [hba, if_false, false_and, false_or, Option.some.injEq]
      constructor
      · intro e; exact .inl e.symm
      · rintro (e | ⟨e1, e2, e3⟩)
        · exact e.symm
        · exact absurd e1.symm e3
    · simp only [h1, h2, if_false, false_and, false_or]
      constructor
      · intro e; exact ⟨e, fun e1 => h1 (e1 ▸ e), fun e1 => h2 (e1 ▸ e)⟩
      · exact And.left

theorem exchange_none {own : Nat → Option Owner} {a b : Owner} {i : Nat} (h : own i = none) : exchange own a b i = none := by
  simp [exchange, h]

theorem step_swapHandles (h : R L s a) {g h0 : Nat}
    (hp : a.hal g = none ∨ a.hal h0 = none ∨ cfg.pocs = true ∨ a.hal g = a.hal h0) : Ok L s a (.swapHandles g h0) := by
  by_cases hgh : g = h0
  · subst hgh
    refine ⟨s, true, _, by simp only [step, if_true], ⟨rfl, rfl⟩, ?_⟩
    have e1 : exchange a.own (.hand g) (.hand g) = a.own := by
      funext i; unfold exchange; split_ifs <;> simp_all
    have e2 : upd (upd a.hal g (a.hal g)) g (a.hal g) = a.hal := by
      funext i; simp only [upd]; split_ifs <;> simp_all
    simp only [e1, e2]; exact h
  · refine ⟨_, true, _, by simp only [step, if_neg hgh, hSwap_ok cfg (h.h g) (h.h h0) hp, Option.map_some]; rfl, ⟨rfl, rfl⟩,
      fun d => ?_, fun g' => ?_, ?_⟩
    · exact (h.c d).congr rfl rfl (fun j => by simp only [exchange_iff]; simp) (fun _ _ => rfl)
    · by_cases h1 : g' = h0
      · subst h1; simp only [upd_eq]
        refine ⟨fun j => ?_, by simp only [upd_eq]; exact (h.h g).hal, (h.h g).some_, (h.h g).none_⟩
        rw [(h.h g).ptr]; simp only [exchange_iff]; simp [Ne.symm hgh]
      · by_cases h2 : g' = g
        · subst h2; simp only [upd_ne _ _ h1, upd_eq]
          refine ⟨fun j => ?_, by simp only [upd_ne _ _ h1, upd_eq]; exact (h.h h0).hal, (h.h h0).some_, (h.h h0).none_⟩
          rw [(h.h h0).ptr]; simp only [exchange_iff]; simp [h1]
        · simp only [upd_ne _ _ h1, upd_ne _ _ h2]
          exact (h.h g').congr (by simp [upd_ne, h1, h2]) (fun j => by simp only [exchange_iff]; simp [h1, h2])
    · refine h.m.congr (fun j hj => exchange_none hj) (fun j o hj => ?_)
      by_cases h1 : o = .hand g
      · subst h1
        exact ⟨.hand h0, exchange_iff.2 (.inl ⟨hj, rfl⟩), rfl, by simp [ownerAl, upd_eq]⟩
      · by_cases h2 : o = .hand h0
        · subst h2
          exact ⟨.hand g, exchange_iff.2 (.inr (.inl ⟨hj, rfl⟩)), rfl, by simp [ownerAl, upd_ne, hgh, upd_eq]⟩
        · refine ⟨o, exchange_iff.2 (.inr (.inr ⟨hj, h1, h2⟩)), rfl, ?_⟩
          cases o with
          | cont _ => rfl
          | hand g' =>
            have h3 : g' ≠ g := fun e => h1 (by rw [e])
            have h4 : g' ≠ h0 := fun e => h2 (by rw [e])
            simp [ownerAl, upd_ne, h3, h4]

theorem step_insert (h : R L s a) {c h0 g : Nat} (hgh : h0 ≠ g) (hp : SpecNode.Empty a h0 ∨ a.hal h0 = some (a.al c)) :
    Ok L s a (.insert c h0 g) := by
  cases hg : (s.h h0).p with
  | none =>
    have he := (h.h h0).empty_iff.2 hg
    cases hu : cfg.uniq with
    | false =>
      refine ⟨s, false, a, by simp only [step, insertNode, hg, hu, Bool.false_eq_true, if_false], .inl ⟨he, rfl, ?_⟩, h⟩
      simp [hu]
    | true =>
      obtain ⟨m', h1, h2⟩ := resetTo h g
      refine ⟨_, false, _, by simp only [step, insertNode, hg, hu, if_true, putHandle, h1, Option.map_some]; rfl,
        .inl ⟨he, rfl, rfl⟩, ?_⟩
      simp only [hu, if_true]; exact h2
  | some i =>
    have hi := ((h.h h0).ptr i).1 hg
    have hsg := (h.h h0).single hg
    have hp : a.hal h0 = some (a.al c) := hp.resolve_left (fun he => he i hi)
    have hacc : hAccepts cfg (I.al (s.c c)) (s.h h0) = true :=
      hAccepts_ok cfg (by simp [hg]) (by rw [(h.h h0).hal, hp, (h.c c).al])
    obtain ⟨t', b, e1, e2, e3, e4, e5⟩ := L.insertNode (s.c c) ((a.elem i).1, i) (h.c c).inv
    have htk := hTaken_ok cfg (x := s.h h0) (by rw [(h.h h0).hal, hp]; rfl)
    rcases e5 with ⟨rfl, hu, hpm, e, he, hk⟩ | ⟨rfl, hpm, hab⟩
    · obtain ⟨m', g1, g2⟩ := hDestroy_ok cfg (h.h g) h.m
      have h0c : R L { s with c := upd s.c c t' } a := ⟨fun d => by
        by_cases hd : d = c
        · subst hd; simp only [upd_eq]
          exact (h.c d).perm e2 (e3.trans (h.c d).eq) (e4.trans (h.c d).al) hpm (fun _ => Iff.rfl) (fun _ _ => rfl)
        · simp only [upd_ne _ _ hd]; exact h.c d, h.h, h.m⟩
      refine ⟨{ s with m := m', c := upd s.c c t', h := upd (upd s.h g (s.h h0)) h0 ⟨none, none⟩ }, false, _, ?_,
        .inr (.inl ⟨i, hi, hu, (h.c c).present he hk, rfl, rfl⟩), ?_⟩
      · simp only [step, insertNode, hg, hacc, if_true, h.hcell hg, e1, hRefused_ok cfg (h.h h0), Option.map_some, hu, putHandle,
          upd_ne _ _ (Ne.symm hgh), g1]
        rw [upd_comm _ hgh]; rfl
      · have := moveTo h0c (Ne.symm hgh) g2 none (fun _ => rfl)
        have ho : upd (give a.own (.hand g) none) i (some (.hand g)) =
            give (give a.own (.hand g) none) (.hand h0) (some (.hand g)) := by
          rw [give_single (o := .hand h0) (i := i)]; intro j; rw [give_none_iff, hsg]; simp [hgh]
        simp only [hu, if_true, upd_upd, ho]
        exact this
    · have hR := handToCont h hg hp rfl e2 e3 e4 hpm
      cases hu : cfg.uniq with
      | false =>
        refine ⟨_, true, _, by simp only [step, insertNode, hg, hacc, if_true, h.hcell hg, e1, htk, Option.map_some, hu, Bool.false_eq_true, if_false]; rfl,
          .inr (.inr ⟨i, hi, (fun hu' => by rw [hu] at hu'; cases hu'), rfl, rfl⟩), ?_⟩
        simp only [hu, Bool.false_eq_true, if_false]; exact hR
      | true =>
        obtain ⟨m', h1, h2⟩ := resetTo hR g
        refine ⟨_, true, _, by simp only [step, insertNode, hg, hacc, if_true, h.hcell hg, e1, htk, Option.map_some, hu, putHandle]; rw [h1]; rfl,
          .inr (.inr ⟨i, hi, fun hu' => ((h.c c).absent _).2 (hab hu'), rfl, rfl⟩), ?_⟩
        have ho : upd (give a.own (.hand g) none) i (some (.cont c)) = give (upd a.own i (some (.cont c))) (.hand g) none := by
          funext j
          by_cases hj : j = i
          · subst hj; simp [upd_eq, give]
          · simp [upd_ne, hj, give]
        have hh : (if cfg.keep = true then upd a.hal g none else upd (upd a.hal g none) h0 none) =
            upd (if cfg.keep = true then a.hal else upd a.hal h0 none) g none := by
          split_ifs
          · rfl
          · exact upd_comm _ (Ne.symm hgh) _ _
        simp only [hu, if_true, ho, hh]
        exact h2

theorem step_write (h : R L s a) (g : Nat) (f : K × V → K × V) :
    (∀ i, (s.h g).p = some i → ∃ m', s.m.write i f = some m' ∧ R L { s with m := m' } (SpecNode.setElem a g f)) ∧
    ((s.h g).p = none → R L s (SpecNode.setElem a g f)) := by
  constructor
  · intro i hg
    have hs := (h.h g).single hg
    have hi := ((h.h g).ptr i).1 hg
    have hc := h.hcell hg
    refine ⟨{ s.m with cell := upd s.m.cell i (some (f (a.elem i), ownerAl a (.hand g))) }, by simp [Heap.write, hc], fun d => ?_, fun g' => ?_, ?_⟩
    · refine (h.c d).congr rfl rfl (fun _ => Iff.rfl) (fun j hj => ?_)
      have : ¬ a.own j = some (.hand g) := by rw [hj]; simp
      simp [SpecNode.setElem, this]
    · exact (h.h g').congr rfl (fun _ => Iff.rfl)
    · refine ⟨fun j => ?_, h.m.fresh, h.m.freed, h.m.once⟩
      by_cases hj : j = i
      · subst hj; simp [upd_eq, SpecNode.setElem, hi, ownerAl]
      · have : ¬ a.own j = some (.hand g) := fun e => hj ((hs j).1 e)
        simp only [upd_ne _ _ hj, SpecNode.setElem, this, if_false, h.m.cell j]
        cases a.own j with
        | none => rfl
        | some o => cases o <;> rfl
  · intro hg
    have : SpecNode.setElem a g f = a := by
      have he := (h.h g).empty hg
      simp [SpecNode.setElem, he]
    rw [this]; exact h

theorem step_setKey (h : R L s a) (g : Nat) (k : K) : Ok L s a (.setKey g k) := by
  obtain ⟨h1, h2⟩ := step_write h g (fun e => (k, e.2))
  cases hg : (s.h g).p with
  | none => exact ⟨s, true, _, by simp only [step, hg], ⟨rfl, rfl⟩, h2 hg⟩
  | some i =>
    obtain ⟨m', h3, h4⟩ := h1 i hg
    exact ⟨_, true, _, by simp only [step, hg, h3, Option.map_some], ⟨rfl, rfl⟩, h4⟩

theorem step_setMapped (h : R L s a) (g : Nat) (v : V) : Ok L s a (.setMapped g v) := by
  obtain ⟨h1, h2⟩ := step_write h g (fun e => (e.1, v))
  cases hg : (s.h g).p with
  | none => exact ⟨s, true, _, by simp only [step, hg], ⟨rfl, rfl⟩, h2 hg⟩
  | some i =>
    obtain ⟨m', h3, h4⟩ := h1 i hg
    exact ⟨_, true, _, by simp only [step, hg, h3, Option.map_some], ⟨rfl, rfl⟩, h4⟩

theorem step_swap (h : R L s a) {c d : Nat} (hp : cfg.pocs = true ∨ a.al c = a.al d) : Ok L s a (.swap c d) := by
  by_cases hcd : c = d
  · subst hcd
    refine ⟨s, true, _, by simp only [step, if_true], ⟨rfl, rfl⟩, ?_⟩
    have e1 : exchange a.own (.cont c) (.cont c) = a.own := by
      funext i; unfold exchange; split_ifs <;> simp_all
    have e2 : ∀ {α : Type} (f : Nat → α), upd (upd f c (f c)) c (f c) = f := by
      intro α f; funext i; simp only [upd]; split_ifs <;> simp_all
    simp only [e1, e2]; exact h
  · obtain ⟨t', x', e1, e2, e3, e4, e5, e6, e7, e8, e9⟩ := L.swap cfg.pocs (s.c c) (s.c d) (h.c c).inv (h.c d).inv
      (by rw [(h.c c).al, (h.c d).al]; exact hp)
    refine ⟨_, true, _, by simp only [step, if_neg hcd, e1, Option.map_some]; rfl, ⟨rfl, rfl⟩, fun r => ?_, fun g => ?_, ?_⟩
    · by_cases h1 : r = d
      · subst h1; simp only [upd_eq]
        refine ⟨e3, by simp only [upd_eq]; exact e5.trans (h.c c).eq, by simp only [upd_eq]; exact e7.trans (h.c c).al,
          (e9.map _).nodup_iff.2 (h.c c).nodup, fun k i => ?_⟩
        rw [e9.mem_iff, (h.c c).mem]; simp only [exchange_iff]; simp [Ne.symm hcd]
      · by_cases h2 : r = c
        · subst h2; simp only [upd_ne _ _ h1, upd_eq]
          refine ⟨e2, by simp only [upd_ne _ _ h1, upd_eq]; exact e4.trans (h.c d).eq,
            by simp only [upd_ne _ _ h1, upd_eq]; exact e6.trans (h.c d).al, (e8.map _).nodup_iff.2 (h.c d).nodup, fun k i => ?_⟩
          rw [e8.mem_iff, (h.c d).mem]; simp only [exchange_iff]; simp [h1]
        · simp only [upd_ne _ _ h1, upd_ne _ _ h2]
          exact (h.c r).congr (by simp [upd_ne, h1, h2]) (by simp [upd_ne, h1, h2])
            (fun j => by simp only [exchange_iff]; simp [h1, h2]) (fun _ _ => rfl)
    · exact (h.h g).congr rfl (fun j => by simp only [exchange_iff]; simp)
    · refine h.m.congr (fun j hj => exchange_none hj) (fun j o hj => ?_)
      by_cases h1 : o = .cont c
      · subst h1
        exact ⟨.cont d, exchange_iff.2 (.inl ⟨hj, rfl⟩), rfl, by simp [ownerAl, upd_eq]⟩
      · by_cases h2 : o = .cont d
        · subst h2
          exact ⟨.cont c, exchange_iff.2 (.inr (.inl ⟨hj, rfl⟩)), rfl, by simp [ownerAl, upd_ne, hcd, upd_eq]⟩
        · refine ⟨o, exchange_iff.2 (.inr (.inr ⟨hj, h1, h2⟩)), rfl, ?_⟩
          cases o with
          | hand _ => rfl
          | cont r =>
            have h3 : r ≠ c := fun e => h1 (by rw [e])
            have h4 : r ≠ d := fun e => h2 (by rw [e])
            simp [ownerAl, upd_ne, h3, h4]

theorem give_give_cont {own : Nat → Option Owner} {g h : Nat} (hgh : g ≠ h) {i : Nat} {p : Owner} :
    give (give own (.cont g) none) (.cont h) (some (.cont g)) i = some p ↔
      (own i = some (.cont h) ∧ p = .cont g) ∨ (own i = some p ∧ p ≠ .cont g ∧ p ≠ .cont h) := by
  have hiff : give own (.cont g) none i = some (.cont h) ↔ own i = some (.cont h) := by
    rw [give_none_iff]; simp [Ne.symm hgh]
  rw [give]; simp only [hiff]
  by_cases hh : own i = some (.cont h)
  · simp only [hh, if_true, Option.some.injEq, true_and]
    constructor
    · intro e; exact .inl e.symm
    · rintro (e | ⟨e, e1, e2⟩)
      · exact e.symm
      · exact absurd e.symm e2
  · simp only [hh, if_false, false_and, false_or, give_none_iff]
    constructor
    · rintro ⟨e1, e2⟩; exact ⟨e1, e2, fun e => hh (e ▸ e1)⟩
    · rintro ⟨e1, e2, _⟩; exact ⟨e1, e2⟩

theorem step_moveAssign (h : R L s a) {c d : Nat} (hp : cfg.pocma = true ∨ a.al c = a.al d) : Ok L s a (.moveAssign c d) := by
  by_cases hcd : c = d
  · subst hcd
    exact ⟨s, true, a, by simp only [step, if_true], ⟨rfl, by simp⟩, h⟩
  · obtain ⟨t', x', l, e1, e2, e3, e4, e5, e6, e7, e8, e9, e10⟩ := L.moveAssign cfg.pocma (s.c c) (s.c d) (h.c c).inv (h.c d).inv
      (by rw [(h.c c).al, (h.c d).al]; exact hp)
    obtain ⟨m', g1, g2⟩ := (h.c c).freeElems h.m e10
    refine ⟨_, true, _, by simp only [step, if_neg hcd, e1, g1, Option.map_some]; rfl, ⟨rfl, by
      rw [if_neg hcd]; exact ⟨L.eq x', by rw [← (h.c c).eq, ← (h.c d).eq]; exact e5, rfl⟩⟩, fun r => ?_, fun g => ?_, ?_⟩
    · by_cases h1 : r = d
      · subst h1; simp only [upd_eq]
        refine ⟨e3, by simp only [upd_eq], by simp only [upd_ne _ _ (Ne.symm hcd)]; exact e7.trans (h.c r).al,
          by rw [e9]; exact List.nodup_nil, fun k i => ?_⟩
        rw [e9]; simp only [List.not_mem_nil, give_give_cont hcd]; simp [Ne.symm hcd]
      · by_cases h2 : r = c
        · subst h2; simp only [upd_ne _ _ h1, upd_eq]
          refine ⟨e2, by simp only [upd_ne _ _ h1, upd_eq]; exact e4.trans (h.c d).eq,
            by simp only [upd_eq]; exact e6.trans (h.c d).al, (e8.map _).nodup_iff.2 (h.c d).nodup, fun k i => ?_⟩
          rw [e8.mem_iff, (h.c d).mem]; simp only [give_give_cont hcd]; simp
        · simp only [upd_ne _ _ h1, upd_ne _ _ h2]
          exact (h.c r).congr (by simp [upd_ne, h1, h2]) (by simp [upd_ne, h2])
            (fun j => by simp only [give_give_cont hcd]; simp [h1, h2]) (fun _ _ => rfl)
    · exact (h.h g).congr rfl (fun j => by simp only [give_give_cont hcd]; simp)
    · refine g2.congr (fun j hj => ?_) (fun j o hj => ?_)
      · simp only at hj ⊢; rw [give, hj]; simp
      · have ho := give_none_iff.1 hj
        by_cases h1 : o = .cont d
        · subst h1
          exact ⟨.cont c, (give_give_cont hcd).2 (.inl ⟨ho.1, rfl⟩), rfl, by simp [ownerAl, upd_eq]⟩
        · refine ⟨o, (give_give_cont hcd).2 (.inr ⟨ho.1, ho.2, h1⟩), rfl, ?_⟩
          cases o with
          | hand _ => rfl
          | cont r =>
            have h3 : r ≠ c := fun e => ho.2 (by rw [e])
            simp [ownerAl, upd_ne, h3]

theorem pairwise_forall {α : Type} {P : α → α → Prop} (hs : ∀ x y, P x y → P y x) : ∀ {l : List α}, l.Pairwise P →
    ∀ {x y}, x ∈ l → y ∈ l → x ≠ y → P x y
  | [], _, _, _, h, _, _ => by cases h
  | z :: l, h, x, y, hx, hy, hne => by
    rw [List.pairwise_cons] at h
    rcases List.mem_cons.1 hx with hxe | hx'
    · subst hxe; rcases List.mem_cons.1 hy with hye | hy'
      · exact absurd hye.symm hne
      · exact h.1 y hy'
    · rcases List.mem_cons.1 hy with hye | hy'
      · subst hye; exact hs _ _ (h.1 x hx')
      · exact pairwise_forall hs h.2 hx' hy' hne

theorem step_merge (h : R L s a) {c d : Nat} (hcd : c ≠ d) (hal : a.al c = a.al d)
    (heq : cfg.keep = false → a.eq c = a.eq d) : Ok L s a (.merge c d) := by
  obtain ⟨t', x', took, e1, e2, e3, e4, e5, e6, e7, e8, e9, e10, e11⟩ := L.merge (s.c c) (s.c d) (h.c c).inv (h.c d).inv
    (by rw [(h.c c).al, (h.c d).al]; exact hal) (fun hk => by rw [(h.c c).eq, (h.c d).eq]; exact heq hk)
  have hids := (h.c d).ids e8
  have hmd : ∀ k i, (k, i) ∈ took → a.own i = some (.cont d) ∧ (a.elem i).1 = k := fun k i hi =>
    ((h.c d).mem k i).1 (e8.mem_iff.2 (List.mem_append_left _ hi))
  have hmx : ∀ k i, (k, i) ∈ L.contents x' → a.own i = some (.cont d) ∧ (a.elem i).1 = k := fun k i hi =>
    ((h.c d).mem k i).1 (e8.mem_iff.2 (List.mem_append_right _ hi))
  have htk : ∀ i, i ∈ took.map Prod.snd ↔ ((a.elem i).1, i) ∈ took := fun i => by
    constructor
    · intro hi
      obtain ⟨⟨k, j⟩, hj, rfl⟩ := List.mem_map.1 hi
      rw [(hmd k j hj).2]; exact hj
    · intro hi; exact List.mem_map.2 ⟨_, hi, rfl⟩
  have hnd : (took.map Prod.snd ++ (L.contents x').map Prod.snd).Nodup := by
    rw [← List.map_append]; exact hids.1
  rw [List.nodup_append] at hnd
  refine ⟨_, true, _, by simp only [step, if_neg hcd, e1, Option.map_some]; rfl, ⟨rfl, fun i => decide (i ∈ took.map Prod.snd),
    ?_, ?_, ?_, rfl⟩, fun r => ?_, fun g => ?_, ?_⟩
  · intro i hi; exact (hmd _ i ((htk i).1 (of_decide_eq_true hi))).1
  · intro hu i hi
    have := e11 hu
    rw [this, List.append_nil] at e8
    exact decide_eq_true ((htk i).2 (e8.mem_iff.1 (((h.c d).mem _ i).2 ⟨hi, rfl⟩)))
  · intro hu
    obtain ⟨u1, u2, u3⟩ := e10 hu
    refine ⟨fun i hi => ?_, fun i j hi hj hij => ?_, fun i hi hn => ?_⟩
    · rw [(h.c c).absent]; exact u1 _ ((htk i).1 (of_decide_eq_true hi))
    · have h1 := (htk i).1 (of_decide_eq_true hi)
      have h2 := (htk j).1 (of_decide_eq_true hj)
      rw [← (h.c c).eq]
      have hsym : ∀ {x y : K × Nat}, L.eq (s.c c) x.1 y.1 = false → L.eq (s.c c) y.1 x.1 = false := fun {x y} he => by
        cases hy : L.eq (s.c c) y.1 x.1 with
        | false => rfl
        | true => rw [L.symm _ (h.c c).inv _ _ hy] at he; cases he
      have hne : ((a.elem i).1, i) ≠ ((a.elem j).1, j) := fun e => hij (congrArg Prod.snd e)
      exact (pairwise_forall (fun _ _ h => hsym h) u2 h1 h2 hne)
    · have hni : i ∉ took.map Prod.snd := of_decide_eq_false hn
      have := e8.mem_iff.1 (((h.c d).mem _ i).2 ⟨hi, rfl⟩)
      rcases List.mem_append.1 this with h1 | h1
      · exact absurd ((htk i).2 h1) hni
      · rcases u3 _ h1 with ⟨y, hy, hk⟩ | ⟨⟨k, j⟩, hy, hk⟩
        · exact .inl ((h.c c).present hy hk)
        · have := (hmd k j hy).2
          exact .inr ⟨j, decide_eq_true ((htk j).2 (by rw [this]; exact hy)), by rw [← (h.c c).eq, this]; exact hk⟩
  · by_cases h1 : r = d
    · subst h1; simp only [upd_eq]
      refine (h.c r).remove e3 (e5.trans (h.c r).eq) (e7.trans (h.c r).al) e8 (fun j => ?_) (fun _ _ => rfl)
      by_cases hj : j ∈ took.map Prod.snd
      · simp only [hj, decide_true, if_true]; simp [hcd]
      · simp only [hj, decide_false, Bool.false_eq_true, if_false, not_false_eq_true, and_true]
    · by_cases h2 : r = c
      · subst h2; simp only [upd_ne _ _ h1, upd_eq]
        refine ⟨e2, e4.trans (h.c r).eq, e6.trans (h.c r).al, (e9.map _).nodup_iff.2 ?_, fun k i => ?_⟩
        · rw [List.map_append, List.nodup_append]
          refine ⟨hnd.1, (h.c r).nodup, fun i hi j hj => ?_⟩
          rintro rfl
          have g1 := (hmd _ i ((htk i).1 hi)).1
          have g2 := (((h.c r).ids (List.Perm.refl _)).2 i).1 hj
          rw [g1] at g2; cases g2; exact h1 rfl
        · rw [e9.mem_iff, List.mem_append, (h.c r).mem]
          by_cases hj : i ∈ took.map Prod.snd
          · simp only [hj, decide_true, if_true, true_and]
            have g1 := hmd _ i ((htk i).1 hj)
            constructor
            · rintro (g | g)
              · exact (hmd k i g).2
              · exact g.2
            · intro g; left; rw [← g]; exact (htk i).1 hj
          · simp only [hj, decide_false, Bool.false_eq_true, if_false]
            constructor
            · rintro (g | g)
              · exact absurd (List.mem_map.2 ⟨_, g, rfl⟩) hj
              · exact g
            · exact .inr
      · simp only [upd_ne _ _ h1, upd_ne _ _ h2]
        refine (h.c r).congr rfl rfl (fun j => ?_) (fun _ _ => rfl)
        by_cases hj : j ∈ took.map Prod.snd
        · simp only [hj, decide_true, if_true, (hmd _ j ((htk j).1 hj)).1]; simp [Ne.symm h1, Ne.symm h2]
        · simp only [hj, decide_false, Bool.false_eq_true, if_false]
  · refine (h.h g).congr rfl (fun j => ?_)
    by_cases hj : j ∈ took.map Prod.snd
    · simp only [hj, decide_true, if_true, (hmd _ j ((htk j).1 hj)).1]; simp
    · simp only [hj, decide_false, Bool.false_eq_true, if_false]
  · refine h.m.congr (fun j hj => ?_) (fun j o hj => ?_)
    · have : j ∉ took.map Prod.snd := fun h1 => by rw [(hmd _ j ((htk j).1 h1)).1] at hj; cases hj
      simp only [this, decide_false, Bool.false_eq_true, if_false]; exact hj
    · by_cases h1 : j ∈ took.map Prod.snd
      · have h2 := (hmd _ j ((htk j).1 h1)).1
        rw [hj] at h2; cases h2
        exact ⟨.cont c, by simp only [h1, decide_true, if_true], rfl, hal⟩
      · exact ⟨o, by simp only [h1, decide_false, Bool.false_eq_true, if_false]; exact hj, rfl, by cases o <;> rfl⟩

/-- Every call. -/
theorem step_refines (h : R L s a) (op : Op K V) (hp : SpecNode.Pre cfg a op) : Ok L s a op := by
  cases op with
  | construct c hash eq al => exact step_construct h hp
  | emplace c x => exact step_emplace h c x
  | erase c k => exact step_erase h c k
  | clear c => exact step_clear h c
  | extract c g k => exact step_extract h c g k
  | insert c h0 g => exact step_insert h hp.1 hp.2
  | insertHint c i g => exact step_insertHint h hp.1 hp.2
  | moveHandle g h0 => exact step_moveHandle h hp
  | assignHandle g h0 => exact step_assignHandle h hp
  | swapHandles g h0 => exact step_swapHandles h hp
  | resetHandle g => exact step_resetHandle h g
  | setKey g k => exact step_setKey h g k
  | setMapped g v => exact step_setMapped h g v
  | merge c d => exact step_merge h hp.1 hp.2.1 hp.2.2
  | swap c d => exact step_swap h hp
  | moveAssign c d => exact step_moveAssign h hp

end

section
variable (cfg : Cfg) (L : Laws I cfg.uniq cfg.keep)

/-- Every program. -/
theorem run_refines : ∀ (ops : List (Op K V)) (s : St K V C) (a : ASt K V), R L s a → SpecNode.Safe cfg ops a →
    ∃ s' bs a', run I cfg ops s = some (s', bs) ∧ SpecNode.Run cfg a ops bs a' ∧ R L s' a' := by
  intro ops
  induction ops with
  | nil => intro s a h _; exact ⟨s, [], a, rfl, .nil a, h⟩
  | cons op ops ih =>
    intro s a h hs
    obtain ⟨s1, b, a1, e1, e2, e3⟩ := step_refines h op hs.1
    obtain ⟨s2, bs, a2, f1, f2, f3⟩ := ih s1 a1 e3 (hs.2 b a1 e2)
    exact ⟨s2, b :: bs, a2, by simp only [run, e1, f1, Option.map_some], .cons e2 f2, f3⟩

theorem start_r (hash : K → Nat) (eq : K → K → Bool) (hl : Spec.Lawful hash eq) (elem : Nat → K × V) :
    R L (start I hash eq : St K V C) (SpecNode.start eq elem) := by
  obtain ⟨h1, h2, h3, h4⟩ := L.new_ hash eq 0 hl
  refine ⟨fun c => ⟨h1, h2, h3, ?_, fun k i => ?_⟩, fun h => RH.mk_none rfl rfl (fun i => by simp [SpecNode.start]) (fun _ => rfl), ?_⟩
  · show ((L.contents (I.new_ hash eq 0)).map Prod.snd).Nodup
    rw [h4]; exact List.nodup_nil
  · show (k, i) ∈ L.contents (I.new_ hash eq 0) ↔ _
    rw [h4]; simp [SpecNode.start]
  · exact ⟨fun i => rfl, fun i _ => rfl, fun i => by simp [start, Heap.init], List.nodup_nil⟩

/-- what is left when the containers and handles below `n` are gone -/
def ownFrom (n : Nat) (own : Nat → Option Owner) : Nat → Option Owner := fun i =>
  match own i with
  | none => none
  | some (.cont c) => if c < n then none else some (.cont c)
  | some (.hand h) => if h < n then none else some (.hand h)

/-- Destroying the first `n` containers and handles destroys all their nodes. -/
theorem finish_refines : ∀ (n : Nat) (s : St K V C) (a : ASt K V), (∀ c, c < n → RC L (s.c c) a c) →
    (∀ h, h < n → RH cfg.keep (s.h h) a h) → RM s.m a →
    ∃ m, finish I cfg n s = some m ∧ RM m { a with own := ownFrom n a.own } := by
  intro n
  induction n with
  | zero =>
    intro s a _ _ h
    refine ⟨s.m, rfl, ?_⟩
    have : ownFrom 0 a.own = a.own := by
      funext i; unfold ownFrom; cases a.own i with
      | none => rfl
      | some o => cases o <;> rfl
    rw [this]; exact h
  | succ n ih =>
    intro s a hc hh hm
    obtain ⟨m1, g1, g2⟩ := hDestroy_ok cfg (hh n (Nat.lt_succ_self n)) hm
    have hcn : RC L (s.c n) { a with own := give a.own (.hand n) none } n :=
      (hc n (Nat.lt_succ_self n)).congr rfl rfl (fun i => by simp only [give_none_iff]; simp) (fun _ _ => rfl)
    obtain ⟨l, h1, h2⟩ := L.destroy _ hcn.inv
    obtain ⟨m2, h3, h4⟩ := hcn.freeElems g2 h2
    obtain ⟨m3, f1, f2⟩ := ih { s with m := m2 } { a with own := give (give a.own (.hand n) none) (.cont n) none }
      (fun c hcl => (hc c (by omega)).congr rfl rfl (fun i => by
        have : c ≠ n := by omega
        simp only [give_none_iff]; simp [this]) (fun _ _ => rfl))
      (fun h hhl => (hh h (by omega)).congr rfl (fun i => by
        have : h ≠ n := by omega
        simp only [give_none_iff]; simp [this]))
      h4
    refine ⟨m3, by simp only [finish, g1, h1, h3, f1], ?_⟩
    have : ownFrom (n + 1) a.own = ownFrom n (give (give a.own (.hand n) none) (.cont n) none) := by
      funext i
      unfold ownFrom give
      cases hi : a.own i with
      | none => simp
      | some o =>
        cases o with
        | cont c =>
          by_cases hcn : c = n
          · subst hcn; simp
          · have e1 : (c < n + 1) = (c < n) := by apply propext; omega
            simp [hcn, e1]
        | hand c =>
          by_cases hcn : c = n
          · subst hcn; simp
          · have e1 : (c < n + 1) = (c < n) := by apply propext; omega
            simp [hcn, e1]
    rw [this]; exact f2

end
end Node

/-
Heterogeneous calls on flat/node containers refine their specification.
-/
import Verif.Foa.Het
import Verif.Foa.Refine

namespace Foa
open Spec (Obj Res)
open SpecHet (Het Call Compat)
variable {K V Q : Type}

/-- a value equal to some key behaves as that key -/
theorem compat_key {f : Fns K} (_ : f.Lawful) {H : Het K Q} (hc : Compat f.hash f.eq H) {q : Q} {k : K}
    (h : H.eqL q k = true) : H.eqL q = f.eq k ∧ H.hash q = f.hash k := by
  refine ⟨funext fun b => ?_, hc.same q k h⟩
  rw [Bool.eq_iff_iff]
  exact ⟨fun hb => hc.join q k b h hb, fun hb => hc.carry q k b h hb⟩

/-- a value equal to no key at all is not found -/
theorem findLoop_never {f : Fns K} {a : Arrays K V} (hl : Live f a) {p : K → Bool} (hp : ∀ k, p k = false) {h : Nat} :
    ∀ gs : List Nat, (∀ g ∈ gs, g < 2 ^ a.k) → a.findLoop p h gs = some none
  | [], _ => rfl
  | g :: gs, hg => by
    rcases scanSlots_spec (a.slot g) p _ (hl.match_live (h := h) (hg g (by simp))) with ⟨j, y, _, _, _, h4⟩ | ⟨h1, _⟩
    · rw [hp] at h4; cases h4
    · simp only [Arrays.findLoop, h1]
      split
      · rfl
      · exact findLoop_never hl hp gs (fun g' h' => hg g' (by simp [h']))

/-- the answer of `find` for a heterogeneous argument -/
theorem R.qfind {t : Table K V} {o : Obj K V} (h : R t o) {H : Het K Q} (hc : Compat t.fns.hash t.fns.eq H) (q : Q) :
    (∃ g j y, t.qFind (.of H q) = some (some (g, j)) ∧ t.arr.slot g j = some y ∧ y ∈ o.elems ∧ H.eqL q = o.eq y.1) ∨
    (t.qFind (.of H q) = some none ∧ ∀ e ∈ o.elems, H.eqL q e.1 = false) := by
  by_cases hk : ∃ k, H.eqL q k = true
  · obtain ⟨k, hk⟩ := hk
    obtain ⟨e1, e2⟩ := compat_key h.lawful hc hk
    have hq : t.qFind (.of H q) = t.find k := by simp only [Table.qFind, Query.of, Table.find, e1, e2]
    rw [hq]
    rcases h.find k with ⟨g, j, y, h1, h2, h3, h4⟩ | ⟨h1, h2, h3⟩
    · left
      have hy : y ∈ t.contents := h.inv.mem.mpr ⟨g, j, h2⟩
      refine ⟨g, j, y, h1, h2, h.elems.subset hy, ?_⟩
      rw [← h.eq]
      exact (compat_key h.lawful hc (by rw [e1]; exact h3)).1
    · right
      exact ⟨h1, fun e he => by rw [e1]; exact h3 e (h.elems.symm.subset he)⟩
  · have hn : ∀ k, H.eqL q k = false := fun k => by
      cases e : H.eqL q k
      · rfl
      · exact absurd ⟨k, e⟩ hk
    right
    refine ⟨?_, fun e _ => hn e.1⟩
    simp only [Table.qFind, Query.of]
    rcases h.inv.arr with ⟨_, hl⟩ | ⟨_, hd⟩
    · exact findLoop_never hl hn _ (probeSeq_lt _ _ (position_lt _ _ (hc.bound q)))
    · exact findLoop_dummy hd _ _ _

theorem filter_unique {f : Fns K} (hf : f.Lawful) : ∀ {l : List (K × V)}, l.Pairwise (Ineq f) → ∀ {y : K × V}, y ∈ l →
    l.filter (fun e => f.eq y.1 e.1) = [y]
  | [], _, _, hy => by cases hy
  | x :: l, hp, y, hy => by
    rw [List.pairwise_cons] at hp
    rcases List.mem_cons.mp hy with rfl | hy
    · rw [List.filter_cons_of_pos (by exact hf.refl _)]
      congr 1
      rw [List.filter_eq_nil_iff]
      intro a ha
      have := hp.1 a ha
      unfold Ineq at this
      rw [this]; simp
    · rw [List.filter_cons_of_neg]
      · exact filter_unique hf hp.2 hy
      · intro hx
        have h1 := hp.1 y hy
        unfold Ineq at h1
        rw [hf.symm _ _ hx] at h1; cases h1

theorem qFind_key (t : Table K V) (k : K) : t.qFind (.ofKey t.fns k) = t.find k := rfl

theorem qUncheckedInsert_key (t : Table K V) (k : K) (v : V) : t.qUncheckedInsert (.ofKey t.fns k) v = t.uncheckedInsert (k, v) := rfl

theorem qEmplaceIntoNew_key (t : Table K V) (k : K) (v : V) (new : Arrays K V) :
    t.qEmplaceIntoNew (.ofKey t.fns k) v new = t.emplaceIntoNew (k, v) new := rfl

theorem qEmplaceWithRehash_key (cfg : Cfg) (t : Table K V) (k : K) (v : V) :
    t.qEmplaceWithRehash cfg (.ofKey t.fns k) v = t.emplaceWithRehash cfg (k, v) := by
  unfold Table.qEmplaceWithRehash Table.emplaceWithRehash
  generalize Arrays.new_ cfg t.al (growthRequest t.size) = new
  exact qEmplaceIntoNew_key t k v new

/-- with an argument of the key type the calls are those of the ordinary overloads -/
theorem qEmplace_key (cfg : Cfg) (t : Table K V) (k : K) (v : V) : t.qEmplace cfg (.ofKey t.fns k) v = t.emplaceImpl cfg (k, v) := by
  unfold Table.qEmplace Table.emplaceImpl
  rw [qFind_key, qUncheckedInsert_key, qEmplaceWithRehash_key]
  generalize t.emplaceWithRehash cfg (k, v) = x
  cases t.find k with
  | none => rfl
  | some r => cases r <;> rfl

/-- inserting with a heterogeneous argument is inserting with the key made of it -/
theorem qEmplace_eq {t : Table K V} {o : Obj K V} (h : R t o) (cfg : Cfg) {H : Het K Q} (hc : Compat t.fns.hash t.fns.eq H) {q : Q}
    (hm : H.eqL q (H.make q) = true) (v : V) : t.qEmplace cfg (.of H q) v = t.emplaceImpl cfg (H.make q, v) := by
  obtain ⟨e1, e2⟩ := compat_key h.lawful hc hm
  have : Query.of H q = Query.ofKey t.fns (H.make q) := by simp only [Query.of, Query.ofKey, e1, e2]
  rw [this, qEmplace_key]

theorem has_of_lookup {o : Obj K V} {k : K} {e : K × V} (h : Spec.lookup o k = some e) : e ∈ o.elems ∧ o.eq k e.1 = true :=
  ⟨List.mem_of_find?_eq_some h, by have := List.find?_some h; exact this⟩

theorem absent_of_lookup {o : Obj K V} {k : K} (h : Spec.lookup o k = none) : ∀ e ∈ o.elems, o.eq k e.1 = false := by
  intro e he
  have := List.find?_eq_none.mp h e he
  simpa using this

theorem R.hinsert {t : Table K V} {o : Obj K V} (h : R t o) (cfg : Cfg) {H : Het K Q} (hc : Compat t.fns.hash t.fns.eq H) {q : Q}
    (hm : H.eqL q (H.make q) = true) (v : V) :
    ∃ t' p b e l', t.qEmplace cfg (.of H q) v = some (t', p, b) ∧ t'.deref p = some e ∧ R t' { o with elems := l' } ∧
      ((e ∈ o.elems ∧ H.eqL q e.1 = true ∧ b = false ∧ l' = o.elems) ∨
       ((∀ e ∈ o.elems, H.eqL q e.1 = false) ∧ e = (H.make q, v) ∧ b = true ∧ l' = (H.make q, v) :: o.elems)) := by
  obtain ⟨e1, e2⟩ := compat_key h.lawful hc hm
  obtain ⟨t', p, b, e, h1, h2, h3, h4, h5, h6⟩ := h.emplace cfg (H.make q, v)
  rw [qEmplace_eq h cfg hc hm]
  cases b with
  | false =>
    obtain ⟨ht, hl, he⟩ := h5 rfl
    refine ⟨t', p, false, e, o.elems, h1, h2, ?_, Or.inl ⟨(has_of_lookup hl).1, by rw [e1]; exact he, rfl, rfl⟩⟩
    rw [ht]; exact h
  | true =>
    obtain ⟨he, hl⟩ := h6 rfl
    refine ⟨t', p, true, e, _, h1, h2, ?_, Or.inr ⟨?_, he, rfl, rfl⟩⟩
    · have : Spec.insert o (H.make q, v) = ({ o with elems := (H.make q, v) :: o.elems }, .ins (H.make q, v) true) := by
        simp only [Spec.insert, hl]
      rw [this] at h4
      exact h4
    · rw [e1, h.eq]; exact absent_of_lookup hl

theorem opInsertOrAssign_eq {t : Table K V} {o : Obj K V} (h : R t o) (cfg : Cfg) {H : Het K Q} (hc : Compat t.fns.hash t.fns.eq H)
    {q : Q} (hm : H.eqL q (H.make q) = true) (v : V) :
    t.hstep cfg H (.insertOrAssign q v) = t.opInsertOrAssign cfg (H.make q) v := by
  simp only [Table.hstep, Table.opInsertOrAssign, qEmplace_eq h cfg hc hm]
  cases e : t.emplaceImpl cfg (H.make q, v) with
  | none => rfl
  | some r =>
    obtain ⟨t', p, b⟩ := r
    cases b with
    | true => dsimp only; cases t'.deref p <;> rfl
    | false =>
      dsimp only
      cases t'.assignAt p v with
      | none => rfl
      | some t'' => dsimp only; cases t''.deref p <;> rfl

/-- every heterogeneous call refines its specification -/
theorem hstep_refines {t : Table K V} {o : Obj K V} (h : R t o) (cfg : Cfg) {H : Het K Q} (hc : Compat t.fns.hash t.fns.eq H)
    (call : Call Q V) (hp : SpecHet.Pre true H o.elems call) :
    ∃ t' res l', t.hstep cfg H call = some (t', res) ∧ SpecHet.Step H o.elems call res l' ∧ R t' { o with elems := l' } := by
  have look : ∀ q, (∃ e, t.qLookup (.of H q) = some (some e) ∧ e ∈ o.elems ∧ H.eqL q e.1 = true ∧
        o.elems.filter (fun x => H.eqL q x.1) = [e] ∧ (t.qFind (.of H q)).map Option.isSome = some true) ∨
      (t.qLookup (.of H q) = some none ∧ (∀ e ∈ o.elems, H.eqL q e.1 = false) ∧
        o.elems.filter (fun x => H.eqL q x.1) = [] ∧ (t.qFind (.of H q)).map Option.isSome = some false) := by
    intro q
    rcases h.qfind hc q with ⟨g, j, y, h1, h2, h3, h4⟩ | ⟨h1, h2⟩
    · left
      refine ⟨y, by simp [Table.qLookup, h1, Table.deref, h2], h3, ?_, ?_, by simp [h1]⟩
      · rw [h4, ← h.eq]; exact h.lawful.refl _
      · rw [h4, ← h.eq]; exact filter_unique h.lawful h.pairwise h3
    · right
      refine ⟨by simp [Table.qLookup, h1], h2, ?_, by simp [h1]⟩
      rw [List.filter_eq_nil_iff]
      intro e he; rw [h2 e he]; simp
  have isS : ∀ {q b}, (t.qFind (.of H q)).map Option.isSome = some b → ∃ p, t.qFind (.of H q) = some p ∧ p.isSome = b := by
    intro q b hb
    cases e : t.qFind (.of H q) with
    | none => rw [e] at hb; cases hb
    | some p => rw [e] at hb; exact ⟨p, rfl, by simpa using hb⟩
  cases call with
  | find q =>
    rcases look q with ⟨e, h1, h2, h3, _, _⟩ | ⟨h1, h2, _, _⟩
    · exact ⟨t, _, o.elems, by simp only [Table.hstep, h1, Option.map_some] <;> rfl, ⟨rfl, Or.inl ⟨e, h2, h3, rfl⟩⟩, h⟩
    · exact ⟨t, _, o.elems, by simp only [Table.hstep, h1, Option.map_some] <;> rfl, ⟨rfl, Or.inr ⟨h2, rfl⟩⟩, h⟩
  | «at» q =>
    rcases look q with ⟨e, h1, h2, h3, _, _⟩ | ⟨h1, h2, _, _⟩
    · exact ⟨t, _, o.elems, by simp only [Table.hstep, h1, Option.map_some] <;> rfl, ⟨rfl, Or.inl ⟨e, h2, h3, rfl⟩⟩, h⟩
    · exact ⟨t, _, o.elems, by simp only [Table.hstep, h1, Option.map_some] <;> rfl, ⟨rfl, Or.inr ⟨h2, rfl⟩⟩, h⟩
  | contains q =>
    rcases look q with ⟨e, _, h2, h3, _, h5⟩ | ⟨_, h2, _, h5⟩
    · obtain ⟨p, e1, e2⟩ := isS h5
      refine ⟨t, _, o.elems, by simp only [Table.hstep, e1, Option.map_some] <;> rfl, ⟨rfl, ?_⟩, h⟩
      rw [e2]; congr 1; exact (List.any_eq_true.mpr ⟨e, h2, h3⟩).symm
    · obtain ⟨p, e1, e2⟩ := isS h5
      refine ⟨t, _, o.elems, by simp only [Table.hstep, e1, Option.map_some] <;> rfl, ⟨rfl, ?_⟩, h⟩
      rw [e2]; congr 1; symm; rw [List.any_eq_false]; intro x hx; rw [h2 x hx]; simp
  | count q =>
    rcases look q with ⟨e, _, _, _, h4, h5⟩ | ⟨_, _, h4, h5⟩
    · obtain ⟨p, e1, e2⟩ := isS h5
      exact ⟨t, _, o.elems, by simp only [Table.hstep, e1, Option.map_some] <;> rfl, ⟨rfl, by rw [List.countP_eq_length_filter, h4, e2]; rfl⟩, h⟩
    · obtain ⟨p, e1, e2⟩ := isS h5
      exact ⟨t, _, o.elems, by simp only [Table.hstep, e1, Option.map_some] <;> rfl, ⟨rfl, by rw [List.countP_eq_length_filter, h4, e2]; rfl⟩, h⟩
  | equalRange q =>
    rcases look q with ⟨e, h1, _, _, h4, _⟩ | ⟨h1, _, h4, _⟩
    · exact ⟨t, _, o.elems, by simp only [Table.hstep, h1, Option.map_some] <;> rfl, ⟨rfl, _, rfl, by rw [h4]; exact List.Perm.refl _⟩, h⟩
    · exact ⟨t, _, o.elems, by simp only [Table.hstep, h1, Option.map_some] <;> rfl, ⟨rfl, _, rfl, by rw [h4]; exact List.Perm.refl _⟩, h⟩
  | erase q =>
    rcases h.qfind hc q with ⟨g, j, y, h1, h2, h3, h4⟩ | ⟨h1, h2⟩
    · have hr : t.fns.eq y.1 y.1 = true := h.lawful.refl _
      obtain ⟨t', ht, hR⟩ := h.erase_at h2 hr
      have hf := filter_unique h.lawful h.pairwise h3
      refine ⟨t', _, _, by simp only [Table.hstep, h1, ht, Option.map_some] <;> rfl, ⟨?_, rfl⟩, ?_⟩
      · rw [List.countP_eq_length_filter, h4, ← h.eq, hf]; rfl
      · rw [h4]; exact hR
    · refine ⟨t, _, o.elems, by simp only [Table.hstep, h1] <;> rfl, ⟨?_, ?_⟩, h⟩
      · congr 1; symm; rw [List.countP_eq_zero]; intro e he; rw [h2 e he]; simp
      · symm; rw [List.filter_eq_self]; intro e he; rw [h2 e he]; rfl
  | extract q =>
    rcases h.qfind hc q with ⟨g, j, y, h1, h2, h3, h4⟩ | ⟨h1, h2⟩
    · have hr : t.fns.eq y.1 y.1 = true := h.lawful.refl _
      obtain ⟨t', ht, hR⟩ := h.erase_at h2 hr
      have hf := filter_unique h.lawful h.pairwise h3
      refine ⟨t', _, _, by simp only [Table.hstep, h1, Table.deref, h2, ht, Option.map_some] <;> rfl, Or.inl ⟨y, _, ?_, ?_, rfl, rfl⟩, hR⟩
      · have := List.filter_append_perm (fun e : K × V => o.eq y.1 e.1) o.elems
        rw [← h.eq, hf] at this
        rw [← h.eq]; exact this.symm
      · rw [h4, ← h.eq]; exact hr
    · exact ⟨t, _, o.elems, by simp only [Table.hstep, h1] <;> rfl, Or.inr ⟨h2, rfl, rfl⟩, h⟩
  | insert q v =>
    obtain ⟨t', p, b, e, l', h1, h2, h3, h4⟩ := h.hinsert cfg hc hp.2 v
    refine ⟨t', _, l', by simp only [Table.hstep, h1, h2, Option.map_some] <;> rfl, ?_, h3⟩
    rcases h4 with ⟨a1, a2, rfl, rfl⟩ | ⟨a1, rfl, rfl, rfl⟩
    · exact Or.inl ⟨e, a1, a2, rfl, rfl⟩
    · exact Or.inr ⟨a1, rfl, rfl⟩
  | insertHint i q v =>
    obtain ⟨t', p, b, e, l', h1, h2, h3, h4⟩ := h.hinsert cfg hc hp.2.1 v
    refine ⟨t', _, l', by simp only [Table.hstep, h1, h2, Option.map_some] <;> rfl, ?_, h3⟩
    rcases h4 with ⟨a1, a2, rfl, rfl⟩ | ⟨a1, rfl, rfl, rfl⟩
    · exact Or.inl ⟨e, a1, a2, rfl, rfl⟩
    · exact Or.inr ⟨a1, rfl, rfl⟩
  | index q d =>
    obtain ⟨t', p, b, e, l', h1, h2, h3, h4⟩ := h.hinsert cfg hc hp.2 d
    refine ⟨t', _, l', by simp only [Table.hstep, h1, h2, Option.map_some] <;> rfl, ?_, h3⟩
    rcases h4 with ⟨a1, a2, rfl, rfl⟩ | ⟨a1, rfl, rfl, rfl⟩
    · exact Or.inl ⟨e, a1, a2, rfl, rfl⟩
    · exact Or.inr ⟨a1, rfl, rfl⟩
  | insertOrAssign q v =>
    obtain ⟨e1, e2⟩ := compat_key h.lawful hc hp.2
    rw [opInsertOrAssign_eq h cfg hc hp.2]
    obtain ⟨t', e, b, h1, h2⟩ := h.insertOrAssign cfg (H.make q) v
    rcases h2 with ⟨e', a1, a2, a3, a4⟩ | ⟨a1, a2, a3, a4⟩
    · refine ⟨t', _, _, h1, Or.inl ⟨e', (has_of_lookup a1).1, ?_, by rw [a2, a3], rfl⟩, ?_⟩
      · rw [e1, h.eq]; exact (has_of_lookup a1).2
      · rw [e1, h.eq]; exact a4
    · refine ⟨t', _, _, h1, Or.inr ⟨?_, by rw [a2, a3], rfl⟩, ?_⟩
      · rw [e1, h.eq]; exact absent_of_lookup a1
      · have : Spec.insert o (H.make q, v) = ({ o with elems := (H.make q, v) :: o.elems }, .ins (H.make q, v) true) := by
          simp only [Spec.insert, a1]
        rw [this] at a4
        exact a4

end Foa

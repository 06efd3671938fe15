/-
Heterogeneous calls on closed-addressing containers refine their specification.
-/
import Verif.Fca.Het
import Verif.Fca.Refine

namespace Fca
open Spec (Res)
open SpecC (Obj LOp LStep LPre Has Absent)
open SpecHet (Het Call Compat)
variable {K V Q : Type}

/-- a value equal to some key behaves as that key -/
theorem compat_query {f : Fns K} (hf : FLawful f) {H : Het K Q} (hc : Compat f.hash f.eq H) {q : Q} {k : K}
    (h : H.eqL q k = true) : H.eqL q = f.eq k ∧ { Query.of H q with key := k } = Query.ofKey f k := by
  have h1 : H.eqL q = f.eq k := funext fun b => by
    rw [Bool.eq_iff_iff]
    exact ⟨fun hb => hc.join q k b h hb, fun hb => hc.carry q k b h hb⟩
  have h2 : (fun e => H.eqR e q) = fun e => f.eq e k := funext fun b => by
    rw [hc.sides, h1, Bool.eq_iff_iff]
    exact ⟨fun hb => hf.symm _ _ hb, fun hb => hf.symm _ _ hb⟩
  refine ⟨h1, ?_⟩
  simp only [Query.of, Query.ofKey, h1, h2, hc.same q k h]

/-! ### arguments of the key type: the ordinary overloads -/

theorem qFindImpl_key (t : Table K V) (k : K) (itb : BIt) : t.qFindImpl (.ofKey t.fns k) itb = t.findImpl k itb := rfl
theorem qFind_key (t : Table K V) (k : K) : t.qFind (.ofKey t.fns k) = t.find k := rfl
theorem qFindNode_key (t : Table K V) (k : K) : t.qFindNode (.ofKey t.fns k) = t.findNode k := rfl
theorem qGroupCount_key (t : Table K V) (k : K) : t.qGroupCount (.ofKey t.fns k) = t.groupCount k := rfl
theorem qEraseKeyUnique_key (t : Table K V) (k : K) : t.qEraseKeyUnique (.ofKey t.fns k) = t.eraseKeyUnique k := rfl
theorem qEraseKeyEquiv_key (t : Table K V) (k : K) : t.qEraseKeyEquiv (.ofKey t.fns k) = t.eraseKeyEquiv k := rfl
theorem qExtract_key (t : Table K V) (k : K) : t.qExtract (.ofKey t.fns k) = t.opExtract k := rfl
theorem qAt_key (t : Table K V) (k : K) : t.qAt (.ofKey t.fns k) = t.opAt k := rfl
theorem qEqualRangeUnique_key (t : Table K V) (k : K) : t.qEqualRangeUnique (.ofKey t.fns k) = t.equalRangeUnique k := rfl

theorem qNextGroup_key (t : Table K V) (k : K) : ∀ (n : Nat) (it : It), t.qNextGroup (.ofKey t.fns k) n it = t.nextGroup k n it
  | 0, none => rfl
  | _ + 1, none => rfl
  | 0, some it => by
    cases h : t.b.deref it with
    | none => simp only [Table.qNextGroup, Table.nextGroup, h]
    | some e => simp only [Table.qNextGroup, Table.nextGroup, h, Query.ofKey]
  | n + 1, some it => by
    cases h : t.b.deref it with
    | none => simp only [Table.qNextGroup, Table.nextGroup, h]
    | some e =>
      cases h2 : t.b.incIt it with
      | none => simp only [Table.qNextGroup, Table.nextGroup, h, h2, Query.ofKey]
      | some it' =>
        simp only [Table.qNextGroup, Table.nextGroup, h, h2, qNextGroup_key t k n it']
        rfl

theorem qEqualRangeEquiv_key (t : Table K V) (k : K) : t.qEqualRangeEquiv (.ofKey t.fns k) = t.equalRangeEquiv k := by
  unfold Table.qEqualRangeEquiv Table.equalRangeEquiv
  rw [qFind_key]
  cases t.find k with
  | none => rfl
  | some it => dsimp only; rw [qNextGroup_key]

theorem qEmplaceUnique_key (t : Table K V) (k : K) (v : V) : t.qEmplaceUnique (.ofKey t.fns k) v = t.emplaceUnique (k, v) := by
  unfold Table.qEmplaceUnique Table.emplaceUnique
  generalize t.growForOne = g
  rfl

theorem qInsertOrAssign_key (t : Table K V) (k : K) (v : V) : t.qInsertOrAssign (.ofKey t.fns k) v = t.insertOrAssign k v := by
  unfold Table.qInsertOrAssign Table.insertOrAssign
  rw [qEmplaceUnique_key]
  generalize t.emplaceUnique (k, v) = x
  rcases x with _ | ⟨t', p, b⟩
  · rfl
  · cases b <;> rfl

theorem qEmplaceHintUnique_key {t : Table K V} (hl : FLawful t.fns) (hint : It) (k : K) (v : V) :
    t.qEmplaceHintUnique hint (.ofKey t.fns k) v = t.emplaceHintUnique hint (k, v) := by
  have h : ∀ e : K × V, (Query.ofKey t.fns k).r e.1 = t.fns.eq k e.1 := fun e => by
    show t.fns.eq e.1 k = t.fns.eq k e.1
    rw [Bool.eq_iff_iff]
    exact ⟨fun hb => hl.symm _ _ hb, fun hb => hl.symm _ _ hb⟩
  unfold Table.qEmplaceHintUnique Table.emplaceHintUnique
  rw [qEmplaceUnique_key]
  generalize t.emplaceUnique (k, v) = x
  cases hint with
  | none => rfl
  | some p =>
    cases h2 : t.b.deref p with
    | none => simp only [h2]
    | some e => simp only [h2, h e]

/-! ### lookups do not use the key constructed from the argument -/

theorem qNextGroup_any (t : Table K V) (q : Query K) (k : K) : ∀ (n : Nat) (it : It),
    t.qNextGroup q n it = t.qNextGroup { q with key := k } n it
  | 0, none => rfl
  | _ + 1, none => rfl
  | 0, some it => by simp only [Table.qNextGroup]
  | n + 1, some it => by
    simp only [Table.qNextGroup]
    cases t.b.deref it with
    | none => rfl
    | some e =>
      dsimp only
      split
      · cases t.b.incIt it with
        | none => rfl
        | some it' => dsimp only; rw [qNextGroup_any t q k n it']
      · rfl

theorem qEqualRangeEquiv_any (t : Table K V) (q : Query K) (k : K) :
    t.qEqualRangeEquiv q = t.qEqualRangeEquiv { q with key := k } := by
  unfold Table.qEqualRangeEquiv
  have : t.qFind q = t.qFind { q with key := k } := rfl
  rw [← this]
  cases t.qFind q with
  | none => rfl
  | some it => dsimp only; rw [qNextGroup_any]

/-! ### arguments equal to no key at all -/

theorem bucket_ok {t : Table K V} (hs : SInv t) (h0 : t.b.size ≠ 0) (h : Nat) :
    ∃ p, p < t.b.size ∧ t.bucketFor h = ⟨p, some (p / 64)⟩ ∧ t.b.get (t.bucketFor h) = some (t.b.chain p) := by
  obtain ⟨L, hg⟩ := hs.wf.ginv h0
  have hlt : t.b.position h < t.b.size := Gba.position_lt hg _
  have he : t.bucketFor h = ⟨t.b.position h, some (t.b.position h / 64)⟩ := Gba.at_eq (Nat.pos_of_ne_zero h0) _
  exact ⟨_, hlt, he, by rw [he]; exact Gba.get_of_le hg (Nat.le_of_lt hlt)⟩

theorem findIdx_never {p : K × V → Bool} (hp : ∀ e, p e = false) (l : List (K × V)) : l.findIdx? p = none := by
  rw [List.findIdx?_eq_none_iff]; intro e _; rw [hp e]

theorem countRun_never {p : K × V → Bool} (hp : ∀ e, p e = false) : ∀ l : List (K × V), Table.countRun p false l = 0
  | [] => rfl
  | e :: l => by simp only [Table.countRun, hp e]; simpa using countRun_never hp l

theorem qFind_never {t : Table K V} (hs : SInv t) {q : Query K} (hq : ∀ k, q.l k = false) : t.qFind q = some none := by
  unfold Table.qFind
  split
  · rename_i h0
    obtain ⟨p, _, _, h2⟩ := bucket_ok hs (hs.pos (Nat.pos_iff_ne_zero.mp h0)) q.h
    dsimp only
    rw [h2]; dsimp only
    rw [findIdx_never (fun e => hq e.1)]
  · rfl

theorem qFindNode_never {t : Table K V} (hs : SInv t) {q : Query K} (hq : ∀ k, q.l k = false) (h0 : t.size ≠ 0) :
    t.qFindNode q = some none := by
  obtain ⟨p, h1, e1, h2⟩ := bucket_ok hs (hs.pos h0) q.h
  unfold Table.qFindNode Table.qFindImpl
  dsimp only
  rw [h2, e1]; dsimp only
  rw [if_neg (by omega), findIdx_never (fun e => hq e.1)]

theorem qEraseKey_never {t : Table K V} (hs : SInv t) {q : Query K} (hq : ∀ k, q.l k = false) :
    t.qEraseKeyUnique q = some (t, 0) ∧ t.qEraseKeyEquiv q = some (t, 0) := by
  unfold Table.qEraseKeyUnique Table.qEraseKeyEquiv
  dsimp only
  by_cases h0 : 0 < t.size
  · obtain ⟨p, _, _, h2⟩ := bucket_ok hs (hs.pos (Nat.pos_iff_ne_zero.mp h0)) q.h
    rw [if_pos h0, if_pos h0, h2]; dsimp only
    rw [findIdx_never (fun e => hq e.1)]
    exact ⟨rfl, rfl⟩
  · rw [if_neg h0, if_neg h0]; exact ⟨rfl, rfl⟩

theorem qGroupCount_never {t : Table K V} (hs : SInv t) {q : Query K} (hq : ∀ k, q.l k = false) :
    t.qGroupCount q = some 0 := by
  unfold Table.qGroupCount
  split
  · rfl
  · rename_i h0
    obtain ⟨p, _, _, h2⟩ := bucket_ok hs (hs.pos h0) q.h
    rw [h2]; simp only [Option.map_some, countRun_never (fun e : K × V => hq e.1)]

/-- every heterogeneous call refines its specification -/
theorem hstep_refines {u : Bool} {t : Table K V} {o : Obj K V} (h : R u t o) (hd : o.defined = true) {H : Het K Q}
    (hc : Compat t.fns.hash t.fns.eq H) (call : Call Q V) (hp : SpecHet.Pre u H o.elems call) :
    ∃ t' res l', t.hstep u H call = some (t', res) ∧ SpecHet.Step H o.elems call res l' ∧ R u t' { o with elems := l' } := by
  have hself : ({ o with elems := o.elems } : Obj K V) = o := rfl
  -- the argument is equal to some key, or to none
  have cases_ : ∀ q, (∃ k, H.eqL q = o.eq k ∧ { Query.of H q with key := k } = Query.ofKey t.fns k) ∨ (∀ k, H.eqL q k = false) := by
    intro q
    by_cases hk : ∃ k, H.eqL q k = true
    · obtain ⟨k, hk⟩ := hk
      obtain ⟨a, b⟩ := compat_query h.law hc hk
      exact Or.inl ⟨k, by rw [a, h.eq], b⟩
    · right; intro k
      cases e : H.eqL q k
      · rfl
      · exact absurd ⟨k, e⟩ hk
  have made : ∀ q, H.eqL q (H.make q) = true → H.eqL q = o.eq (H.make q) ∧ Query.of H q = Query.ofKey t.fns (H.make q) := by
    intro q hm
    obtain ⟨a, b⟩ := compat_query h.law hc hm
    exact ⟨by rw [a, h.eq], b⟩
  cases call with
  | find q =>
    rcases cases_ q with ⟨k, hk, e⟩ | hn
    · obtain ⟨t', res, o', h1, ⟨h2, h3⟩, h4⟩ := lstep_refines h (.find k) hd
      have e1 : t.hstep u H (.find q) = t.lstep u (.find k) := by
        show ((t.qFind { Query.of H q with key := k }).bind t.peek).map _ = _
        rw [e]; rfl
      subst h2
      exact ⟨t', res, o'.elems, e1.trans h1, ⟨rfl, by rw [hk]; simpa only [Has, Absent, and_assoc, exists_and_left] using h3⟩, h4⟩
    · exact ⟨t, .elem none, o.elems, by simp only [Table.hstep, qFind_never h.inv (q := .of H q) hn]; rfl,
        ⟨rfl, Or.inr ⟨fun e _ => hn e.1, rfl⟩⟩, h⟩
  | contains q =>
    rcases cases_ q with ⟨k, hk, e⟩ | hn
    · obtain ⟨t', res, o', h1, ⟨h2, h3⟩, h4⟩ := lstep_refines h (.contains k) hd
      have e1 : t.hstep u H (.contains q) = t.lstep u (.contains k) := by
        show (t.qFind { Query.of H q with key := k }).map _ = _
        rw [e]; rfl
      subst h2
      exact ⟨t', res, o'.elems, e1.trans h1, ⟨rfl, by rw [hk]; exact h3⟩, h4⟩
    · refine ⟨t, .bool false, o.elems, by simp only [Table.hstep, qFind_never h.inv (q := .of H q) hn]; rfl, ⟨rfl, ?_⟩, h⟩
      congr 1; symm; rw [List.any_eq_false]; intro x _; rw [hn]; simp
  | count q =>
    rcases cases_ q with ⟨k, hk, e⟩ | hn
    · cases u with
      | false =>
        obtain ⟨t', res, o', h1, ⟨h2, h3⟩, h4⟩ := lstep_refines h (.count k) hd
        have e1 : t.hstep false H (.count q) = t.lstep false (.count k) := by
          show (t.qGroupCount { Query.of H q with key := k }).map _ = _
          rw [e]; rfl
        subst h2
        exact ⟨t', res, o'.elems, e1.trans h1, ⟨rfl, by rw [hk]; exact h3⟩, h4⟩
      | true =>
        have e1 : t.hstep true H (.count q) = (t.find k).map (fun it => (t, .num (if it.isSome then 1 else 0))) := by
          show (t.qFind { Query.of H q with key := k }).map _ = _
          rw [e]; rfl
        rw [e1]
        rcases find_spec h.inv h.law (h.shape hd).1 k with ⟨h1, h2⟩ | ⟨i, x, h1, _, _, h2, h3⟩
        · rw [h1]
          exact ⟨t, _, o.elems, rfl, ⟨rfl, by rw [hk, countP_of_absent (h.absent hd h2)]; rfl⟩, h⟩
        · rw [h1]
          obtain ⟨pre, post, e⟩ := List.append_of_mem (h2.mem h.inv)
          have := unique_split h hd (k := k) (e := x) (rest := pre ++ post) (by rw [e]; exact List.perm_middle) h3
          exact ⟨t, _, o.elems, rfl, ⟨rfl, by rw [hk, this.1]; rfl⟩, h⟩
    · have hz : o.elems.countP (fun e => H.eqL q e.1) = 0 := by rw [List.countP_eq_zero]; intro x _; rw [hn]; simp
      refine ⟨t, .num 0, o.elems, ?_, ⟨rfl, by rw [hz]⟩, h⟩
      simp only [Table.hstep, qFind_never h.inv (q := .of H q) hn, qGroupCount_never h.inv (q := .of H q) hn]
      cases u <;> rfl
  | equalRange q =>
    rcases cases_ q with ⟨k, hk, e⟩ | hn
    · obtain ⟨t', res, o', h1, ⟨h2, h3⟩, h4⟩ := lstep_refines h (.equalRange k) hd
      have e1 : t.hstep u H (.equalRange q) = t.lstep u (.equalRange k) := by
        simp only [Table.hstep, Table.lstep, Table.opEqualRange]
        rw [qEqualRangeEquiv_any t _ k, ← qEqualRangeEquiv_key]
        show (if u = true then t.qEqualRangeUnique { Query.of H q with key := k } else _).map _ = _
        rw [e]; rfl
      subst h2
      exact ⟨t', res, o'.elems, e1.trans h1, ⟨rfl, by rw [hk]; exact h3⟩, h4⟩
    · have hz : o.elems.filter (fun e => H.eqL q e.1) = [] := by rw [List.filter_eq_nil_iff]; intro x _; rw [hn]; simp
      refine ⟨t, .list [], o.elems, ?_, ⟨rfl, _, rfl, by rw [hz]⟩, h⟩
      simp only [Table.hstep, Table.qEqualRangeUnique, Table.qEqualRangeEquiv, qFind_never h.inv (q := .of H q) hn]
      cases u
      · cases t.size <;> rfl
      · rfl
  | «at» q =>
    rcases cases_ q with ⟨k, hk, e⟩ | hn
    · obtain ⟨t', res, o', h1, ⟨h2, h3⟩, h4⟩ := lstep_refines h (.at k) ⟨hd, hp⟩
      have e1 : t.hstep u H (.at q) = t.lstep u (.at k) := by
        show (t.qAt { Query.of H q with key := k }).map _ = _
        rw [e]; rfl
      subst h2
      exact ⟨t', res, o'.elems, e1.trans h1, ⟨rfl, by rw [hk]; simpa only [Has, Absent, and_assoc, exists_and_left] using h3⟩, h4⟩
    · refine ⟨t, .val none, o.elems, ?_, ⟨rfl, Or.inr ⟨fun e _ => hn e.1, rfl⟩⟩, h⟩
      simp only [Table.hstep, Table.qAt]
      split
      · rfl
      · rename_i h0
        rw [qFindNode_never h.inv (q := .of H q) hn h0]; rfl
  | erase q =>
    rcases cases_ q with ⟨k, hk, e⟩ | hn
    · obtain ⟨t', res, o', h1, ⟨h2, h3⟩, h4⟩ := lstep_refines h (.erase k) hd
      have e1 : t.hstep u H (.erase q) = t.lstep u (.erase k) := by
        show (if u = true then t.qEraseKeyUnique { Query.of H q with key := k }
          else t.qEraseKeyEquiv { Query.of H q with key := k }).map _ = _
        rw [e]; rfl
      subst h3
      exact ⟨t', res, _, e1.trans h1, ⟨by rw [hk]; exact h2, rfl⟩, by rw [hk]; exact h4⟩
    · have hz : o.elems.countP (fun e => H.eqL q e.1) = 0 := by rw [List.countP_eq_zero]; intro x _; rw [hn]; simp
      have hz2 : o.elems.filter (fun e => !H.eqL q e.1) = o.elems := by rw [List.filter_eq_self]; intro x _; rw [hn]; rfl
      refine ⟨t, .num 0, o.elems, ?_, ⟨by rw [hz], hz2.symm⟩, h⟩
      obtain ⟨a, b⟩ := qEraseKey_never h.inv (q := .of H q) hn
      simp only [Table.hstep, a, b]
      cases u <;> rfl
  | extract q =>
    rcases cases_ q with ⟨k, hk, e⟩ | hn
    · obtain ⟨t', res, o', h1, h2, h4⟩ := lstep_refines h (.extract k) hd
      have e1 : t.hstep u H (.extract q) = t.lstep u (.extract k) := by
        show (t.qExtract { Query.of H q with key := k }).map _ = _
        rw [e]; rfl
      rcases h2 with ⟨x, rest, a1, a2, a3, rfl⟩ | ⟨a1, a2, rfl⟩
      · exact ⟨t', res, rest, e1.trans h1, Or.inl ⟨x, rest, a1, by rw [hk]; exact a2, a3, rfl⟩, h4⟩
      · exact ⟨t', res, o'.elems, e1.trans h1, Or.inr ⟨by rw [hk]; exact a1, a2, rfl⟩, h4⟩
    · exact ⟨t, .elem none, o.elems, by simp only [Table.hstep, Table.qExtract, qFind_never h.inv (q := .of H q) hn]; rfl,
        Or.inr ⟨fun e _ => hn e.1, rfl, rfl⟩, h⟩
  | insert q v =>
    obtain ⟨hu, hm⟩ := hp
    subst hu
    obtain ⟨hk, e⟩ := made q hm
    obtain ⟨t', res, o', h1, ⟨x, b, h2, h3⟩, h4⟩ := lstep_refines h (.insert (H.make q, v)) hd
    have e1 : t.hstep true H (.insert q v) = t.lstep true (.insert (H.make q, v)) := by
      simp only [Table.hstep, Table.lstep, Table.opInsert, e, qEmplaceUnique_key, if_true]
      generalize t.emplaceUnique (H.make q, v) = y
      rcases y with _ | ⟨t', p, b⟩ <;> rfl
    subst h3
    rcases h2 with ⟨_, a1, rfl, rfl⟩ | ⟨a1, rfl, rfl, rfl⟩
    · exact ⟨t', _, o'.elems, e1.trans h1, Or.inl ⟨x, a1.1, by rw [hk]; exact a1.2, rfl, rfl⟩, h4⟩
    · exact ⟨t', _, _, e1.trans h1, Or.inr ⟨by rw [hk]; exact a1 rfl, rfl, rfl⟩, h4⟩
  | insertHint i q v =>
    obtain ⟨hu, hm, hi⟩ := hp
    subst hu
    obtain ⟨hk, e⟩ := made q hm
    obtain ⟨t', res, o', h1, ⟨x, b, h2, h3⟩, h4⟩ := lstep_refines h (.insertHint i (H.make q, v)) ⟨hd, hi⟩
    have e1 : t.hstep true H (.insertHint i q v) = t.lstep true (.insertHint i (H.make q, v)) := by
      simp only [Table.hstep, Table.lstep, Table.opInsertHint, e, if_true]
      generalize t.begin_.bind (t.advance i) = y
      cases y with
      | none => rfl
      | some hint =>
        dsimp only
        rw [qEmplaceHintUnique_key h.law]
        generalize t.emplaceHintUnique hint (H.make q, v) = z
        rcases z with _ | ⟨t', p⟩ <;> rfl
    subst h3
    rcases h2 with ⟨_, a1, rfl, rfl⟩ | ⟨a1, rfl, rfl, rfl⟩
    · exact ⟨t', _, o'.elems, e1.trans h1, Or.inl ⟨x, a1.1, by rw [hk]; exact a1.2, rfl, rfl⟩, h4⟩
    · exact ⟨t', _, _, e1.trans h1, Or.inr ⟨by rw [hk]; exact a1 rfl, rfl, rfl⟩, h4⟩
  | insertOrAssign q v =>
    obtain ⟨hu, hm⟩ := hp
    subst hu
    obtain ⟨hk, e⟩ := made q hm
    obtain ⟨t', res, o', h1, h2, h4⟩ := lstep_refines h (.insertOrAssign (H.make q) v) ⟨hd, rfl⟩
    have e1 : t.hstep true H (.insertOrAssign q v) = t.lstep true (.insertOrAssign (H.make q) v) := by
      simp only [Table.hstep, Table.lstep, Table.opInsertOrAssign, e, qInsertOrAssign_key]
      generalize t.insertOrAssign (H.make q) v = y
      rcases y with _ | ⟨t', p, b⟩ <;> rfl
    rcases h2 with ⟨x, a1, a2, rfl⟩ | ⟨a1, a2, rfl⟩
    · exact ⟨t', res, _, e1.trans h1, Or.inl ⟨x, a1.1, by rw [hk]; exact a1.2, a2, rfl⟩, by rw [hk]; exact h4⟩
    · exact ⟨t', res, _, e1.trans h1, Or.inr ⟨by rw [hk]; exact a1, a2, rfl⟩, h4⟩
  | index q d =>
    obtain ⟨hu, hm⟩ := hp
    subst hu
    obtain ⟨hk, e⟩ := made q hm
    obtain ⟨t', res, o', h1, h2, h4⟩ := lstep_refines h (.index (H.make q) d) ⟨hd, rfl⟩
    have e1 : t.hstep true H (.index q d) = t.lstep true (.index (H.make q) d) := by
      simp only [Table.hstep, Table.lstep, Table.opIndex, e, qEmplaceUnique_key]
      generalize t.emplaceUnique (H.make q, d) = y
      rcases y with _ | ⟨t', p, b⟩ <;> rfl
    rcases h2 with ⟨x, a1, a2, rfl⟩ | ⟨a1, a2, rfl⟩
    · exact ⟨t', res, o'.elems, e1.trans h1, Or.inl ⟨x, a1.1, by rw [hk]; exact a1.2, a2, rfl⟩, h4⟩
    · exact ⟨t', res, _, e1.trans h1, Or.inr ⟨by rw [hk]; exact a1, a2, rfl⟩, h4⟩

end Fca

/-
Element iterators over a `grouped_bucket_array`: where an iterator stands in the sequence of elements, and how `++` and node
removal move it.
-/
import Verif.Fca.GbaOps
import Verif.Fca.Table

namespace Fca
namespace Gba
variable {α : Type}

/-- the elements in iteration order -/
def elems (a : Gba α) (L : List Nat) : List α := (a.order L).flatMap a.chain

theorem chain_size {a : Gba α} {L : List Nat} (h : Ginv a L) : a.chain a.size = [] := h.beyond _ (Nat.le_refl _)

theorem elems_perm {a : Gba α} {L : List Nat} (h : Ginv a L) : (a.elems L).Perm a.contents := by
  unfold elems contents
  obtain ⟨xs, e⟩ := order_last h
  have hn := order_nodup h
  rw [e, List.flatMap_append]
  simp only [List.flatMap_cons, List.flatMap_nil, chain_size h, List.append_nil]
  -- split the range into non-empty and empty buckets
  have hp : (List.range a.size).Perm ((List.range a.size).filter (fun b => !(a.chain b).isEmpty) ++
      (List.range a.size).filter (fun b => !!(a.chain b).isEmpty)) := (List.filter_append_perm _ _).symm
  have h2 : ((List.range a.size).filter (fun b => !!(a.chain b).isEmpty)).flatMap a.chain = [] := by
    rw [List.flatMap_eq_nil_iff]
    intro b hb
    rw [List.mem_filter] at hb
    simpa using hb.2
  have h3 : xs.Perm ((List.range a.size).filter (fun b => !(a.chain b).isEmpty)) := by
    rw [e] at hn
    have hx : xs.Nodup := (List.nodup_append.mp hn).1
    rw [List.perm_ext_iff_of_nodup hx (List.nodup_range.filter _)]
    intro b
    rw [List.mem_filter, List.mem_range]
    have hm := mem_order h (b := b)
    rw [e, List.mem_append, List.mem_singleton] at hm
    have hne : b ∈ xs → b ≠ a.size := by
      rintro hb rfl
      exact (List.nodup_append.mp hn).2.2 _ hb _ (by simp) rfl
    constructor
    · intro hb
      have := (hm.mp (Or.inl hb)).resolve_left (hne hb)
      exact ⟨h.nonempty_lt this, by simpa using this⟩
    · rintro ⟨hb, hc⟩
      have : a.chain b ≠ [] := by simpa using hc
      exact (hm.mpr (Or.inr this)).resolve_right (by omega)
  refine (h3.flatMap_right a.chain).trans ?_
  refine List.Perm.trans ?_ (hp.symm.flatMap_right a.chain)
  rw [List.flatMap_append, h2, List.append_nil]

theorem mem_elems {a : Gba α} {L : List Nat} (h : Ginv a L) {x : α} : x ∈ a.elems L ↔ ∃ b, x ∈ a.chain b := by
  unfold elems
  rw [List.mem_flatMap]
  constructor
  · rintro ⟨b, _, hb⟩; exact ⟨b, hb⟩
  · rintro ⟨b, hb⟩
    exact ⟨b, (mem_order h).mpr (Or.inr (List.ne_nil_of_mem hb)), hb⟩

/-- The iterator `it` stands in front of `post`, having passed over `pre`. -/
def At (a : Gba α) (L : List Nat) : It → List α → List α → Prop
  | none, pre, post => pre = a.elems L ∧ post = []
  | some (bi, i), pre, post => bi.g = some (bi.p / 64) ∧ i < (a.chain bi.p).length ∧
      ∃ xs ys, a.order L = xs ++ bi.p :: ys ∧ pre = xs.flatMap a.chain ++ (a.chain bi.p).take i ∧
        post = (a.chain bi.p).drop i ++ ys.flatMap a.chain

theorem At.elems {a : Gba α} {L : List Nat} {it : It} {pre post : List α} (h : At a L it pre post) :
    a.elems L = pre ++ post := by
  cases it with
  | none => obtain ⟨rfl, rfl⟩ := h; simp
  | some q =>
    obtain ⟨bi, i⟩ := q
    obtain ⟨_, _, xs, ys, e, rfl, rfl⟩ := h
    unfold Gba.elems
    rw [e, List.flatMap_append, List.flatMap_cons, List.append_assoc, ← List.append_assoc (List.take _ _),
      List.take_append_drop]

theorem At.none_iff {a : Gba α} {L : List Nat} {it : It} {pre post : List α} (h : At a L it pre post) :
    it = none ↔ post = [] := by
  cases it with
  | none => simp [h.2]
  | some q =>
    obtain ⟨bi, i⟩ := q
    obtain ⟨_, hi, xs, ys, e, h1, h2⟩ := h
    simp only [reduceCtorEq, false_iff]
    intro hp
    rw [hp] at h2
    have := congrArg List.length h2
    simp at this
    omega

theorem At.some_of_cons {a : Gba α} {L : List Nat} {it : It} {pre post : List α} {x : α} (h : At a L it pre (x :: post)) :
    ∃ q, it = some q := by
  cases it with
  | none => exact absurd h.2 (by simp)
  | some q => exact ⟨q, rfl⟩

theorem get_of_le {a : Gba α} {L : List Nat} (h : Ginv a L) {it : BIt} (hp : it.p ≤ a.size) :
    a.get it = some (a.chain it.p) := by
  have := h.pos
  unfold get; rw [if_pos]; exact ⟨by omega, hp⟩

theorem order_le {a : Gba α} {L : List Nat} (h : Ginv a L) {b : Nat} (hb : b ∈ a.order L) : b ≤ a.size := by
  rcases (mem_order h).mp hb with rfl | h2
  · exact Nat.le_refl _
  · exact Nat.le_of_lt (h.nonempty_lt h2)

theorem At.deref {a : Gba α} {L : List Nat} (h : Ginv a L) {q : BIt × Nat} {pre post : List α} {x : α}
    (hc : At a L (some q) pre (x :: post)) : a.deref q = some x := by
  obtain ⟨bi, i⟩ := q
  obtain ⟨_, hi, xs, ys, e, h1, h2⟩ := hc
  unfold Gba.deref
  rw [get_of_le h (order_le h (by rw [e]; simp))]
  dsimp only
  rw [List.drop_eq_getElem_cons hi, List.cons_append] at h2
  rw [List.getElem?_eq_getElem hi]
  simp only [List.cons.injEq] at h2
  rw [h2.1]

/-- `++it` -/
theorem At.inc {a : Gba α} {L : List Nat} (h : Ginv a L) {q : BIt × Nat} {pre post : List α} {x : α}
    (hc : At a L (some q) pre (x :: post)) : ∃ it', a.incIt q = some it' ∧ At a L it' (pre ++ [x]) post := by
  obtain ⟨bi, i⟩ := q
  have hfull := hc.elems
  obtain ⟨hg, hi, xs, ys, e, h1, h2⟩ := hc
  obtain ⟨p, g⟩ := bi
  dsimp only at *
  subst hg
  have hple := order_le h (b := p) (by rw [e]; simp)
  rw [List.drop_eq_getElem_cons hi, List.cons_append] at h2
  simp only [List.cons.injEq] at h2
  obtain ⟨hx, hpost⟩ := h2
  unfold incIt
  rw [get_of_le h hple]
  dsimp only
  by_cases hn : i + 1 < (a.chain p).length
  · rw [if_pos hn]
    refine ⟨_, rfl, rfl, hn, xs, ys, e, ?_, hpost⟩
    dsimp only
    rw [h1, hx, List.append_assoc, List.take_append_getElem]
  · rw [if_neg hn]
    have hlen : (a.chain p).length = i + 1 := by omega
    have hdrop : (a.chain p).drop (i + 1) = [] := List.drop_of_length_le (by omega)
    rw [hdrop, List.nil_append] at hpost
    have hpne : p ≠ a.size := by
      rintro rfl
      rw [chain_size h] at hi; simp at hi
    cases ys with
    | nil =>
      exfalso
      obtain ⟨zs, e2⟩ := order_last h
      rw [e2] at e
      have := List.append_inj_right' e rfl
      simp at this
      exact hpne this.symm
    | cons c ys =>
      rw [inc_order h e]
      have hcle := order_le h (b := c) (by rw [e]; simp)
      dsimp only
      rw [get_of_le h hcle]
      dsimp only
      cases hch : a.chain c with
      | nil =>
        refine ⟨none, rfl, ?_⟩
        -- c is the end bucket, hence last
        have hcs : c = a.size := by
          rcases (mem_order h).mp (by rw [e]; simp : c ∈ a.order L) with h' | h'
          · exact h'
          · exact absurd hch h'
        have hys : ys = [] := by
          obtain ⟨zs, e2⟩ := order_last h
          have hnd := order_nodup h
          have e3 : (xs ++ [p]) ++ a.size :: ys = zs ++ [a.size] := by rw [← e2, e, hcs]; simp
          by_contra hne
          obtain ⟨ys', y, rfl⟩ : ∃ ys' y, ys = ys' ++ [y] :=
            ⟨ys.dropLast, ys.getLast hne, (List.dropLast_append_getLast hne).symm⟩
          have e4 : ((xs ++ [p]) ++ a.size :: ys') ++ [y] = zs ++ [a.size] := by rw [← e3]; simp
          have e5 := List.append_inj_left' e4 rfl
          rw [e2, List.nodup_append] at hnd
          exact hnd.2.2 a.size (by rw [← e5]; simp) a.size (by simp) rfl
        rw [hys] at hpost
        simp [hch] at hpost
        rw [hpost] at hfull
        exact ⟨by rw [hfull], hpost⟩
      | cons z zs =>
        refine ⟨some (⟨c, some (c / 64)⟩, 0), rfl, rfl, by simp [hch], xs ++ [p], ys, by rw [e]; simp, ?_, ?_⟩
        · dsimp only
          rw [h1, hx, List.append_assoc, List.take_append_getElem, List.take_of_length_le (by omega)]
          simp
        · dsimp only
          rw [hpost]; simp

/-- iterator in front of everything -/
theorem begin_at {a : Gba α} {L : List Nat} (h : Ginv a L) : ∃ it, a.beginIt = some it ∧ At a L it [] (a.elems L) := by
  unfold beginIt
  cases e : a.order L with
  | nil =>
    obtain ⟨xs, e2⟩ := order_last h
    rw [e] at e2; simp at e2
  | cons b ys =>
    rw [begin_order h e]
    dsimp only
    rw [get_of_le h (order_le h (b := b) (by rw [e]; simp))]
    dsimp only
    cases hch : a.chain b with
    | nil =>
      have hbs : b = a.size := by
        rcases (mem_order h).mp (by rw [e]; simp : b ∈ a.order L) with h' | h'
        · exact h'
        · exact absurd hch h'
      have hys : ys = [] := by
        obtain ⟨zs, e2⟩ := order_last h
        rw [e, hbs] at e2
        cases zs with
        | nil => simpa using e2
        | cons z zs =>
          simp only [List.cons_append, List.cons.injEq] at e2
          have hnd := order_nodup h
          rw [e, hbs, List.nodup_cons, e2.2] at hnd
          exact absurd (by simp) hnd.1
      have hel : a.elems L = [] := by unfold Gba.elems; rw [e, hys]; simp [hch]
      exact ⟨none, rfl, by rw [hel], hel⟩
    | cons z zs =>
      refine ⟨_, rfl, rfl, by simp [hch], [], ys, by rw [e]; rfl, by simp, ?_⟩
      unfold Gba.elems
      rw [e]; simp

theorem walk_at {a : Gba α} {L : List Nat} (h : Ginv a L) : ∀ (post pre : List α) (it : It) (f : Nat),
    At a L it pre post → post.length ≤ f → a.walk f it = some post := by
  intro post
  induction post with
  | nil =>
    intro pre it f hc _
    have := hc.none_iff.mpr rfl
    subst this
    unfold walk; rfl
  | cons x post ih =>
    intro pre it f hc hf
    obtain ⟨q, rfl⟩ := hc.some_of_cons
    obtain ⟨it', e1, e2⟩ := hc.inc h
    cases f with
    | zero => simp at hf
    | succ f =>
      unfold walk
      rw [hc.deref h, e1]
      dsimp only
      rw [ih _ it' f e2 (by simpa using hf)]
      rfl

/-! ### removal at an iterator -/

theorem flatMap_up_of_not_mem (f : Nat → List α) (b : Nat) (l : List α) {xs : List Nat} (h : b ∉ xs) :
    xs.flatMap (up f b l) = xs.flatMap f := by
  induction xs with
  | nil => rfl
  | cons x xs ih =>
    rw [List.mem_cons, not_or] at h
    rw [List.flatMap_cons, List.flatMap_cons, ih h.2, up_ne _ _ (Ne.symm h.1)]

/-- Elements after changing one bucket: order unchanged if still non-empty, otherwise the bucket disappears. -/
theorem extractNode_elems {a : Gba α} {L : List Nat} (h : Ginv a L) {q : BIt × Nat} {pre post : List α} {x : α}
    (hc : At a L (some q) pre (x :: post)) :
    ∃ a' L', a.extractNode q.1 q.2 = some a' ∧ Ginv a' L' ∧ a'.size = a.size ∧ a'.si = a.si ∧ a'.mal = a.mal ∧
      a'.chain = up a.chain q.1.p ((a.chain q.1.p).eraseIdx q.2) ∧ a'.elems L' = pre ++ post ∧
      a'.order L' = if (a.chain q.1.p).eraseIdx q.2 = [] then (a.order L).filter (fun x => decide (x ≠ q.1.p))
        else a.order L := by
  obtain ⟨⟨p, g⟩, i⟩ := q
  obtain ⟨hg, hi, xs, ys, e, h1, h2⟩ := hc
  dsimp only at *
  subst hg
  obtain ⟨a', L', e1, e2, e3, e4, e5, e6, e7⟩ := extractNode_spec h hi
  refine ⟨a', L', e1, e2, e3, e4, e5, e6, ?_, e7⟩
  have hnd := order_nodup h
  rw [e, List.nodup_append] at hnd
  obtain ⟨_, hnd2, hnd3⟩ := hnd
  rw [List.nodup_cons] at hnd2
  have hpx : p ∉ xs := fun hm => hnd3 p hm p (by simp) rfl
  have hpy : p ∉ ys := hnd2.1
  rw [List.drop_eq_getElem_cons hi, List.cons_append] at h2
  simp only [List.cons.injEq] at h2
  obtain ⟨hx, hpost⟩ := h2
  have her : (a.chain p).eraseIdx i = (a.chain p).take i ++ (a.chain p).drop (i + 1) :=
    List.eraseIdx_eq_take_drop_succ _ _
  unfold elems
  rw [e7, e6]
  split
  · rename_i hnil
    have hf : (a.order L).filter (fun x => decide (x ≠ p)) = xs ++ ys := by
      rw [e, List.filter_append, List.filter_cons]
      have f1 : xs.filter (fun x => decide (x ≠ p)) = xs := by
        rw [List.filter_eq_self]; intro z hz
        simp; rintro rfl; exact hpx hz
      have f2 : ys.filter (fun x => decide (x ≠ p)) = ys := by
        rw [List.filter_eq_self]; intro z hz
        simp; rintro rfl; exact hpy hz
      rw [f1, f2]; simp
    rw [hf, List.flatMap_append, flatMap_up_of_not_mem _ _ _ hpx, flatMap_up_of_not_mem _ _ _ hpy, h1, hpost]
    rw [her] at hnil
    rw [List.append_eq_nil_iff] at hnil
    rw [hnil.1, hnil.2]; simp
  · rw [e, List.flatMap_append, List.flatMap_cons, flatMap_up_of_not_mem _ _ _ hpx, flatMap_up_of_not_mem _ _ _ hpy,
      up_same, h1, hpost, her]
    simp

/-- Unlinking the node under the iterator: the returned iterator stands at the following element. -/
theorem extractIt_at {a : Gba α} {L : List Nat} (h : Ginv a L) {q : BIt × Nat} {pre post : List α} {x : α}
    (hc : At a L (some q) pre (x :: post)) :
    ∃ a' L' it', a.extractIt q = some (a', x, it') ∧ Ginv a' L' ∧ a'.size = a.size ∧ a'.si = a.si ∧ a'.mal = a.mal ∧
      a'.chain = up a.chain q.1.p ((a.chain q.1.p).eraseIdx q.2) ∧ At a' L' it' pre post := by
  obtain ⟨a', L', e1, e2, e3, e4, e5, e6, e7, e8⟩ := extractNode_elems h hc
  obtain ⟨nx, i1, i2⟩ := hc.inc h
  unfold extractIt
  rw [hc.deref h, i1]
  dsimp only
  rw [e1]
  refine ⟨a', L', _, rfl, e2, e3, e4, e5, e6, ?_⟩
  cases nx with
  | none =>
    obtain ⟨hp1, hp2⟩ := i2
    refine ⟨?_, hp2⟩
    rw [e7, hp2]; simp
  | some q' =>
    obtain ⟨⟨p', g'⟩, j⟩ := q'
    obtain ⟨⟨p, g⟩, i⟩ := q
    obtain ⟨hg, hi, xs, ys, e, h1, h2⟩ := hc
    obtain ⟨hg', hj, xs', ys', e', h1', h2'⟩ := i2
    dsimp only at *
    subst hg hg'
    have hnd := order_nodup h
    have hndx := hnd
    rw [e, List.nodup_append] at hnd
    obtain ⟨_, hnd2, hnd3⟩ := hnd
    rw [List.nodup_cons] at hnd2
    have hpx : p ∉ xs := fun hm => hnd3 p hm p (by simp) rfl
    have hpy : p ∉ ys := hnd2.1
    have her : (a.chain p).eraseIdx i = (a.chain p).take i ++ (a.chain p).drop (i + 1) :=
      List.eraseIdx_eq_take_drop_succ _ _
    rw [List.drop_eq_getElem_cons hi, List.cons_append] at h2
    simp only [List.cons.injEq] at h2
    obtain ⟨hx, hpost⟩ := h2
    by_cases hpp : p' = p
    · rw [if_pos hpp]
      subst hpp
      -- same bucket: index i+1
      have hsplit : xs' = xs ∧ ys' = ys := by
        have := e.symm.trans e'
        have hpx' : p' ∉ xs' := by
          rw [e', List.nodup_append] at hndx
          intro hm; exact hndx.2.2 p' hm p' (by simp) rfl
        rcases List.append_eq_append_iff.mp this with ⟨as, u1, u2⟩ | ⟨as, u1, u2⟩
        · cases as with
          | nil => simp at u1 u2; exact ⟨u1, u2.symm⟩
          | cons z as =>
            simp only [List.cons_append, List.cons.injEq] at u2
            exfalso; apply hpx'; rw [u1, ← u2.1]; simp
        · cases as with
          | nil => simp at u1 u2; exact ⟨u1.symm, u2⟩
          | cons z as =>
            simp only [List.cons_append, List.cons.injEq] at u2
            exfalso; apply hpx; rw [u1, ← u2.1]; simp
      obtain ⟨rfl, rfl⟩ := hsplit
      have hji : j = i + 1 := by
        have l1 := congrArg List.length h1'
        rw [h1] at l1
        simp only [List.length_append, List.length_take, List.length_cons, List.length_nil] at l1
        omega
      subst hji
      have hlen : i < ((a.chain p').eraseIdx i).length := by
        rw [List.length_eraseIdx_of_lt hi]; omega
      have hne : (a.chain p').eraseIdx i ≠ [] := by
        intro hnil; rw [hnil] at hlen; simp at hlen
      rw [if_neg hne] at e8
      refine ⟨rfl, ?_, xs', ys', by rw [e8, e], ?_, ?_⟩
      · simp only []; rw [e6, up_same]; simpa using hlen
      · dsimp only
        rw [e6, up_same, flatMap_up_of_not_mem _ _ _ hpx, h1, her]
        rw [Nat.add_sub_cancel, List.take_append_of_le_length (by simp; omega), List.take_take, Nat.min_self]
      · dsimp only
        rw [e6, up_same, flatMap_up_of_not_mem _ _ _ hpy, hpost, her, Nat.add_sub_cancel,
          List.drop_append_of_le_length (by simp; omega)]
        simp
    · rw [if_neg hpp]
      refine ⟨rfl, ?_, ?_⟩
      · simp only []; rw [e6, up_ne _ _ hpp]; exact hj
      · dsimp only
        rw [e6, up_ne _ _ hpp]
        -- next bucket: i was the last index of its chain
        have hpmem : p' ∈ ys := by
          -- p' occurs after p: otherwise pre would not contain x's bucket prefix
          have hm : p' ∈ a.order L := by rw [e']; simp
          rw [e, List.mem_append, List.mem_cons] at hm
          rcases hm with hm | hm | hm
          · exfalso
            obtain ⟨u, v, rfl⟩ := List.append_of_mem hm
            -- then xs' = u, so pre ++ [x] is shorter than pre
            have hu : xs' = u := by
              have e9 : u ++ p' :: (v ++ p :: ys) = xs' ++ p' :: ys' := by rw [← e', e]; simp
              have hpx' : p' ∉ xs' := by
                rw [e', List.nodup_append] at hndx
                intro hm; exact hndx.2.2 p' hm p' (by simp) rfl
              have hpu : p' ∉ u := by
                rw [e, List.nodup_append, List.nodup_append] at hndx
                intro hm; exact hndx.1.2.2 p' hm p' (by simp) rfl
              rcases List.append_eq_append_iff.mp e9 with ⟨as, u1, u2⟩ | ⟨as, u1, u2⟩
              · cases as with
                | nil => simpa using u1
                | cons z as =>
                  simp only [List.cons_append, List.cons.injEq] at u2
                  exfalso; apply hpx'; rw [u1, ← u2.1]; simp
              · cases as with
                | nil => simpa using u1.symm
                | cons z as =>
                  simp only [List.cons_append, List.cons.injEq] at u2
                  exfalso; apply hpu; rw [u1, ← u2.1]; simp
            have l1 := congrArg List.length h1'
            rw [h1, hu] at l1
            simp only [List.length_append, List.length_take, List.length_cons, List.length_nil, List.flatMap_append,
              List.flatMap_cons] at l1
            omega
          · exact absurd hm hpp
          · exact hm
        obtain ⟨u, v, hys⟩ := List.append_of_mem hpmem
        have hxs' : xs' = xs ++ p :: u ∧ ys' = v := by
          have e9 : (xs ++ p :: u) ++ p' :: v = xs' ++ p' :: ys' := by rw [← e', e, hys]; simp
          have hpx' : p' ∉ xs' := by
            rw [e', List.nodup_append] at hndx
            intro hm; exact hndx.2.2 p' hm p' (by simp) rfl
          have hpu : p' ∉ xs ++ p :: u := by
            rw [e, hys] at hndx
            have : ((xs ++ p :: u) ++ p' :: v).Nodup := by simpa using hndx
            rw [List.nodup_append] at this
            intro hm; exact this.2.2 p' hm p' (by simp) rfl
          rcases List.append_eq_append_iff.mp e9 with ⟨as, u1, u2⟩ | ⟨as, u1, u2⟩
          · cases as with
            | nil => simp at u1 u2; exact ⟨by simpa using u1, u2.symm⟩
            | cons z as =>
              simp only [List.cons_append, List.cons.injEq] at u2
              exfalso; apply hpx'; rw [u1, ← u2.1]; simp
          · cases as with
            | nil => simp at u1 u2; exact ⟨by simpa using u1.symm, u2⟩
            | cons z as =>
              simp only [List.cons_append, List.cons.injEq] at u2
              exfalso; apply hpu; rw [u1, ← u2.1]; simp
        obtain ⟨rfl, rfl⟩ := hxs'
        have hpu : p ∉ u := fun hm => hpy (by rw [hys]; simp [hm])
        have hpv : p ∉ ys' := fun hm => hpy (by rw [hys]; simp [hm])
        -- lengths: x is the last of its chain
        have hl := congrArg List.length h1'
        rw [h1] at hl
        simp only [List.length_append, List.length_take, List.length_cons, List.length_nil, List.flatMap_append,
          List.flatMap_cons] at hl
        have hone : (a.chain p).length = i + 1 := by omega
        have hu0 : u.flatMap a.chain = [] := by
          apply List.eq_nil_of_length_eq_zero; omega
        have hj0 : j = 0 := by omega
        have herl : (a.chain p).eraseIdx i = (a.chain p).take i := by
          rw [her, List.drop_of_length_le (by omega : (a.chain p).length ≤ i + 1), List.append_nil]
        split at e8
        · rename_i hnil
          refine ⟨xs ++ u, ys', ?_, ?_, ?_⟩
          · rw [e8, e', List.filter_append, List.filter_append, List.filter_cons, List.filter_cons]
            have f1 : ∀ {l : List Nat}, p ∉ l → l.filter (fun x => decide (x ≠ p)) = l := by
              intro l hl
              rw [List.filter_eq_self]; intro z hz
              simp; rintro rfl; exact hl hz
            rw [f1 hpx, f1 hpu, f1 hpv]
            simp [hpp]
          · rw [List.flatMap_append, flatMap_up_of_not_mem _ _ _ hpx, flatMap_up_of_not_mem _ _ _ hpu, hu0, hj0, h1]
            rw [herl] at hnil
            rw [hnil]; simp
          · rw [flatMap_up_of_not_mem _ _ _ hpv]; exact h2'
        · refine ⟨xs ++ p :: u, ys', by rw [e8, e'], ?_, ?_⟩
          · rw [List.flatMap_append, List.flatMap_cons, flatMap_up_of_not_mem _ _ _ hpx,
              flatMap_up_of_not_mem _ _ _ hpu, up_same, herl, hu0, hj0, h1]
            simp
          · rw [flatMap_up_of_not_mem _ _ _ hpv]; exact h2'

end Gba
end Fca

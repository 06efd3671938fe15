/-
Programs over closed-addressing containers with exceptions refine the abstract specification; the ledgers balance.
-/
import Verif.Fca.Refine
import Verif.Fca.ExcMachine
import Mathlib.Algebra.BigOperators.Group.Finset.Basic
import Mathlib.Tactic.Ring

namespace Fca
open Spec (Res Traits upd)
open SpecC (Contig Obj LOp Op Absent Has Inserts InsertsAll LStep LPre Loses LThrown Thrown)
variable {K V : Type}

theorem AddedAll.size' {t t' : Table K V} {xs : List (K × V)} (ha : AddedAll t xs t') (h : SInv t) :
    t'.size = t.size + xs.length := by
  have := ha.perm.length_eq
  rw [List.length_append, ← ha.inv.len, ← h.len] at this
  omega

theorem Gba.new_size_irrel {α β : Type} (n al : Nat) : (Gba.new n al : Gba α).size = (Gba.new n al : Gba β).size := by
  unfold Gba.new; split <;> rfl

/-- hashing cannot throw -/
def safe (may : Call → Bool) : Bool := !may .hash

theorem safe_iff {may : Call → Bool} (h : safe may = true) : may .hash = false := by
  unfold safe at h; simpa using h

theorem Out.Sat.then_ {α β σ : Type} {o : Out α σ} {f : α → Option β} {D : Env → β → Prop} {T : Env → σ → Prop}
    (h : o.Sat (fun e a => ∃ b, f a = some b ∧ D e b) T) : (o.then_ f).Sat D T := by
  refine Out.Sat.bind (h.mono ?_ (fun _ _ h => h))
  rintro e a ⟨b, h1, h2⟩
  exact ofOpt_sat h1 h2

section
variable {u : Bool} {t t' : Table K V} {o : Obj K V} {may : Call → Bool} {e e' : Env}

theorem R.of_removed (h : R u t o) (hd : o.defined = true) {lost : List (K × V)} (hr : Removed t lost t') :
    o.elems.Perm (lost ++ t'.contents) ∧ R u t' { o with elems := t'.contents } :=
  ⟨(h.elems hd).symm.trans hr.perm, h.removed hd hr (List.Perm.refl _)⟩

theorem R.lost (h : R u t o) (hd : o.defined = true) (hl : Lost may e t e' t') :
    ∃ l, Loses (safe may) o.elems l ∧ R u t' { o with elems := l } := by
  obtain ⟨lost, h1, h2, h3⟩ := hl
  obtain ⟨k1, k2⟩ := h.of_removed hd h1
  by_cases hs : safe may = true
  · have := h3 (safe_iff hs); subst this
    exact ⟨o.elems, ⟨[], List.Perm.refl _, fun _ => rfl⟩, h⟩
  · exact ⟨t'.contents, ⟨lost, k1, fun h => absurd h hs⟩, k2⟩

theorem R.tkept (h : R u t o) {lost : List (K × V)} (hl : TKept may t lost t') :
    ∃ l, Loses (safe may) o.elems l ∧ R u t' { o with elems := l } := by
  by_cases hd : o.defined = true
  · refine ⟨t'.contents, ⟨lost, (h.elems hd).symm.trans hl.perm, fun hs => hl.safe (safe_iff hs)⟩, hl.inv,
      by rw [hl.fns]; exact h.law, by rw [hl.fns]; exact h.eq, by rw [hl.al]; exact h.al, fun _ => ?_, fun _ => List.Perm.refl _⟩
    rw [hl.fns]; exact hl.shape u _ h.law (h.shape hd)
  · exact ⟨o.elems, ⟨[], List.Perm.refl _, fun _ => rfl⟩, hl.inv, by rw [hl.fns]; exact h.law, by rw [hl.fns]; exact h.eq,
      by rw [hl.al]; exact h.al, fun h => absurd h hd, fun h => absurd h hd⟩

/-- what a call on one container must satisfy -/
def LGood (may : Call → Bool) (u : Bool) (t : Table K V) (o : Obj K V) (op : LOp K V) (e : Env)
    (x : Out (Table K V × Res K V) (Table K V)) : Prop :=
  x.Sat (fun e' y => t.lstep u op = some y ∧ Bal e t e' y.1)
    (fun e' t' => (∃ o', LThrown u (safe may) o op o' ∧ R u t' o') ∧ Bal e t e' t')

theorem RSat.sat {o : Out (Table K V) (Table K V)} {r : Option (Table K V)} (h : RSat may o r e t) :
    o.Sat (fun e' t' => r = some t' ∧ Led e e' 0 (t'.blocks - t.blocks)) (Lost may e t) := h

/-- the answer through an iterator the call returned -/
theorem read_good (h : R u t o) (op : LOp K V) (hp : LPre u o op) {α : Type} {x : Out α (Table K V)} {base : Option α}
    {f : α → Option (Table K V × Res K V)} {pj : α → Table K V} {T : Env → Table K V → Prop}
    (hx : x.Sat (fun e' r => base = some r ∧ Bal e t e' (pj r)) T)
    (hb : t.lstep u op = base.bind f) (hpj : ∀ a y, f a = some y → y.1 = pj a)
    (hT : ∀ e' t', T e' t' → (∃ o', LThrown u (safe may) o op o' ∧ R u t' o') ∧ Bal e t e' t') :
    LGood may u t o op e (x.then_ f) := by
  refine Out.Sat.then_ (hx.mono ?_ hT)
  rintro e' r ⟨h1, h2⟩
  obtain ⟨t', res, o', h3, _, _⟩ := lstep_refines h op hp
  have h4 := h3
  rw [hb, h1] at h4
  have h4 : f r = some (t', res) := h4
  refine ⟨_, h4, h3, ?_⟩
  rw [hpj _ _ h4]; exact h2

/-- calls that only look -/
theorem look_good (h : R u t o) (op : LOp K V) (hp : LPre u o op) (hT : LThrown u (safe may) o op o) {α : Type}
    {x : Out α (Table K V)} {a : α} {f : α → Option (Table K V × Res K V)}
    (hx : x.Sat (fun e' r => r = a ∧ Led e e' 0 0) (fun e' t' => t' = t ∧ Led e e' 0 0))
    (hb : t.lstep u op = f a) (hpj : ∀ a y, f a = some y → y.1 = t) :
    LGood may u t o op e (x.then_ f) := by
  refine read_good h op hp (base := some a) (pj := fun _ => t) (hx.mono ?_ (fun _ _ h => h)) hb hpj ?_
  · rintro e' _ ⟨rfl, h2⟩; exact ⟨rfl, Bal.refl h2⟩
  · rintro e' _ ⟨rfl, h2⟩; exact ⟨⟨o, hT, h⟩, Bal.refl h2⟩

theorem plainX2_good (h : R u t o) (op : LOp K V) (hp : LPre u o op) :
    LGood may u t o op e (Table.lstepX.plainX2 t (t.lstep u op) e) := by
  obtain ⟨t', res, o', h3, _, _⟩ := lstep_refines h op hp
  rw [h3]
  exact ⟨h3, led_destroy _ _ _⟩

end

theorem find_some {u : Bool} {t : Table K V} {o : Obj K V} (h : R u t o) (hd : o.defined = true) (k : K) :
    ∃ r, t.find k = some r := by
  rcases find_spec h.inv h.law (h.shape hd).1 k with ⟨h1, _⟩ | ⟨i, x, h1, _⟩
  · exact ⟨_, h1⟩
  · exact ⟨_, h1⟩

theorem findNode_some {u : Bool} {t : Table K V} {o : Obj K V} (h : R u t o) (hd : o.defined = true) (k : K) :
    ∃ r, t.findNode k = some r := by
  rcases findNode_spec h.inv h.law (h.shape hd).1 k with ⟨h1, _⟩ | ⟨i, x, h1, _⟩
  · exact ⟨_, h1⟩
  · exact ⟨_, h1⟩

theorem insertsAll_defined {u : Bool} {o o' : Obj K V} {xs : List (K × V)} (h : InsertsAll u o xs o') :
    o'.defined = o.defined := by
  induction h with
  | nil => rfl
  | cons h1 _ ih => exact ih.trans (Fca.Inserts.defined h1)

theorem map_fst {α : Type} {t : Table K V} {x : Option α} {g : α → Res K V} {y : Table K V × Res K V}
    (h : x.map (fun a => (t, g a)) = some y) : y.1 = t := by
  cases x with
  | none => cases h
  | some a => cases h; rfl

theorem lstepX_good (may : Call → Bool) (nf : Bool) {u : Bool} {t : Table K V} {o : Obj K V} (h : R u t o) (op : LOp K V)
    (hp : LPre u o op) (e : Env) : LGood may u t o op e (t.lstepX may u nf op e) := by
  cases op with
  | insert x =>
    have hd : o.defined = true := hp
    simp only [Table.lstepX]
    cases u with
    | true =>
      rw [if_pos rfl]
      refine read_good h _ hp (emplaceUniqueX_sat may nf h.inv h.law (h.shape hd) x e) (pj := fun r => r.1) ?_
        (fun _ _ h => map_fst h) ?_
      · simp only [Table.lstep, Table.opInsert, if_true]
        cases t.emplaceUnique x <;> rfl
      · intro e' t' hl
        obtain ⟨l, k1, k2⟩ := h.lost hd hl
        exact ⟨⟨_, ⟨l, k1, rfl⟩, k2⟩, hl.bal⟩
    | false =>
      rw [if_neg (by simp)]
      refine read_good h _ hp (emplaceEquivX_sat may h.inv h.law (h.shape hd) x e) (pj := fun r => r.1) ?_
        (fun _ _ h => map_fst h) ?_
      · simp only [Table.lstep, Table.opInsert, Bool.false_eq_true, if_false]
        cases t.emplaceEquiv x <;> rfl
      · intro e' t' hl
        obtain ⟨l, k1, k2⟩ := h.lost hd hl
        exact ⟨⟨_, ⟨l, k1, rfl⟩, k2⟩, hl.bal⟩
  | insertHint i x =>
    have hd : o.defined = true := hp.1
    obtain ⟨hint, hh, hn⟩ := hint_node h.inv (i := i) (by rw [h.size hd]; exact hp.2)
    simp only [Table.lstepX, hh]
    have hT : ∀ e' t', Lost may e t e' t' →
        (∃ o', LThrown u (safe may) o (.insertHint i x) o' ∧ R u t' o') ∧ Bal e t e' t' := by
      intro e' t' hl
      obtain ⟨l, k1, k2⟩ := h.lost hd hl
      exact ⟨⟨_, ⟨l, k1, rfl⟩, k2⟩, hl.bal⟩
    cases u with
    | true =>
      rw [if_pos rfl]
      refine read_good h _ hp (emplaceHintUniqueX_sat may nf h.inv h.law (h.shape hd) hint hn x e) (pj := fun r => r.1) ?_
        (fun _ _ h => map_fst h) hT
      simp only [Table.lstep, Table.opInsertHint, hh, if_true]
      cases t.emplaceHintUnique hint x <;> rfl
    | false =>
      rw [if_neg (by simp)]
      refine read_good h _ hp (emplaceHintEquivX_sat may h.inv h.law (h.shape hd) hint hn x e) (pj := fun r => r.1) ?_
        (fun _ _ h => map_fst h) hT
      simp only [Table.lstep, Table.opInsertHint, hh, Bool.false_eq_true, if_false]
      cases t.emplaceHintEquiv hint x <;> rfl
  | insertRange fwd xs =>
    have hd : o.defined = true := hp
    simp only [Table.lstepX]
    cases u with
    | true =>
      rw [if_pos rfl]
      refine read_good h _ hp (insertRangeUniqueX_sat may xs h.inv h.law (h.shape hd) e) (pj := fun r => r) ?_
        (fun _ _ h => by cases h; rfl) ?_
      · simp only [Table.lstep, Table.opInsertRange, if_true]
        cases Table.insertRangeUnique xs t <;> rfl
      · rintro e' t' ⟨ys, zs, t1, e1, h1, h2, h3, h4, h5⟩
        obtain ⟨t2, o2, j1, j2, j3⟩ := insertRangeUnique_refines ys h hd
        rw [h3] at j1; cases j1
        obtain ⟨l, k1, k2⟩ := j3.lost (by rw [insertsAll_defined j2]; exact hd) h5
        exact ⟨⟨_, ⟨ys, zs, o2, l, h1, h2, j2, k1, rfl⟩, k2⟩, h4.trans h5.bal⟩
    | false =>
      rw [if_neg (by simp)]
      have hT : ∀ e' t' (ys zs ws : List (K × V)) (t1 : Table K V) (e1 : Env), xs = ys ++ zs → zs ≠ [] → ws.Perm ys.reverse →
          Grown t ws t1 → Bal e t e1 t1 → Lost may e1 t1 e' t' →
          (∃ o', LThrown false (safe may) o (.insertRange fwd xs) o' ∧ R false t' o') ∧ Bal e t e' t' := by
        intro e' t' ys zs ws t1 e1 h1 h2 h0 h3 h4 h5
        have hR := h.addedAll hd h3.add h3.shape (l := ys.reverse ++ o.elems) (h0.append_right _)
        obtain ⟨l, k1, k2⟩ := hR.lost hd h5
        exact ⟨⟨_, ⟨ys, zs, _, l, h1, h2, insertsAll_equiv ys o, k1, rfl⟩, k2⟩, h4.trans h5.bal⟩
      cases fwd with
      | true =>
        rw [if_pos rfl]
        refine read_good h _ hp (insertRangeEquivX_sat may xs h.inv h.law (h.shape hd) e) (pj := fun r => r) ?_
          (fun _ _ h => by cases h; rfl) ?_
        · simp only [Table.lstep, Table.opInsertRange, if_true, Bool.false_eq_true, if_false]
          cases Table.insertRangeEquiv t xs <;> rfl
        · rintro e' t' ⟨ys, zs, t1, e1, h1, h2, h3, h4, h5⟩
          exact hT e' t' ys zs ys t1 e1 h1 h2 (List.reverse_perm _).symm h3 h4 h5
      | false =>
        rw [if_neg (by simp)]
        refine read_good h _ hp (insertRangeEquiv1X_sat may xs h.inv h.law (h.shape hd) e) (pj := fun r => r) ?_
          (fun _ _ h => by cases h; rfl) ?_
        · simp only [Table.lstep, Table.opInsertRange, Bool.false_eq_true, if_false]
          cases Table.insertRangeEquiv1 xs t <;> rfl
        · rintro e' t' ⟨ys, zs, t1, e1, h1, h2, h3, h4, h5⟩
          exact hT e' t' ys zs ys.reverse t1 e1 h1 h2 (List.Perm.refl _) h3 h4 h5
  | insertOrAssign k v =>
    obtain ⟨hd, rfl⟩ := hp
    simp only [Table.lstepX]
    refine read_good h (.insertOrAssign k v) ⟨hd, rfl⟩ (insertOrAssignX_sat may h.inv h.law (h.shape hd) k v e) (pj := fun r => r.1) ?_
      (fun _ _ h => map_fst h) ?_
    · simp only [Table.lstep, Table.opInsertOrAssign]
      cases t.insertOrAssign k v <;> rfl
    · intro e' t' hl
      obtain ⟨l, k1, k2⟩ := h.lost hd hl
      exact ⟨⟨_, ⟨l, k1, rfl⟩, k2⟩, hl.bal⟩
  | index k d =>
    obtain ⟨hd, rfl⟩ := hp
    simp only [Table.lstepX]
    refine read_good h (.index k d) ⟨hd, rfl⟩ (emplaceUniqueX_sat may false h.inv h.law (h.shape hd) (k, d) e) (pj := fun r => r.1) ?_
      (fun _ _ h => map_fst h) ?_
    · simp only [Table.lstep, Table.opIndex]
      cases t.emplaceUnique (k, d) <;> rfl
    · intro e' t' hl
      obtain ⟨l, k1, k2⟩ := h.lost hd hl
      exact ⟨⟨_, ⟨l, k1, rfl⟩, k2⟩, hl.bal⟩
  | «at» k =>
    obtain ⟨hd, rfl⟩ := hp
    simp only [Table.lstepX]
    by_cases h0 : t.size = 0
    · rw [if_pos h0]
      exact ⟨by simp only [Table.lstep, Table.opAt, h0, if_true, Option.map_some, Option.map_none], Bal.refl (Led.refl e)⟩
    · rw [if_neg h0]
      obtain ⟨r, hr⟩ := findNode_some h hd k
      refine look_good h (.at k) ⟨hd, rfl⟩ rfl (a := r) (findNodeX_sat may hr t e (fun e' l => ⟨rfl, l⟩) (fun e' l => ⟨rfl, l⟩)) ?_
        (fun _ _ h => map_fst h)
      simp only [Table.lstep, Table.opAt, h0, if_false, hr, Option.bind_some]
  | find k =>
    have hd : o.defined = true := hp
    obtain ⟨r, hr⟩ := find_some h hd k
    simp only [Table.lstepX]
    refine look_good h _ hp rfl (a := r) (findX_sat may hr t e (fun e' l => ⟨rfl, l⟩) (fun e' l => ⟨rfl, l⟩)) ?_
      (fun _ _ h => map_fst h)
    simp only [Table.lstep, Table.opFind, hr, Option.bind_some]
  | count k =>
    have hd : o.defined = true := hp
    simp only [Table.lstepX]
    cases u with
    | true =>
      rw [if_pos rfl]
      obtain ⟨r, hr⟩ := findNode_some h hd k
      refine look_good h _ hp rfl (a := r) (findNodeX_sat may hr t e (fun e' l => ⟨rfl, l⟩) (fun e' l => ⟨rfl, l⟩)) ?_
        (fun _ _ h => by cases h; rfl)
      simp only [Table.lstep, Table.opCount, if_true, hr, Option.map_some]
    | false =>
      rw [if_neg (by simp)]
      have hg := groupCount_spec h.inv h.law (h.shape hd) k
      refine look_good h _ hp rfl (a := t.contents.countP (fun e => t.fns.eq k e.1)) ((groupCountX_sat may h.inv h.law (h.shape hd) k e).mono ?_ (fun _ _ h => h)) ?_
        (fun _ _ h => by cases h; rfl)
      · rintro e' n ⟨h1, h2⟩
        rw [hg] at h1; cases h1
        exact ⟨rfl, h2⟩
      · simp only [Table.lstep, Table.opCount, Bool.false_eq_true, if_false, hg, Option.map_some]
  | contains k =>
    have hd : o.defined = true := hp
    obtain ⟨r, hr⟩ := find_some h hd k
    simp only [Table.lstepX]
    refine look_good h _ hp rfl (a := r) (findX_sat may hr t e (fun e' l => ⟨rfl, l⟩) (fun e' l => ⟨rfl, l⟩)) ?_
      (fun _ _ h => by cases h; rfl)
    simp only [Table.lstep, hr, Option.map_some]
  | equalRange k =>
    have hd : o.defined = true := hp
    obtain ⟨r, hr⟩ := find_some h hd k
    simp only [Table.lstepX]
    cases u with
    | true =>
      rw [if_pos rfl]
      obtain ⟨l, h1, h2⟩ := equalRangeUnique_spec h.inv h.law (h.shape hd) k
      refine look_good h _ hp rfl (a := l) ?_ ?_ (fun _ _ h => by cases h; rfl)
      · refine Out.Sat.then_ (findX_sat may hr t e (fun e' l' => ⟨l, ?_, rfl, l'⟩) (fun e' l => ⟨rfl, l⟩))
        unfold Table.equalRangeUnique at h1
        rw [hr] at h1
        cases r with
        | none => exact h1
        | some it =>
          dsimp only at h1 ⊢
          revert h1
          cases t.b.deref it <;> cases t.b.incIt it <;> intro h1 <;> exact h1
      · simp only [Table.lstep, Table.opEqualRange, if_true, h1, Option.map_some]
    | false =>
      rw [if_neg (by simp)]
      obtain ⟨l, h1, h2⟩ := equalRangeEquiv_spec h.inv h.law (h.shape hd) k
      refine look_good h _ hp rfl (a := l) ?_ ?_ (fun _ _ h => by cases h; rfl)
      · unfold Table.equalRangeEquiv at h1
        rw [hr] at h1
        dsimp only at h1
        cases hn : t.nextGroup k t.size r with
        | none => rw [hn] at h1; cases h1
        | some g =>
          rw [hn] at h1; cases h1
          refine Out.Sat.bind (findX_sat may hr t e (fun e1 l1 => ?_) (fun e' l => ⟨rfl, l⟩))
          refine Out.Sat.then_ ((nextGroupX_sat may t k t t.size r e1 g hn).mono ?_ ?_)
          · rintro e2 g' ⟨hg, l2⟩
            exact ⟨_, rfl, by rw [hg], l1.trans l2 (by omega) (by omega)⟩
          · rintro e2 _ ⟨rfl, l2⟩
            exact ⟨rfl, l1.trans l2 (by omega) (by omega)⟩
      · simp only [Table.lstep, Table.opEqualRange, Bool.false_eq_true, if_false, h1, Option.map_some]
  | erase k =>
    have hd : o.defined = true := hp
    simp only [Table.lstepX]
    cases u with
    | true =>
      rw [if_pos rfl]
      refine read_good h _ hp (eraseKeyUniqueX_sat may h.inv h.law (h.shape hd).1 k e) (pj := fun r => r.1) ?_
        (fun _ _ h => by cases h; rfl) ?_
      · simp only [Table.lstep, Table.opErase, if_true]
        cases t.eraseKeyUnique k <;> rfl
      · rintro e' _ ⟨rfl, l⟩
        exact ⟨⟨o, rfl, h⟩, Bal.refl l⟩
    | false =>
      rw [if_neg (by simp)]
      refine read_good h _ hp (eraseKeyEquivX_sat may h.inv h.law (h.shape hd) k e) (pj := fun r => r.1) ?_
        (fun _ _ h => by cases h; rfl) ?_
      · simp only [Table.lstep, Table.opErase, Bool.false_eq_true, if_false]
        cases t.eraseKeyEquiv k <;> rfl
      · rintro e' t' ⟨gone, h1, h2, h3⟩
        obtain ⟨k1, k2⟩ := h.of_removed hd h1
        exact ⟨⟨_, ⟨gone, t'.contents, k1, by rw [← h.eq]; exact h2, rfl⟩, k2⟩, h3⟩
  | extract k =>
    have hd : o.defined = true := hp
    simp only [Table.lstepX]
    refine Out.Sat.bind ((extractX_sat may h.inv h.law (h.shape hd).1 k e).mono ?_ ?_)
    · rintro e' r ⟨h1, h2, h3⟩
      obtain ⟨t', res, o', h4, _, _⟩ := lstep_refines h (.extract k) hp
      refine ⟨by simp only [Table.lstep, h1, Option.map_some], ?_⟩
      have hsz : (r.1.size : Int) = t.size - (if r.2.isSome then 1 else 0) := by
        have h1' := h1
        unfold Table.opExtract at h1'
        rcases find_spec h.inv h.law (h.shape hd).1 k with ⟨f1, _⟩ | ⟨i, x, f1, _, _, f2, _⟩
        · rw [f1] at h1'; cases h1'; simp
        · obtain ⟨L, hg⟩ := h.inv.ginv_of_mem (f2.mem h.inv)
          obtain ⟨pre, post, hat⟩ := f2.at_ hg
          obtain ⟨t', L', e1, e2, e3, e4⟩ := extractAt_at h.inv hg hat
          simp only [f1, e1, Option.map_some, Option.some.injEq] at h1'
          subst h1'
          have := e2.size
          simp at this ⊢
          omega
      by_cases hi : r.2.isSome = true
      · rw [if_pos hi] at hsz ⊢
        exact (h2.trans (led_nodes e' (-1)) rfl rfl).congr (by dsimp only; omega) (by dsimp only; rw [h3]; omega)
      · rw [if_neg hi] at hsz ⊢
        exact h2.congr (by dsimp only; omega) (by dsimp only; rw [h3]; omega)
    · rintro e' _ ⟨rfl, l⟩
      exact ⟨⟨o, rfl, h⟩, Bal.refl l⟩
  | eraseIf pr =>
    have hd : o.defined = true := hp
    simp only [Table.lstepX]
    refine read_good h _ hp (eraseIfX_sat may pr h.inv e) (pj := fun r => r.1) ?_ (fun _ _ h => by cases h; rfl) ?_
    · simp only [Table.lstep]
      cases t.eraseIf pr <;> rfl
    · rintro e' t' ⟨gone, h1, h2, h3⟩
      obtain ⟨k1, k2⟩ := h.of_removed hd h1
      exact ⟨⟨_, ⟨gone, t'.contents, k1, h2, rfl⟩, k2⟩, h3⟩
  | rehash n =>
    have hd : o.defined = true := hp
    simp only [Table.lstepX]
    refine read_good h _ hp (base := t.rehash n) ((rehashX_sat may h.inv n e).sat.mono ?_ (fun _ _ h => h)) (pj := fun r => r) ?_
      (fun _ _ h => by cases h; rfl) ?_
    · rintro e' t' ⟨h1, h2⟩
      obtain ⟨t2, j1, j2, _⟩ := rehash_spec h.inv n
      rw [h1] at j1; cases j1
      exact ⟨h1, h2.congr (by rw [j2.size]; omega) rfl⟩
    · simp only [Table.lstep]
      cases t.rehash n <;> rfl
    · intro e' t' hl
      obtain ⟨l, k1, k2⟩ := h.lost hd hl
      exact ⟨⟨_, ⟨l, k1, rfl⟩, k2⟩, hl.bal⟩
  | reserve n =>
    have hd : o.defined = true := hp
    simp only [Table.lstepX]
    refine read_good h _ hp (base := t.reserve n) ((reserveX_sat may h.inv n e).sat.mono ?_ (fun _ _ h => h)) (pj := fun r => r) ?_
      (fun _ _ h => by cases h; rfl) ?_
    · rintro e' t' ⟨h1, h2⟩
      obtain ⟨t2, j1, j2, _⟩ := reserve_spec h.inv n
      rw [h1] at j1; cases j1
      exact ⟨h1, h2.congr (by rw [j2.size]; omega) rfl⟩
    · simp only [Table.lstep]
      cases t.reserve n <;> rfl
    · intro e' t' hl
      obtain ⟨l, k1, k2⟩ := h.lost hd hl
      exact ⟨⟨_, ⟨l, k1, rfl⟩, k2⟩, hl.bal⟩
  | eraseAt i => exact plainX2_good h _ hp
  | eraseRange i n => exact plainX2_good h _ hp
  | clear => exact plainX2_good h _ hp
  | maxLoadFactor z => exact plainX2_good h _ hp
  | size => exact plainX2_good h _ hp
  | isEmpty => exact plainX2_good h _ hp
  | iterate => exact plainX2_good h _ hp

/-! ### Several containers -/

/-- The ledgers equal what the first `N` containers own. -/
def Ledger (N : Nat) (e : Env) (s : Nat → Table K V) : Prop :=
  e.nodes = ((List.range N).map (fun i => ((s i).size : Int))).sum ∧
  e.blocks = ((List.range N).map (fun i => (s i).blocks)).sum

theorem sum_upd (f : Table K V → Int) (s : Nat → Table K V) (r : Nat) (t : Table K V) : ∀ N, r < N →
    ((List.range N).map (fun i => f (upd s r t i))).sum = ((List.range N).map (fun i => f (s i))).sum + (f t - f (s r)) := by
  have hlt : ∀ N, N ≤ r → ((List.range N).map (fun i => f (upd s r t i))) = ((List.range N).map (fun i => f (s i))) := by
    intro N hN
    apply List.map_congr_left
    intro i hi
    have : i ≠ r := by have := List.mem_range.mp hi; omega
    unfold Spec.upd; rw [if_neg this]
  intro N
  induction N with
  | zero => intro h; omega
  | succ N ih =>
    intro h
    rw [List.range_succ, List.map_append, List.map_append, List.sum_append, List.sum_append]
    rcases Nat.lt_or_ge r N with hr | hr
    · rw [ih hr]
      have : upd s r t N = s N := by unfold Spec.upd; rw [if_neg (by omega)]
      simp [this]; ring
    · obtain rfl : r = N := by omega
      rw [hlt _ hr]
      have : upd s r t r = t := by unfold Spec.upd; rw [if_pos rfl]
      simp [this]

theorem Ledger.upd {N : Nat} {e e' : Env} {s : Nat → Table K V} (h : Ledger N e s) {r : Nat} (hr : r < N) {t : Table K V}
    (hl : Bal e (s r) e' t) : Ledger N e' (Spec.upd s r t) := by
  refine ⟨?_, ?_⟩
  · rw [Led.nodes hl, h.1, sum_upd (fun t => (t.size : Int)) s r t N hr]
  · rw [Led.blocks hl, h.2, sum_upd (fun t => t.blocks) s r t N hr]

theorem upd_ne {α : Type} (s : Nat → α) {r q : Nat} (h : q ≠ r) (x : α) : upd s r x q = s q := by
  unfold Spec.upd; rw [if_neg h]

theorem Ledger.upd2 {N : Nat} {e e' : Env} {s : Nat → Table K V} (h : Ledger N e s) {r q : Nat} (hr : r < N) (hq : q < N)
    (hne : r ≠ q) {t x : Table K V}
    (hl : Led e e' ((t.size : Int) + x.size - (s r).size - (s q).size) (t.blocks + x.blocks - (s r).blocks - (s q).blocks)) :
    Ledger N e' (Spec.upd (Spec.upd s r t) q x) := by
  refine ⟨?_, ?_⟩
  · rw [hl.nodes, h.1, sum_upd (fun t => (t.size : Int)) _ q x N hq, sum_upd (fun t => (t.size : Int)) s r t N hr,
      upd_ne s (Ne.symm hne)]
    ring
  · rw [hl.blocks, h.2, sum_upd (fun t => t.blocks) _ q x N hq, sum_upd (fun t => t.blocks) s r t N hr,
      upd_ne s (Ne.symm hne)]
    ring

theorem Ledger.of_led {N : Nat} {e e' : Env} {s : Nat → Table K V} (h : Ledger N e s) (hl : Led e e' 0 0) : Ledger N e' s :=
  ⟨by rw [hl.nodes, h.1]; simp, by rw [hl.blocks, h.2]; simp⟩

/-- What a call must satisfy: it returns what the exception-free call returns, or throws leaving a state the specification
allows; both with balanced ledgers. -/
def Good (may : Call → Bool) (c : MCfg K V) (s : Nat → Table K V) (a : Nat → Obj K V) (op : Op K V) (e : Env)
    (o : Out ((Nat → Table K V) × Res K V) (Nat → Table K V)) : Prop :=
  o.Sat (fun e' y => step c s op = some y ∧ ∀ N, (∀ i ∈ op.vars, i < N) → Ledger N e s → Ledger N e' y.1)
    (fun e' s' => (∃ a', Thrown c.u c.tr (safe may) a op a' ∧ RS c.u s' a') ∧
      ∀ N, (∀ i ∈ op.vars, i < N) → Ledger N e s → Ledger N e' s')

section
variable {may : Call → Bool} {c : MCfg K V} {s : Nat → Table K V} {a : Nat → Obj K V} {op : Op K V} {e : Env}

theorem on1X_good {α : Type} {r : Nat} (hv : r ∈ op.vars) {f : α → Table K V × Res K V} {o : Out α (Table K V)}
    {P : Env → α → Prop} {Q : Env → Table K V → Prop} (ho : o.Sat P Q)
    (hP : ∀ e' x, P e' x → step c s op = some (upd s r (f x).1, (f x).2) ∧ Bal e (s r) e' (f x).1)
    (hQ : ∀ e' t, Q e' t → (∃ a', Thrown c.u c.tr (safe may) a op a' ∧ RS c.u (upd s r t) a') ∧ Bal e (s r) e' t) :
    Good may c s a op e (on1X s r f o) := by
  cases o with
  | bad => exact ho.elim
  | threw e' t => exact ⟨(hQ e' t ho).1, fun N hN hl => hl.upd (hN r hv) (hQ e' t ho).2⟩
  | done e' x => exact ⟨(hP e' x ho).1, fun N hN hl => hl.upd (hN r hv) (hP e' x ho).2⟩

theorem on2X_good {r q : Nat} (hr : r ∈ op.vars) (hq : q ∈ op.vars) (hne : r ≠ q)
    {o : Out (Table K V × Table K V) (Table K V × Table K V)} {P Q : Env → Table K V × Table K V → Prop} (ho : o.Sat P Q)
    (hP : ∀ e' y, P e' y → step c s op = some (upd (upd s r y.1) q y.2, .unit) ∧
      Led e e' ((y.1.size : Int) + y.2.size - (s r).size - (s q).size) (y.1.blocks + y.2.blocks - (s r).blocks - (s q).blocks))
    (hQ : ∀ e' y, Q e' y → (∃ a', Thrown c.u c.tr (safe may) a op a' ∧ RS c.u (upd (upd s r y.1) q y.2) a') ∧
      Led e e' ((y.1.size : Int) + y.2.size - (s r).size - (s q).size) (y.1.blocks + y.2.blocks - (s r).blocks - (s q).blocks)) :
    Good may c s a op e (on2X s r q o) := by
  cases o with
  | bad => exact ho.elim
  | threw e' y => exact ⟨(hQ e' y ho).1, fun N hN hl => hl.upd2 (hN r hr) (hN q hq) hne (hQ e' y ho).2⟩
  | done e' y => exact ⟨(hP e' y ho).1, fun N hN hl => hl.upd2 (hN r hr) (hN q hq) hne (hP e' y ho).2⟩

theorem replaceX_good (h : RS c.u s a) {e1 : Env} {r : Nat} (hr : r ∈ op.vars) {t : Table K V}
    (hs : step c s op = some (upd s r t, .unit)) (hc : Led e e1 t.size t.blocks) :
    Good may c s a op e (replaceX s r (upd s r t) e1) := by
  unfold replaceX Good
  rw [destroyX_eq (h r).inv e1]
  refine ⟨hs, fun N hN hl => hl.upd (hN r hr) ?_⟩
  exact hc.trans (led_destroy _ _ _) (by ring) (by ring)

theorem replaceX_good2 (h : RS c.u s a) {e1 : Env} {r q : Nat} (hr : r ∈ op.vars) (hq : q ∈ op.vars) (hne : r ≠ q)
    {t x : Table K V} (hs : step c s op = some (upd (upd s r t) q x, .unit))
    (hc : Led e e1 ((t.size : Int) + x.size - (s q).size) (t.blocks + x.blocks - (s q).blocks)) :
    Good may c s a op e (replaceX s r (upd (upd s r t) q x) e1) := by
  unfold replaceX Good
  rw [destroyX_eq (h r).inv e1]
  refine ⟨hs, fun N hN hl => hl.upd2 (hN r hr) (hN q hq) hne ?_⟩
  exact hc.trans (led_destroy _ _ _) (by ring) (by ring)

end

theorem upd_upd_self {α : Type} (s : Nat → α) {r q : Nat} (h : r ≠ q) (x : α) : upd (upd s r x) q (s q) = upd s r x := by
  have := upd_self (upd s r x) q
  rwa [upd_ne s (Ne.symm h)] at this

theorem filled_r {u : Bool} {x t' : Table K V} {p : Obj K V} (hx : R u x p) (hd : p.defined = true) {al : Nat}
    {ys zs : List (K × V)} (hp : x.contents.Perm (ys ++ zs)) (hf : Filled u x.fns al x.mlf ys t') :
    p.elems.Perm (ys ++ zs) ∧ R u t' ⟨p.eq, al, ys, true⟩ := by
  refine ⟨(hx.elems hd).symm.trans hp, ?_⟩
  have := R.filled hx.law hf true (List.Perm.refl ys)
  rwa [hx.eq] at this

theorem swap_eq (c : MCfg K V) {s : Nat → Table K V} {a : Nat → Obj K V} (h : RS c.u s a) {r q : Nat}
    (hp : c.tr.pocs = true ∨ (a r).al = (a q).al) : Table.swap c.tr.pocs (s r) (s q) = some (s q, s r) := by
  have hal : c.tr.pocs = true ∨ (s r).al = (s q).al := by rw [(h r).al, (h q).al]; exact hp
  unfold Table.swap
  rw [if_neg (by rintro ⟨g1, g2⟩; rcases hal with g | g
                 · rw [g] at g1; cases g1
                 · exact g2 g)]
  rcases hal with g | g
  · simp only [g, if_true]
  · cases c.tr.pocs with
    | true => simp only [if_true]
    | false =>
      have e1 : ({ s q with al := (s r).al } : Table K V) = s q := by rw [g]
      have e2 : ({ s r with al := (s q).al } : Table K V) = s r := by rw [← g]
      simp only [Bool.false_eq_true, if_false, e1, e2]

theorem xstep_good (may : Call → Bool) (c : MCfg K V) (nf : Bool) {s : Nat → Table K V} {a : Nat → Obj K V} (h : RS c.u s a)
    (op : Op K V) (hp : SpecC.Pre c.u c.tr c.veq a op) (e : Env) : Good may c s a op e (xstep may c nf s op e) := by
  cases op with
  | on r o =>
    refine on1X_good (by simp [SpecC.Op.vars]) (lstepX_good may nf (h r) o hp e) ?_ ?_
    · rintro e' y ⟨h1, h2⟩
      exact ⟨by simp only [step, h1, Option.map_some, id], h2⟩
    · rintro e' t ⟨⟨o', h1, h2⟩, h3⟩
      exact ⟨⟨_, ⟨o', h1, rfl⟩, h.upd h2⟩, h3⟩
  | construct r hf q al n =>
    simp only [xstep]
    refine Out.Sat.bind (ask_sat may .fnCopy s e (fun e1 l1 => ?_) (fun _ e1 l1 => ⟨⟨a, rfl, h⟩, fun N _ hl => hl.of_led l1⟩))
    refine Out.Sat.bind (newX_sat may n al s e1 (fun e2 l2 => ?_)
      (fun _ _ e2 l2 => ⟨⟨a, rfl, h⟩, fun N _ hl => (hl.of_led l1).of_led l2⟩))
    refine replaceX_good h (by simp [SpecC.Op.vars]) ?_ (l1.trans l2 ?_ ?_)
    · simp only [step, (h r).destroy, Option.map_some]; rfl
    · simp [Table.fresh]
    · simp only [Table.fresh, Table.blocks, Gba.new_size_irrel (α := K × V) n al (β := Unit)]
      rw [Int.zero_add]
  | copyConstruct r q al =>
    obtain ⟨hrq, hd⟩ := hp
    have hs := copyCtorX_sat may (h q).inv (h q).law ((h q).shape hd) al e
    simp only [xstep]
    cases hx : (s q).copyCtorX may c.u al e with
    | bad => rw [hx] at hs; exact hs.elim
    | threw e1 _ => rw [hx] at hs; exact ⟨⟨a, rfl, h⟩, fun N _ hl => hl.of_led hs⟩
    | done e1 t =>
      rw [hx] at hs
      refine replaceX_good h (by simp [SpecC.Op.vars]) ?_ hs.2
      simp only [step, (h r).destroy, hs.1]
  | moveConstruct r q =>
    obtain ⟨hrq, hd⟩ := hp
    have hs := moveCtorX_sat may (s q) e
    simp only [xstep]
    cases hx : (s q).moveCtorX may e with
    | bad => rw [hx] at hs; exact hs.elim
    | threw e1 _ => rw [hx] at hs; exact ⟨⟨a, rfl, h⟩, fun N _ hl => hl.of_led hs⟩
    | done e1 y =>
      rw [hx] at hs
      obtain ⟨rfl, hs⟩ := hs
      refine replaceX_good2 h (by simp [SpecC.Op.vars]) (by simp [SpecC.Op.vars]) hrq ?_ (hs.congr ?_ ?_)
      · simp only [step, (h r).destroy, Option.map_some]
      · simp [Table.moveCtor]
      · simp only [Table.moveCtor, Table.blocks, Gba.null, if_true]; by_cases h0 : (s q).b.size = 0 <;> simp [h0]
  | moveConstructAlloc r q al =>
    obtain ⟨hrq, hd⟩ := hp
    have hs := moveCtorAllocX_sat may (h q).inv (h q).law ((h q).shape hd) c.mv al e
    simp only [xstep]
    cases hx : Table.moveCtorAllocX may c.mv (s q) al e with
    | bad => rw [hx] at hs; exact hs.elim
    | threw e1 x =>
      rw [hx] at hs
      obtain ⟨h1, h2⟩ := hs
      rcases h1 with rfl | ⟨rfl, h3⟩
      · dsimp only
        rw [upd_self]
        exact ⟨⟨a, Or.inl rfl, h⟩, fun N _ hl => hl.of_led h2⟩
      · refine ⟨⟨_, Or.inr ⟨by rw [← (h q).al]; exact h3, rfl⟩, h.upd ?_⟩, fun N hN hl => hl.upd (hN q (by simp [SpecC.Op.vars])) ?_⟩
        · exact ⟨movedFrom_sinv (h q).inv c.mv, (h q).law, (h q).eq, (h q).al, (fun hf => by cases hf), (fun hf => by cases hf)⟩
        · exact Led.congr h2 (by rw [movedFrom_size]; omega) (by rw [movedFrom_blocks]; omega)
    | done e1 y =>
      rw [hx] at hs
      refine replaceX_good2 h (by simp [SpecC.Op.vars]) (by simp [SpecC.Op.vars]) hrq ?_ hs.2
      simp only [step, (h r).destroy, hs.1]
  | copyAssign r q =>
    obtain ⟨hd, hne⟩ := hp
    simp only [xstep]
    by_cases hrq : r = q
    · rw [if_pos hrq]
      exact ⟨by simp only [step, hrq, if_true], fun N _ hl => hl⟩
    · rw [if_neg hrq]
      have hne' : ¬ (c.tr.pocca = true ∧ (s r).al ≠ (s q).al ∧ (s q).size = 0) := by
        rintro ⟨g1, g2, g3⟩
        refine hne ⟨hrq, g1, ?_, ?_⟩
        · rw [← (h r).al, ← (h q).al]; exact g2
        · rw [(h q).size hd] at g3; exact List.length_eq_zero_iff.mp g3
      refine on1X_good (by simp [SpecC.Op.vars]) (assignX_sat may (h r).inv (h q).inv (h q).law ((h q).shape hd) hne' e) ?_ ?_
      · rintro e' t ⟨h1, h2⟩
        exact ⟨by simp only [step, hrq, if_false, h1, Option.map_some], h2⟩
      · rintro e' t ⟨h1, h2⟩
        refine ⟨?_, h2⟩
        rcases h1 with ⟨lost, h1⟩ | ⟨ys, zs, h1, h3⟩
        · obtain ⟨l, k1, k2⟩ := (h r).tkept h1
          exact ⟨_, Or.inl ⟨l, k1, rfl⟩, h.upd k2⟩
        · obtain ⟨k1, k2⟩ := filled_r (h q) hd h1 h3
          refine ⟨_, Or.inr ⟨ys, zs, k1, rfl⟩, h.upd ?_⟩
          rw [(h q).al, (h r).al] at k2; exact k2
  | moveAssign r q =>
    have hd : (a q).defined = true := hp
    simp only [xstep]
    by_cases hrq : r = q
    · rw [if_pos hrq]
      exact ⟨by simp only [step, hrq, if_true], fun N _ hl => hl⟩
    · rw [if_neg hrq]
      refine on2X_good (by simp [SpecC.Op.vars]) (by simp [SpecC.Op.vars]) hrq
        (moveAssignX_sat may (h r).inv (h q).inv (h q).law ((h q).shape hd) c.mv e) ?_ ?_
      · rintro e' y ⟨h1, h2⟩
        exact ⟨by simp only [step, hrq, if_false, h1, Option.map_some], h2⟩
      · rintro e' y ⟨h2, h1⟩
        refine ⟨?_, h2⟩
        rcases h1 with ⟨h3, lost, h1⟩ | ⟨h3, h4, h5, ys, zs, h6, h7⟩
        · obtain ⟨l, k1, k2⟩ := (h r).tkept h1
          refine ⟨_, Or.inl ⟨l, k1, rfl⟩, ?_⟩
          rw [h3, upd_upd_self s hrq]
          exact h.upd k2
        · obtain ⟨k1, k2⟩ := filled_r (h q) hd h6 h7
          refine ⟨_, Or.inr ⟨h4, by rw [← (h r).al, ← (h q).al]; exact h5, ys, zs, k1, rfl⟩, (h.upd ?_).upd ?_⟩
          · rw [(h r).al] at k2; exact k2
          · rw [h3]
            exact ⟨movedFrom_sinv (h q).inv c.mv, (h q).law, (h q).eq, (h q).al, (fun hf => by cases hf), (fun hf => by cases hf)⟩
  | swap r q =>
    simp only [xstep]
    by_cases hrq : r = q
    · rw [if_pos hrq]
      exact ⟨by simp only [step, hrq, if_true], fun N _ hl => hl⟩
    · rw [if_neg hrq]
      have hsw := swap_eq c h hp
      refine on2X_good (by simp [SpecC.Op.vars]) (by simp [SpecC.Op.vars]) hrq (swapX_sat may hsw e) ?_ ?_
      · rintro e' _ ⟨rfl, h2⟩
        exact ⟨by simp only [step, hrq, if_false, hsw, Option.map_some], h2.congr (by dsimp only; ring) (by dsimp only; ring)⟩
      · rintro e' _ ⟨rfl, h2⟩
        refine ⟨⟨a, rfl, ?_⟩, h2.congr (by dsimp only; ring) (by dsimp only; ring)⟩
        dsimp only
        rw [upd_self, upd_self]; exact h
  | merge r q =>
    obtain ⟨hdr, hdq, hal, hself⟩ := hp
    have hal' : (s r).al = (s q).al := by rw [(h r).al, (h q).al]; exact hal
    simp only [xstep]
    by_cases hu : c.u = true
    · have hr := h r
      rw [hu] at hr
      rw [if_pos hu]
      by_cases hrq : r = q
      · rw [if_pos hrq]
        subst hrq
        refine on1X_good (r := r) (op := (.merge r r)) (by simp [SpecC.Op.vars]) (mergeSelfX_sat may hr.inv hr.law (hr.shape hdr) e) ?_ ?_
        · rintro e' t ⟨h1, h2⟩
          exact ⟨by simp only [step, hu, if_true, h1, Option.map_some], h2⟩
        · rintro e' t ⟨h1, h2⟩
          refine ⟨?_, h2⟩
          have : ∃ l, Loses (safe may) (a r).elems l ∧ R c.u t { a r with elems := l } := by
            rcases h1 with h1 | h1
            · exact (h r).lost hdr h1
            · exact ⟨(a r).elems, ⟨[], List.Perm.refl _, fun _ => rfl⟩, (h r).kept h1⟩
          obtain ⟨l, k1, k2⟩ := this
          refine ⟨_, ?_, h.upd k2⟩
          simp only [Thrown, if_true]
          exact ⟨l, k1, rfl⟩
      · rw [if_neg hrq]
        refine on2X_good (by simp [SpecC.Op.vars]) (by simp [SpecC.Op.vars]) hrq
          (mergeUniqueX_sat may hr.inv hr.law (hr.shape hdr) (h q).inv hal' e) ?_ ?_
        · rintro e' y ⟨h1, h2, h3⟩
          obtain ⟨t', x', took, kept, j1, j2, j3, j4, j5, j6⟩ := mergeUnique_spec hr.inv hr.law (hr.shape hdr) (h q).inv hal'
          have h1' := h1
          rw [j1] at h1'; cases h1'
          have s1 := j4.size' hr.inv
          have s2 := j6.size
          refine ⟨by simp only [step, hu, hrq, if_true, if_false, h1, Option.map_some], h2.congr ?_ ?_⟩
          · dsimp only; omega
          · dsimp only at h3 ⊢; rw [h3]; ring
        · rintro e' y h1
          rcases h1 with ⟨h3, h1⟩ | ⟨t1, took, h3, h4, h5, h6⟩
          · obtain ⟨l, k1, k2⟩ := (h r).lost hdr h1
            refine ⟨⟨upd a r { a r with elems := l }, ?_, ?_⟩, ?_⟩
            · simp only [Thrown, hrq, if_false, hu, if_true]
              exact Or.inl ⟨l, k1, rfl⟩
            · rw [h3, upd_upd_self s hrq]
              exact h.upd k2
            · rw [h3]; exact Led.congr h1.bal (by ring) (by ring)
          · have hk := hr.kept h3
            have hR := hk.addedAll hdr h4.add (by rw [h3.fns]; rw [← h3.fns]; exact h4.shape) (List.Perm.refl _)
            obtain ⟨k1, k2⟩ := (h q).of_removed hdq h4.rem
            refine ⟨⟨_, ?_, (h.upd (by rw [hu]; exact hR)).upd k2⟩, h5.congr ?_ ?_⟩
            · simp only [Thrown, hrq, if_false, hu, if_true]
              exact Or.inr ⟨took, _, k1, fun e he => hk.absent hdr (h4.absent e he), by rw [← hk.eq]; exact h4.pw, rfl⟩
            · have s1 := h4.add.size' h3.inv
              have s2 := h4.rem.size
              have s3 := h3.size
              omega
            · rw [h6]; ring
    · have hu' : c.u = false := by simpa using hu
      rw [if_neg hu]
      have hrq : r ≠ q := fun hc => hu (hself hc)
      rw [if_neg hrq]
      have hr := h r
      rw [hu'] at hr
      refine on2X_good (by simp [SpecC.Op.vars]) (by simp [SpecC.Op.vars]) hrq
        (mergeEquivX_sat may hr.inv hr.law (hr.shape hdr) (h q).inv hal' e) ?_ ?_
      · rintro e' y ⟨h1, h2, h3⟩
        obtain ⟨t', x', took, j1, j3, j4, j5, j6, j7⟩ := mergeEquiv_spec hr.inv hr.law (hr.shape hdr) (h q).inv hal'
        have h1' := h1
        rw [j1] at h1'; cases h1'
        have s1 := j4.size' hr.inv
        have s2 := j6.size
        refine ⟨by simp only [step, hu', Bool.false_eq_true, hrq, if_false, h1, Option.map_some], h2.congr ?_ ?_⟩
        · dsimp only; omega
        · dsimp only at h3 ⊢; rw [h3]; ring
      · rintro e' y ⟨took, x, lost, h1, h2, h3⟩
        obtain ⟨t1, m1, m2, m3⟩ := h1.mid
        have hR := hr.addedAll hdr m1 m2 (List.Perm.refl _)
        have hl : ∃ l, Loses (safe may) (took ++ (a r).elems) l ∧ R false y.1 { a r with elems := l } := by
          rcases m3 with m3 | ⟨m3, m4⟩
          · obtain ⟨k1, k2⟩ := hR.of_removed hdr m3
            exact ⟨_, ⟨lost, k1, fun hs => h1.safe (safe_iff hs)⟩, k2⟩
          · exact ⟨_, ⟨[], List.Perm.refl _, fun _ => rfl⟩, hR.kept m3⟩
        obtain ⟨l, k1, k2⟩ := hl
        obtain ⟨j1, j2⟩ := (h q).of_removed hdq h1.rem
        refine ⟨⟨_, ?_, (h.upd (by rw [hu']; exact k2)).upd j2⟩, h2.congr ?_ ?_⟩
        · simp only [Thrown, hrq, if_false, hu', Bool.false_eq_true]
          exact ⟨took, x, _, l, by simpa using j1, k1, rfl⟩
        · have s1 := m1.size' hr.inv
          have s2 := h1.rem.size
          have s3 : t1.size = y.1.size + lost.length := by
            rcases m3 with m3 | ⟨m3, m4⟩
            · exact m3.size
            · rw [m3.size, m4]; rfl
          simp only [List.length_append, List.length_singleton] at s2
          omega
        · rw [h3]; ring
  | transfer r q k =>
    obtain ⟨hdr, hdq, hal, hrq⟩ := hp
    have hal' : (s r).al = (s q).al := by rw [(h r).al, (h q).al]; exact hal
    have hs := extractX_sat may (h q).inv (h q).law ((h q).shape hdq).1 k e
    simp only [xstep, transferX]
    cases hx : (s q).extractX may k e with
    | bad => rw [hx] at hs; exact hs.elim
    | threw e1 x =>
      rw [hx] at hs
      obtain ⟨rfl, hs⟩ := hs
      dsimp only
      rw [upd_self]
      exact ⟨⟨a, Or.inl rfl, h⟩, fun N _ hl => hl.of_led hs⟩
    | done e1 y =>
      rw [hx] at hs
      obtain ⟨h1, h2, h3⟩ := hs
      obtain ⟨x, y⟩ := y
      cases y with
      | none =>
        exact ⟨by simp only [step, h1], fun N _ hl => hl.of_led h2⟩
      | some y =>
        dsimp only at h3 ⊢
        rw [if_neg (by simpa using hal')]
        have hrem : Removed (s q) [y] x ∧ (a q).eq k y.1 = true := by
          have h1' := h1
          unfold Table.opExtract at h1'
          rcases find_spec (h q).inv (h q).law ((h q).shape hdq).1 k with ⟨f1, _⟩ | ⟨i, z, f1, _, _, f2, f3⟩
          · rw [f1] at h1'; cases h1'
          · obtain ⟨L, hg⟩ := (h q).inv.ginv_of_mem (f2.mem (h q).inv)
            obtain ⟨pre, post, hat⟩ := f2.at_ hg
            obtain ⟨t', L', e1, e2, e3, e4⟩ := extractAt_at (h q).inv hg hat
            simp only [f1, e1, Option.map_some, Option.some.injEq, Prod.mk.injEq] at h1'
            obtain ⟨rfl, rfl⟩ := h1'
            exact ⟨e2, by rw [← (h q).eq]; exact f3⟩
        obtain ⟨hrem, hky⟩ := hrem
        obtain ⟨j1, j2⟩ := (h q).of_removed hdq hrem
        have sq := hrem.size
        simp only [List.length_singleton] at sq
        -- an exception from the insertion
        have hT : ∀ e2 t, (Lost may e1 (s r) e2 t ∨ (Kept (s r) t ∧ Bal e1 (s r) e2 t)) →
            (∃ a', Thrown c.u c.tr (safe may) a (.transfer r q k) a' ∧ RS c.u (upd (upd s r t) q x) a') ∧
            ∀ N, (∀ i ∈ (Op.transfer r q k : Op K V).vars, i < N) → Ledger N e s →
              Ledger N (e2.addNodes (-1)) (upd (upd s r t) q x) := by
          intro e2 t hh
          have : (∃ l, Loses (safe may) (a r).elems l ∧ R c.u t { a r with elems := l }) ∧ Bal e1 (s r) e2 t := by
            rcases hh with hh | ⟨h1, h2⟩
            · exact ⟨(h r).lost hdr hh, hh.bal⟩
            · exact ⟨⟨_, ⟨[], List.Perm.refl _, fun _ => rfl⟩, (h r).kept h1⟩, h2⟩
          obtain ⟨⟨l, k1, k2⟩, k3⟩ := this
          refine ⟨⟨_, Or.inr ⟨y, _, l, j1, hky, k1, rfl⟩, (h.upd k2).upd j2⟩, fun N hN hl => ?_⟩
          refine hl.upd2 (hN r (by simp [SpecC.Op.vars])) (hN q (by simp [SpecC.Op.vars])) hrq ?_
          refine (h2.trans (Led.trans k3 (led_nodes e2 (-1)) rfl rfl) rfl rfl).congr (by omega) (by rw [h3]; ring)
        by_cases hu : c.u = true
        · have hr := h r
          rw [hu] at hr
          rw [if_pos hu]
          have hi := insertNodeUniqueX_sat may hr.inv hr.law (hr.shape hdr) y e1
          cases hx2 : (s r).insertNodeUniqueX may y e1 with
          | bad => rw [hx2] at hi; exact hi.elim
          | threw e2 t => rw [hx2] at hi; exact hT e2 t (Or.inl hi)
          | done e2 z =>
            rw [hx2] at hi
            obtain ⟨t, p, b⟩ := z
            obtain ⟨i1, i2⟩ := hi
            have hsz : (t.size : Int) = (s r).size + (if b then 1 else 0) := by
              rcases insertNodeUnique_spec hr.inv hr.law (hr.shape hdr) y with ⟨q', y, g1, g2, g3⟩ | ⟨t', q', g1, g2, g3, g4, g5⟩
              · rw [g1] at i1; cases i1; simp
              · rw [g1] at i1; cases i1
                have := g3.size
                simp; omega
            refine ⟨?_, fun N hN hl => ?_⟩
            · simp only [step, h1, hal', ne_eq, not_true_eq_false, if_false, hu, if_true, i1, Option.map_some]
            refine hl.upd2 (hN r (by simp [SpecC.Op.vars])) (hN q (by simp [SpecC.Op.vars])) hrq ?_
            dsimp only at i2
            cases b with
            | true =>
              simp only [if_true] at hsz ⊢
              exact (h2.trans i2 rfl rfl).congr (by omega) (by rw [h3]; ring)
            | false =>
              simp only [Bool.false_eq_true, if_false] at hsz ⊢
              exact (h2.trans (i2.trans (led_nodes e2 (-1)) rfl rfl) rfl rfl).congr (by omega) (by rw [h3]; ring)
        · have hu' : c.u = false := by simpa using hu
          have hr := h r
          rw [hu'] at hr
          rw [if_neg hu]
          have hi := insertNodeEquivX_sat may hr.inv hr.law (hr.shape hdr) y e1
          cases hx2 : (s r).insertNodeEquivX may y e1 with
          | bad => rw [hx2] at hi; exact hi.elim
          | threw e2 t => rw [hx2] at hi; exact hT e2 t hi
          | done e2 z =>
            rw [hx2] at hi
            obtain ⟨t, p⟩ := z
            obtain ⟨i1, i2⟩ := hi
            obtain ⟨t', qq, g1, g3, g4, g5⟩ := insertNodeEquiv_spec hr.inv hr.law (hr.shape hdr) y
            have i1' := i1
            rw [g1] at i1'; cases i1'
            have hsz := g3.size
            refine ⟨?_, fun N hN hl => ?_⟩
            · simp only [step, h1, hal', ne_eq, not_true_eq_false, if_false, hu', Bool.false_eq_true, i1, Option.map_some]
            refine hl.upd2 (hN r (by simp [SpecC.Op.vars])) (hN q (by simp [SpecC.Op.vars])) hrq ?_
            exact (h2.trans i2 rfl rfl).congr (by omega) (by rw [h3]; ring)
  | equal r q =>
    obtain ⟨s', res, a', h1, _, _⟩ := step_refines c h (.equal r q) hp
    simp only [xstep]
    have key : ∀ b, (if c.u then Table.equalsUnique c.veq (s r) (s q) else Table.equalsEquiv c.veq (s r) (s q)) = some b →
        step c s (.equal r q) = some (s, .bool b) := by
      intro b hb; simp only [step, hb, Option.map_some]
    have hT : ∀ e' s', (s' = s ∧ Led e e' 0 0) → (∃ a', Thrown c.u c.tr (safe may) a (.equal r q) a' ∧ RS c.u s' a') ∧
        ∀ N, (∀ i ∈ (Op.equal r q : Op K V).vars, i < N) → Ledger N e s → Ledger N e' s' := by
      rintro e' _ ⟨rfl, l⟩
      exact ⟨⟨a, rfl, h⟩, fun N _ hl => hl.of_led l⟩
    cases hb : (if c.u then Table.equalsUnique c.veq (s r) (s q) else Table.equalsEquiv c.veq (s r) (s q)) with
    | none => simp only [step, hb] at h1; cases h1
    | some b =>
      have hk := key b hb
      by_cases hu : c.u = true
      · rw [if_pos hu] at hb ⊢
        refine Out.Sat.then_ ((equalsUniqueX_sat may c.veq s hb e).mono ?_ hT)
        rintro e' _ ⟨rfl, l⟩
        exact ⟨_, rfl, hk, fun N _ hl => hl.of_led l⟩
      · rw [if_neg hu] at hb ⊢
        refine Out.Sat.then_ ((equalsEquivX_sat may c.veq s hb e).mono ?_ hT)
        rintro e' _ ⟨rfl, l⟩
        exact ⟨_, rfl, hk, fun N _ hl => hl.of_led l⟩

theorem xrun_refines (may : Call → Bool) (c : MCfg K V) (N : Nat) :
    ∀ (ops : List (Op K V × Nat × Bool)) (s : Nat → Table K V) (a : Nat → Obj K V) (e : Env), RS c.u s a →
    SpecC.XSafe c.u c.tr c.veq (safe may) (ops.map Prod.fst) a → (∀ op ∈ ops, ∀ i ∈ op.1.vars, i < N) → Ledger N e s →
    ∃ s' e' out a', xrun may c ops s e = some (s', e', out) ∧ out.map Prod.fst = ops.map Prod.fst ∧
      SpecC.XRun c.u c.tr c.veq (safe may) a out a' ∧ RS c.u s' a' ∧ Ledger N e' s' := by
  intro ops
  induction ops with
  | nil => intro s a e h _ _ hl; exact ⟨s, e, [], a, rfl, rfl, .nil a, h, hl⟩
  | cons opn ops ih =>
    obtain ⟨op, n, nf⟩ := opn
    intro s a e h hp hv hl
    obtain ⟨hp1, hp2, hp3⟩ := hp
    have hN : ∀ i ∈ op.vars, i < N := hv (op, n, nf) (by simp)
    have hv' : ∀ op ∈ ops, ∀ i ∈ op.1.vars, i < N := fun o ho => hv o (by simp [ho])
    have hl' : Ledger N { e with left := n } s := hl
    have hg := xstep_good may c nf h op hp1 { e with left := n }
    unfold xrun
    cases hr : xstep may c nf s op { e with left := n } with
    | bad => rw [hr] at hg; exact hg.elim
    | done e1 y =>
      rw [hr] at hg
      obtain ⟨g1, g2⟩ := hg
      obtain ⟨s1, o1⟩ := y
      obtain ⟨s2, o2, a2, k1, k2, k3⟩ := step_refines c h op hp1
      rw [g1] at k1; cases k1
      obtain ⟨s', e', out, a', m1, m2, m3, m4, m5⟩ := ih s1 _ e1 k3 (hp2 _ _ k2) hv' (g2 N hN hl')
      exact ⟨s', e', (op, some o1) :: out, a', by simp [m1], by simp [m2], .ok k2 m3, m4, m5⟩
    | threw e1 s1 =>
      rw [hr] at hg
      obtain ⟨⟨b, g1, g3⟩, g2⟩ := hg
      obtain ⟨s', e', out, a', m1, m2, m3, m4, m5⟩ := ih s1 b e1 g3 (hp3 b g1) hv' (g2 N hN hl')
      exact ⟨s', e', (op, none) :: out, a', by simp [m1], by simp [m2], .exc g1 m3, m4, m5⟩

theorem destroyAll_eq {s : Nat → Table K V} (hi : ∀ i, SInv (s i)) : ∀ (N : Nat) (e : Env), Ledger N e s →
    ∃ e', destroyAll s N e = some e' ∧ e'.blocks = 0 ∧ e'.nodes = 0 := by
  intro N
  induction N with
  | zero => intro e hl; exact ⟨e, rfl, by simpa using hl.2, by simpa using hl.1⟩
  | succ N ih =>
    intro e hl
    obtain ⟨l1, l2⟩ := hl
    rw [List.range_succ, List.map_append, List.sum_append] at l1 l2
    have hd := led_destroy e (-((s N).size : Int)) (-(s N).blocks)
    obtain ⟨e', k1, k2, k3⟩ := ih ((e.addNodes (-((s N).size : Int))).addBlocks (-(s N).blocks))
      ⟨by rw [hd.nodes, l1]; simp, by rw [hd.blocks, l2]; simp⟩
    exact ⟨e', by unfold destroyAll; rw [destroyX_eq (hi N)]; exact k1, k2, k3⟩

theorem start_ledger (h : K → Nat) (eq : K → K → Bool) (N : Nat) : Ledger N { left := 0 } (start h eq : Nat → Table K V) := by
  refine ⟨?_, ?_⟩
  · symm; apply List.sum_eq_zero
    intro x hx
    obtain ⟨i, _, rfl⟩ := List.mem_map.mp hx
    rfl
  · symm; apply List.sum_eq_zero
    intro x hx
    obtain ⟨i, _, rfl⟩ := List.mem_map.mp hx
    rfl

end Fca

/-
Property theorems C58: pointers, references and iterators to elements of closed-addressing containers.
-/
import Verif.SpecAddr
import Verif.Props.SerialIterC
import Verif.Props.FcaLoadProg
import Verif.Fca.Work

namespace Props.Addr
open Fca Fca.Table SpecAddr Props.Closed
open Fca.Cost (rehashImpl_size le_of_lt_top)
open Props.SerIterC (Points Usable pos_eq Points.fields Points.mk' Points.mem Points.usable)
open Spec (Res Traits upd)
open SpecC (Op LOp Obj LPre LStep Step Pre Absent Has)
variable {K V : Type}

theorem inserts_mem {u : Bool} {o o' : Obj K V} {x e : K × V} {b : Bool} (h : SpecC.Inserts u o x o' e b) {y : K × V}
    (hy : y ∈ o.elems) : y ∈ o'.elems := by
  rcases h with ⟨_, _, _, rfl⟩ | ⟨_, _, _, rfl⟩
  · exact hy
  · exact List.mem_cons_of_mem _ hy

theorem insertsAll_mem {u : Bool} {o o' : Obj K V} {xs : List (K × V)} (h : SpecC.InsertsAll u o xs o') {y : K × V}
    (hy : y ∈ o.elems) : y ∈ o'.elems := by
  induction h with
  | nil => exact hy
  | cons h1 _ ih => exact ih (inserts_mem h1 hy)

theorem insertsAll_defined {u : Bool} {o o' : Obj K V} {xs : List (K × V)} (h : SpecC.InsertsAll u o xs o') :
    o'.defined = o.defined := (insertsAll_plain h).1

/-- one container: what the specification says about an element -/
theorem lstep_fate {u : Bool} {o o' : Obj K V} {op : LOp K V} {res : Res K V} (h : LStep u o op res o') (hd : o.defined = true)
    {e : K × V} (he : e ∈ o.elems) (eq : Nat → K → K → Bool) (r : Nat) (heq : eq r = o.eq)
    (hnd : ¬ Destroyed eq (.on r op) res r e) : assigned eq (.on r op) r e ∈ o'.elems ∧ o'.defined = true := by
  have same : o' = o → assigned eq (.on r op) r e = e → assigned eq (.on r op) r e ∈ o'.elems ∧ o'.defined = true := by
    rintro rfl h; rw [h]; exact ⟨he, hd⟩
  cases op <;> simp only [LStep] at h <;> simp only [Destroyed, true_and] at hnd
  case insert x =>
    obtain ⟨y, b, h1, _⟩ := h
    exact ⟨inserts_mem h1 he, (inserts_plain h1).1.trans hd⟩
  case insertHint i x =>
    obtain ⟨y, b, h1, _⟩ := h
    exact ⟨inserts_mem h1 he, (inserts_plain h1).1.trans hd⟩
  case insertRange f xs => exact ⟨insertsAll_mem h.1 he, (insertsAll_plain h.1).1.trans hd⟩
  case insertOrAssign k v =>
    simp only [assigned, true_and, heq]
    rcases h with ⟨y, _, _, rfl⟩ | ⟨ha, _, rfl⟩
    · exact ⟨List.mem_map.2 ⟨e, he, rfl⟩, hd⟩
    · rw [ha e he]
      exact ⟨List.mem_cons_of_mem _ he, hd⟩
  case index k d =>
    rcases h with ⟨y, _, _, rfl⟩ | ⟨_, _, rfl⟩
    · exact ⟨he, hd⟩
    · exact ⟨List.mem_cons_of_mem _ he, hd⟩
  case erase k =>
    obtain ⟨_, rfl⟩ := h
    rw [heq] at hnd
    exact ⟨(List.mem_filter (x := e)).2 ⟨he, by simpa using hnd⟩, hd⟩
  case eraseAt i =>
    obtain ⟨y, rest, h1, h2, rfl⟩ := h
    refine ⟨?_, hd⟩
    rcases List.mem_cons.1 (h1.subset he) with rfl | h3
    · exact absurd h2 hnd
    · exact h3
  case eraseRange i n =>
    obtain ⟨gone, rest, h1, h2, h3, rfl⟩ := h
    have : gone = [] := List.length_eq_zero_iff.1 (by omega)
    subst this
    exact ⟨h1.subset he, hd⟩
  case extract k =>
    rcases h with ⟨y, rest, h1, h2, h3, rfl⟩ | ⟨_, _, rfl⟩
    · refine ⟨?_, hd⟩
      rcases List.mem_cons.1 (h1.subset he) with rfl | h4
      · exact absurd h3 hnd
      · exact h4
    · exact ⟨he, hd⟩
  case eraseIf pr =>
    obtain ⟨_, rfl⟩ := h
    exact ⟨(List.mem_filter (x := e)).2 ⟨he, by simpa using hnd⟩, hd⟩
  case clear => exact absurd trivial hnd
  case rehash => exact same h.2 rfl
  case reserve => exact same h.2 rfl
  case maxLoadFactor => exact same h.2 rfl
  all_goals exact same h.1 rfl

/-- what the specification says about an element of a program's containers -/
theorem step_fate {u : Bool} {tr : Traits} {veq : K × V → K × V → Bool} {a a' : Nat → Obj K V} {op : Op K V} {res : Res K V}
    (h : Step u tr veq a op res a') (hp : Pre u tr veq a op) {r : Nat} (hd : (a r).defined = true) {e : K × V}
    (he : e ∈ (a r).elems) (hnd : ¬ Destroyed (fun i => (a i).eq) op res r e) (hw : Whole tr (fun i => (a i).al) op) :
    ∃ q ∈ home op r, assigned (fun i => (a i).eq) op r e ∈ (a' q).elems ∧ (a' q).defined = true := by
  have other : ∀ {q : Nat} {o : Obj K V}, r ≠ q → upd a q o r = a r := fun h => by simp only [upd, if_neg h]
  have other2 : ∀ {q p : Nat} {o o2 : Obj K V}, r ≠ q → r ≠ p → upd (upd a q o) p o2 r = a r := fun h h2 => by
    simp only [upd, if_neg h, if_neg h2]
  cases op <;> simp only [Step] at h
  case on q o =>
    obtain ⟨o', h1, rfl⟩ := h
    refine ⟨r, by simp [home], ?_⟩
    by_cases hrq : r = q
    · subst hrq
      have := lstep_fate h1 hd he (fun i => (a i).eq) r rfl hnd
      simpa only [upd, if_pos] using this
    · rw [other hrq]
      have : assigned (fun i => (a i).eq) (.on q o) r e = e := by
        cases o <;> simp [assigned, hrq]
      rw [this]; exact ⟨he, hd⟩
  case construct q hf eq al n =>
    obtain ⟨_, rfl⟩ := h
    refine ⟨r, by simp [home], ?_⟩
    rw [other hnd]; exact ⟨he, hd⟩
  case copyConstruct q p al =>
    obtain ⟨_, rfl⟩ := h
    refine ⟨r, by simp [home], ?_⟩
    rw [other hnd]; exact ⟨he, hd⟩
  case moveConstruct q p =>
    obtain ⟨_, rfl⟩ := h
    have hqp : q ≠ p := hp.1
    by_cases hrp : r = p
    · subst hrp
      refine ⟨q, by simp [home], ?_⟩
      simp only [upd, if_neg hqp, if_pos]
      exact ⟨he, hd⟩
    · refine ⟨r, by simp [home, hrp], ?_⟩
      rw [other2 hnd hrp]; exact ⟨he, hd⟩
  case moveConstructAlloc q p al =>
    obtain ⟨_, rfl⟩ := h
    have hqp : q ≠ p := hp.1
    by_cases hrp : r = p
    · subst hrp
      refine ⟨q, by simp [home], ?_⟩
      simp only [upd, if_neg hqp, if_pos]
      exact ⟨he, hd⟩
    · refine ⟨r, by simp [home, hrp], ?_⟩
      rw [other2 hnd hrp]; exact ⟨he, hd⟩
  case copyAssign q p =>
    obtain ⟨_, rfl⟩ := h
    refine ⟨r, by simp [home], ?_⟩
    split
    · exact ⟨he, hd⟩
    · rename_i hqp
      rw [other (fun e => hnd ⟨e, hqp⟩)]; exact ⟨he, hd⟩
  case moveAssign q p =>
    obtain ⟨_, rfl⟩ := h
    by_cases hqp : q = p
    · rw [if_pos hqp]
      refine ⟨r, ?_, he, hd⟩
      by_cases hrp : r = p <;> simp [home, hrp, hqp]
    · rw [if_neg hqp]
      by_cases hrp : r = p
      · subst hrp
        refine ⟨q, by simp [home], ?_⟩
        simp only [upd, if_neg hqp, if_pos]
        exact ⟨he, hd⟩
      · refine ⟨r, by simp [home, hrp], ?_⟩
        rw [other2 (fun e => hnd ⟨e, hqp⟩) hrp]; exact ⟨he, hd⟩
  case swap q p =>
    obtain ⟨_, rfl⟩ := h
    by_cases hrq : r = q
    · subst hrq
      refine ⟨p, by simp [home], ?_⟩
      simp only [upd, if_pos]
      exact ⟨he, hd⟩
    · by_cases hrp : r = p
      · subst hrp
        refine ⟨q, by simp [home, hrq], ?_⟩
        simp only [upd, if_neg (Ne.symm hrq), if_pos]
        exact ⟨he, hd⟩
      · refine ⟨r, by simp [home, hrp, hrq], ?_⟩
        rw [other2 hrq hrp]; exact ⟨he, hd⟩
  case merge q p =>
    obtain ⟨_, h⟩ := h
    split at h
    · rename_i hqp
      subst h
      refine ⟨r, ?_, he, hd⟩
      by_cases hrp : r = p <;> simp [home, hrp, hqp]
    · rename_i hqp
      obtain ⟨took, kept, h1, _, _, rfl⟩ := h
      by_cases hrp : r = p
      · subst hrp
        rcases List.mem_append.1 (h1.subset he) with h2 | h2
        · refine ⟨q, by simp [home], ?_⟩
          simp only [upd, if_neg hqp, if_pos]
          exact ⟨List.mem_append_left _ h2, hp.1⟩
        · refine ⟨r, by simp [home], ?_⟩
          simp only [upd, if_pos]
          exact ⟨h2, hd⟩
      · refine ⟨r, by simp [home, hrp], ?_⟩
        by_cases hrq : r = q
        · subst hrq
          simp only [upd, if_neg hrp, if_pos]
          exact ⟨List.mem_append_right _ he, hd⟩
        · rw [other2 hrq hrp]; exact ⟨he, hd⟩
  case transfer q p k =>
    have hqp : q ≠ p := hp.2.2.2
    rcases h with ⟨_, _, rfl⟩ | ⟨x, rest, o', f, b, h1, h2, h3, h4, rfl⟩
    · refine ⟨r, ?_, he, hd⟩
      by_cases hrp : r = p <;> simp [home, hrp]
    · by_cases hrp : r = p
      · subst hrp
        rcases List.mem_cons.1 (h1.subset he) with rfl | h5
        · cases b with
          | false => exact absurd ⟨rfl, h4, h2⟩ hnd
          | true =>
            refine ⟨q, by simp [home], ?_⟩
            simp only [upd, if_neg hqp, if_pos]
            rcases h3 with ⟨_, _, hb, _⟩ | ⟨_, _, _, rfl⟩
            · cases hb
            · exact ⟨List.mem_cons_self .., hp.1⟩
        · refine ⟨r, by simp [home], ?_⟩
          simp only [upd, if_pos]
          exact ⟨h5, hd⟩
      · refine ⟨r, by simp [home, hrp], ?_⟩
        by_cases hrq : r = q
        · subst hrq
          simp only [upd, if_neg hrp, if_pos]
          exact ⟨inserts_mem h3 he, (inserts_plain h3).1.trans hd⟩
        · rw [other2 hrq hrp]; exact ⟨he, hd⟩
  case equal q p =>
    obtain ⟨rfl, _⟩ := h
    exact ⟨r, by simp [home], he, hd⟩

/-! ### function objects do not change -/

theorem rehashImpl_fns {t t' : Table K V} {n : Nat} (h : t.rehashImpl n = some t') : t'.fns = t.fns := by
  unfold Table.rehashImpl at h
  split at h
  · cases h
  · split at h
    · cases h
    · cases h; rfl

theorem rehash_fns {t t' : Table K V} {n : Nat} (h : t.rehash n = some t') : t'.fns = t.fns := by
  unfold Table.rehash at h
  dsimp only at h
  split at h
  · exact rehashImpl_fns h
  · cases h; rfl

theorem growForOne_fns {t t' : Table K V} (h : t.growForOne = some t') : t'.fns = t.fns := by
  unfold Table.growForOne at h
  split at h
  · exact rehash_fns h
  · cases h; rfl

theorem reserveForInsert_fns {t t' : Table K V} {n : Nat} (h : t.reserveForInsert n = some t') : t'.fns = t.fns := by
  unfold Table.reserveForInsert at h
  split at h
  · exact rehashImpl_fns h
  · cases h; rfl

theorem emplaceUnique_fns {t t' : Table K V} {x : K × V} {q : BIt × Nat} {b : Bool}
    (h : t.emplaceUnique x = some (t', q, b)) : t'.fns = t.fns := by
  unfold Table.emplaceUnique at h
  dsimp only at h
  split at h
  · cases h
  · cases h; rfl
  · split at h
    · cases h
    · rename_i t1 hg
      split at h
      · cases h
      · cases h; have := growForOne_fns hg; exact this

theorem emplaceEquiv_fns {t t' : Table K V} {x : K × V} {q : BIt × Nat}
    (h : t.emplaceEquiv x = some (t', q)) : t'.fns = t.fns := by
  unfold Table.emplaceEquiv at h
  dsimp only at h
  split at h
  · cases h
  · split at h
    · cases h
    · rename_i t1 hg
      split at h
      · cases h
      · split at h
        · cases h
        · cases h; have := growForOne_fns hg; exact this

theorem emplaceHintUnique_fns {t t' : Table K V} {x : K × V} {hint : It} {q : BIt × Nat}
    (h : t.emplaceHintUnique hint x = some (t', q)) : t'.fns = t.fns := by
  have base : ∀ {r}, (t.emplaceUnique x).map (fun r => (r.1, r.2.1)) = some r → r.1.fns = t.fns := by
    intro r hr
    rw [Option.map_eq_some_iff] at hr
    obtain ⟨⟨a, b, c⟩, h1, h2⟩ := hr
    cases h2; exact emplaceUnique_fns h1
  unfold Table.emplaceHintUnique at h
  split at h
  · exact base h
  · split at h
    · cases h
    · split at h
      · cases h; rfl
      · exact base h

theorem emplaceHintEquiv_fns {t t' : Table K V} {x : K × V} {hint : It} {q : BIt × Nat}
    (h : t.emplaceHintEquiv hint x = some (t', q)) : t'.fns = t.fns := by
  unfold Table.emplaceHintEquiv at h
  split at h
  · exact emplaceEquiv_fns h
  · split at h
    · cases h
    · split at h
      · split at h
        · cases h
        · rename_i t1 hg
          split at h
          · dsimp only at h
            split at h
            · split at h
              · split at h
                · cases h
                · cases h; have := growForOne_fns hg; exact this
              · cases h
            · cases h
          · split at h
            · cases h
            · cases h; have := growForOne_fns hg; exact this
      · exact emplaceEquiv_fns h

theorem insertRangeUnique_fns : ∀ (xs : List (K × V)) {t t' : Table K V}, Table.insertRangeUnique xs t = some t' → t'.fns = t.fns
  | [], t, t', h => by cases h; rfl
  | x :: xs, t, t', h => by
    simp only [Table.insertRangeUnique] at h
    split at h
    · cases h
    · rename_i e; exact (insertRangeUnique_fns xs h).trans (emplaceUnique_fns e)

theorem insertRangeEquiv1_fns : ∀ (xs : List (K × V)) {t t' : Table K V}, Table.insertRangeEquiv1 xs t = some t' → t'.fns = t.fns
  | [], t, t', h => by cases h; rfl
  | x :: xs, t, t', h => by
    simp only [Table.insertRangeEquiv1] at h
    split at h
    · cases h
    · rename_i e; exact (insertRangeEquiv1_fns xs h).trans (emplaceEquiv_fns e)

theorem insertRangeEquiv_fns {xs : List (K × V)} {t t' : Table K V} (h : Table.insertRangeEquiv t xs = some t') : t'.fns = t.fns := by
  unfold Table.insertRangeEquiv at h
  split at h
  · cases h; rfl
  · rw [Option.map_eq_some_iff] at h
    obtain ⟨⟨a, b⟩, h1, rfl⟩ := h
    exact emplaceEquiv_fns h1
  · split at h
    · cases h
    · rename_i t1 e1
      rw [Option.map_eq_some_iff] at h
      obtain ⟨b', h1, rfl⟩ := h
      have := reserveForInsert_fns e1; exact this

theorem lstep_fns {u : Bool} {t t' : Table K V} {o : Obj K V} {op : LOp K V} {res : Res K V} (h : R u t o)
    (hp : LPre u o op) (he : t.lstep u op = some (t', res)) : t'.fns = t.fns := by
  have erase : Erasing op → t'.fns = t.fns := fun ho => by
    obtain ⟨xs, hr⟩ := erasing_removed h hp ho he
    exact hr.fns
  have look : Looking op → t'.fns = t.fns := fun ho => by rw [looking_same ho he]
  cases op with
  | insert x =>
    simp only [Table.lstep, Table.opInsert] at he
    split at he
    · split at he
      · cases he
      · rename_i e
        rw [Option.map_eq_some_iff] at he
        obtain ⟨y, _, h2⟩ := he; cases h2
        exact emplaceUnique_fns e
    · split at he
      · cases he
      · rename_i e
        rw [Option.map_eq_some_iff] at he
        obtain ⟨y, _, h2⟩ := he; cases h2
        exact emplaceEquiv_fns e
  | insertHint i x =>
    simp only [Table.lstep, Table.opInsertHint] at he
    split at he
    · cases he
    · split at he
      · cases he
      · rename_i e
        rw [Option.map_eq_some_iff] at he
        obtain ⟨y, _, h2⟩ := he; cases h2
        split at e
        · exact emplaceHintUnique_fns e
        · exact emplaceHintEquiv_fns e
  | insertOrAssign k v =>
    simp only [Table.lstep, Table.opInsertOrAssign, Table.insertOrAssign] at he
    split at he
    · cases he
    · rename_i e
      rw [Option.map_eq_some_iff] at he
      obtain ⟨_, _, h2⟩ := he; cases h2
      split at e
      · cases e
      · rename_i e'
        cases e
        exact emplaceUnique_fns e'
      · rename_i t1 it e'
        rw [Option.map_eq_some_iff] at e
        obtain ⟨t2, g1, g2⟩ := e
        cases g2
        have : t'.fns = t1.fns := by
          unfold Table.assignAt at g1
          split at g1
          · cases g1
          · cases g1; rfl
        exact this.trans (emplaceUnique_fns e')
  | index k d =>
    simp only [Table.lstep, Table.opIndex] at he
    split at he
    · cases he
    · rename_i e
      rw [Option.map_eq_some_iff] at he
      obtain ⟨_, _, h2⟩ := he; cases h2
      exact emplaceUnique_fns e
  | insertRange fwd xs =>
    simp only [Table.lstep, Table.opInsertRange] at he
    rw [Option.map_eq_some_iff] at he
    obtain ⟨y, h1, h2⟩ := he; cases h2
    split at h1
    · exact insertRangeUnique_fns xs h1
    · split at h1
      · exact insertRangeEquiv_fns h1
      · exact insertRangeEquiv1_fns xs h1
  | rehash n =>
    simp only [Table.lstep] at he; rw [Option.map_eq_some_iff] at he; obtain ⟨y, h1, h2⟩ := he; cases h2
    exact rehash_fns h1
  | reserve n =>
    simp only [Table.lstep] at he; rw [Option.map_eq_some_iff] at he; obtain ⟨y, h1, h2⟩ := he; cases h2
    exact rehash_fns h1
  | maxLoadFactor z => simp only [Table.lstep] at he; cases he; rfl
  | _ => first | exact erase trivial | exact look trivial

/-! ### when the buckets stay -/

theorem grown_steady {t t' : Table K V} (hn : t.size + 1 ≤ t.maxLoad) (h : Grown t t') : t'.b.size = t.b.size := by
  obtain ⟨t1, g1, g2, _⟩ := h
  unfold Table.growForOne at g1
  rw [if_neg (by omega)] at g1
  cases g1; exact g2

theorem reserveForInsert_none {t : Table K V} {n : Nat} (hn : n ≤ t.maxLoad) : t.reserveForInsert n = some t := by
  unfold Table.reserveForInsert
  rw [if_neg (by omega)]

theorem maxLoad_eq {t t' : Table K V} (h : MlOk t) (h' : MlOk t') (hb : t'.b.size = t.b.size) (hm : t'.mlf = t.mlf) :
    t'.maxLoad = t.maxLoad := by
  rw [h, h', hb, hm]

theorem insertRangeUnique_steady : ∀ (xs : List (K × V)) {t t' : Table K V}, Good true t → MlOk t → t.size + xs.length ≤ t.maxLoad →
    Table.insertRangeUnique xs t = some t' → t'.b.size = t.b.size
  | [], t, t', _, _, _, h => by cases h; rfl
  | x :: xs, t, t', hg, hok, hN, h => by
    simp only [List.length_cons] at hN
    simp only [Table.insertRangeUnique] at h
    rcases emplaceUnique_spec hg.inv hg.law hg.shape x with ⟨q, e, h1, _⟩ | ⟨t1, q, h1, _, h2, h3, _⟩
    · rw [h1] at h
      exact insertRangeUnique_steady xs hg hok (by omega) h
    · rw [h1] at h
      have hg1 : Good true t1 := ⟨h2.inv, by rw [h2.fns]; exact hg.law, by rw [h2.fns]; exact h3⟩
      have hok1 := emplaceUnique_ok h1 hok
      have hb : t1.b.size = t.b.size := by
        rcases emplaceUnique_grown h1 with rfl | h4
        · rfl
        · exact grown_steady (by omega) h4
      have hml := maxLoad_eq hok hok1 hb h2.mlf
      exact (insertRangeUnique_steady xs hg1 hok1 (by rw [h2.size, hml]; omega) h).trans hb

theorem insertRangeEquiv1_steady : ∀ (xs : List (K × V)) {t t' : Table K V}, Good false t → MlOk t → t.size + xs.length ≤ t.maxLoad →
    Table.insertRangeEquiv1 xs t = some t' → t'.b.size = t.b.size
  | [], t, t', _, _, _, h => by cases h; rfl
  | x :: xs, t, t', hg, hok, hN, h => by
    simp only [List.length_cons] at hN
    simp only [Table.insertRangeEquiv1] at h
    obtain ⟨t1, q, h1, h2, h3, _⟩ := emplaceEquiv_spec hg.inv hg.law hg.shape x
    rw [h1] at h
    have hg1 : Good false t1 := ⟨h2.inv, by rw [h2.fns]; exact hg.law, by rw [h2.fns]; exact h3⟩
    have hok1 := emplaceEquiv_ok h1 hok
    have hb := grown_steady (by omega) (emplaceEquiv_grown h1)
    have hml := maxLoad_eq hok hok1 hb h2.mlf
    exact (insertRangeEquiv1_steady xs hg1 hok1 (by rw [h2.size, hml]; omega) h).trans hb

theorem insertRangeEquiv_steady {xs : List (K × V)} {t t' : Table K V} (hN : t.size + xs.length ≤ t.maxLoad)
    (h : Table.insertRangeEquiv t xs = some t') : t'.b.size = t.b.size := by
  unfold Table.insertRangeEquiv at h
  split at h
  · cases h; rfl
  · rw [Option.map_eq_some_iff] at h
    obtain ⟨⟨a, b⟩, h1, rfl⟩ := h
    exact grown_steady hN (emplaceEquiv_grown h1)
  · rw [reserveForInsert_none hN] at h
    dsimp only at h
    rw [Option.map_eq_some_iff] at h
    obtain ⟨b', h1, rfl⟩ := h
    exact fillEquiv_size h1

theorem mergeUnique_steady {t o t' o' : Table K V} (hal : t.al = o.al) (hN : t.size + o.size ≤ t.maxLoad)
    (h : t.mergeUnique o = some (t', o')) : t'.b.size = t.b.size := by
  unfold Table.mergeUnique at h
  rw [if_neg (by simp [hal])] at h
  split at h
  · cases h; rfl
  · rw [reserveForInsert_none hN] at h
    dsimp only at h
    split at h
    · cases h
    · exact mergeLoop_bsize h

theorem mergeSelf_steady {t t' : Table K V} (hN : t.size + t.size ≤ t.maxLoad) (h : t.mergeSelf = some t') :
    t'.b.size = t.b.size := by
  unfold Table.mergeSelf at h
  split at h
  · cases h; rfl
  · rw [reserveForInsert_none hN] at h
    dsimp only at h
    split at h
    · cases h
    · split at h
      · cases h; rfl
      · cases h

theorem insertNodeEquiv_steady {t t' : Table K V} {x : K × V} {q : BIt × Nat} (hN : t.size + 1 ≤ t.maxLoad)
    (h : t.insertNodeEquiv x = some (t', q)) : t'.b.size = t.b.size := by
  unfold Table.insertNodeEquiv at h
  rw [reserveForInsert_none hN] at h
  dsimp only at h
  split at h
  · cases h
  · split at h
    · cases h
    · rename_i e; cases h; exact Gba.insertNodeHint_size e

theorem insertNodeUnique_steady {t t' : Table K V} {x : K × V} {q : BIt × Nat} {b : Bool} (hN : t.size + 1 ≤ t.maxLoad)
    (h : t.insertNodeUnique x = some (t', q, b)) : t'.b.size = t.b.size := by
  unfold Table.insertNodeUnique at h
  rw [reserveForInsert_none hN] at h
  dsimp only at h
  split at h
  · cases h
  · cases h; rfl
  · split at h
    · cases h
    · rename_i e; cases h; exact Gba.insertNode_size e

theorem mergeEquivLoop_steady : ∀ (n f : Nat) {t o t' o' : Table K V}, Good false t → MlOk t → SInv o → o.size = n → n ≤ f →
    t.size + n ≤ t.maxLoad → Table.mergeEquivLoop f t o = some (t', o') → t'.b.size = t.b.size := by
  intro n
  induction n with
  | zero =>
    intro f t o t' o' hg hok hso h0 _ hN h
    cases f <;> (unfold Table.mergeEquivLoop at h; rw [if_pos h0] at h; cases h; rfl)
  | succ n ih =>
    intro f t o t' o' hg hok hso hn hf hN h
    cases f with
    | zero => omega
    | succ f =>
      unfold Table.mergeEquivLoop at h
      rw [if_neg (by omega)] at h
      rcases begin_spec hso with ⟨h1, h2⟩ | ⟨L, it, h1, h2, h3, h4, h5⟩
      · have := hso.len; rw [h2] at this; simp at this; omega
      · rw [h2] at h
        cases hel : o.b.elems L with
        | nil => rw [hel] at h5; simp at h5; omega
        | cons x post =>
          rw [hel] at h3
          obtain ⟨q, rfl⟩ := h3.some_of_cons
          dsimp only at h
          obtain ⟨o1, L1, e1, e2, e3, e4⟩ := extractAt_at hso h1 h3
          rw [e1] at h; dsimp only at h
          obtain ⟨t1, q1, i1, i2, i3, i4⟩ := insertNodeEquiv_spec hg.inv hg.law hg.shape x
          rw [i1] at h; dsimp only at h
          have hn1 := e2.size
          simp at hn1
          have hg1 : Good false t1 := ⟨i2.inv, by rw [i2.fns]; exact hg.law, by rw [i2.fns]; exact i3⟩
          have hb := insertNodeEquiv_steady (by omega) i1
          have hok1 := insertNodeEquiv_ok i1 hok
          have hml := maxLoad_eq hok hok1 hb i2.mlf
          exact (ih f hg1 hok1 e2.inv (by omega) (by omega) (by rw [i2.size, hml]; omega) h).trans hb


theorem mergeEquiv_steady {t o t' o' : Table K V} (hg : Good false t) (hok : MlOk t) (hso : SInv o) (hal : t.al = o.al)
    (hN : t.size + o.size ≤ t.maxLoad) (h : t.mergeEquiv o = some (t', o')) : t'.b.size = t.b.size := by
  unfold Table.mergeEquiv at h
  rw [if_neg (by simp [hal])] at h
  exact mergeEquivLoop_steady _ _ hg hok hso rfl (Nat.le_refl _) hN h

/-! ### room -/

/-- `n` more elements fit under the maximum load factor, as the user can compute it: `size() + n <= max_load_factor() *
bucket_count()` (`F32.SC` is the scale of the numbers representing load factors; `none` is infinity). -/
def Fit (t : Table K V) (n : Nat) : Prop :=
  t.size + n < 2 ^ 53 ∧
    match t.mlf with
    | none => t.bucketCount ≠ 0
    | some m => (t.size + n) * F32.SC ≤ m * t.bucketCount

theorem Fit.le {t : Table K V} {n : Nat} (hok : MlOk t) (h : Fit t n) : t.size + n ≤ t.maxLoad := by
  obtain ⟨hb, h⟩ := h
  rw [hok]
  unfold maxLoadFor
  by_cases h0 : t.b.size = 0
  · rw [if_pos h0]
    cases hm : t.mlf with
    | none => rw [hm] at h; exact absurd h0 h
    | some m =>
      rw [hm] at h
      have h' : (t.size + n) * F32.SC ≤ m * t.b.size := h
      rw [h0, Nat.mul_zero] at h'
      exact Nat.le_of_mul_le_mul_right (by rw [Nat.zero_mul]; exact h') F32.SC_pos
  · rw [if_neg h0]
    cases hm : t.mlf with
    | none =>
      show t.size + n ≤ sizeMax
      have : (2 : Nat) ^ 53 ≤ sizeMax := by decide
      omega
    | some m =>
      rw [hm] at h
      have h' : (t.size + n) * F32.SC ≤ m * t.b.size := h
      show t.size + n ≤ doubleToSize (F32.rnd 53 (m * t.b.size) 1)
      have hr : (t.size + n) * 2 ^ 149 ≤ F32.rnd 53 (m * t.b.size) 1 :=
        F32.rnd_ge (by decide) Nat.one_pos hb (by rw [Nat.mul_one]; exact h')
      unfold doubleToSize
      split
      · have : (2 : Nat) ^ 53 ≤ sizeMax := by decide
        omega
      · exact (Nat.le_div_iff_mul_le F32.SC_pos).2 hr

/-- Calls that leave the bucket arrays alone: erasures and lookups; insertions for which there is room. -/
def Room (s : Nat → Table K V) : Op K V → Prop
  | .on _ (.rehash _) => False
  | .on _ (.reserve _) => False
  | .on r (.insert _) => Fit (s r) 1
  | .on r (.insertHint _ _) => Fit (s r) 1
  | .on r (.insertOrAssign _ _) => Fit (s r) 1
  | .on r (.index _ _) => Fit (s r) 1
  | .on r (.insertRange _ xs) => Fit (s r) xs.length
  | .on _ _ => True
  | .merge r q => Fit (s r) (s q).size
  | .transfer r _ _ => Fit (s r) 1
  | .equal _ _ => True
  | _ => False

theorem lstep_steady {u : Bool} {t t' : Table K V} {o : Obj K V} {op : LOp K V} {res : Res K V} (h : R u t o) (hok : MlOk t)
    (hp : LPre u o op) {s : Nat → Table K V} {r : Nat} (hs : s r = t) (hN : Room s (.on r op))
    (he : t.lstep u op = some (t', res)) : t'.b.size = t.b.size := by
  have erase : Erasing op → t'.b.size = t.b.size := fun ho => by
    obtain ⟨xs, hr⟩ := erasing_removed h hp ho he
    exact hr.bsize
  have look : Looking op → t'.b.size = t.b.size := fun ho => by rw [looking_same ho he]
  have one : t.size + 1 ≤ t.maxLoad → SingleInsert op → t'.b.size = t.b.size := fun hn ho => by
    rcases single_cases ho he with hg | hg
    · exact hg.1
    · exact grown_steady hn hg
  cases op with
  | insert x => exact one (by rw [← hs]; exact Fit.le (hs ▸ hok) hN) trivial
  | insertHint i x => exact one (by rw [← hs]; exact Fit.le (hs ▸ hok) hN) trivial
  | insertOrAssign k v => exact one (by rw [← hs]; exact Fit.le (hs ▸ hok) hN) trivial
  | index k d => exact one (by rw [← hs]; exact Fit.le (hs ▸ hok) hN) trivial
  | insertRange fwd xs =>
    have hn : t.size + xs.length ≤ t.maxLoad := by rw [← hs]; exact Fit.le (hs ▸ hok) hN
    have hg : Good u t := ⟨h.inv, h.law, h.shape hp⟩
    simp only [Table.lstep, Table.opInsertRange] at he
    rw [Option.map_eq_some_iff] at he
    obtain ⟨y, h1, h2⟩ := he; cases h2
    split at h1
    · rename_i hu; rw [hu] at hg; exact insertRangeUnique_steady xs hg hok hn h1
    · rename_i hu
      rw [Bool.not_eq_true] at hu; rw [hu] at hg
      split at h1
      · exact insertRangeEquiv_steady hn h1
      · exact insertRangeEquiv1_steady xs hg hok hn h1
  | rehash n => exact absurd hN id
  | reserve n => exact absurd hN id
  | maxLoadFactor z => simp only [Table.lstep] at he; cases he; rfl
  | _ => first | exact erase trivial | exact look trivial

theorem size_upd {s : Nat → Table K V} {r : Nat} {t : Table K V} (h : t.b.size = (s r).b.size) :
    ∀ i, (upd s r t i).b.size = (s i).b.size := by
  intro i
  unfold upd
  split
  · rename_i h'; rw [h', h]
  · rfl

theorem size_upd2 {s : Nat → Table K V} {r q : Nat} {t x : Table K V} (h : t.b.size = (s r).b.size) (hx : x.b.size = (s q).b.size) :
    ∀ i, (upd (upd s r t) q x i).b.size = (s i).b.size := by
  intro i
  unfold upd
  split
  · rename_i h'; rw [h', hx]
  · split
    · rename_i h'; rw [h', h]
    · rfl

theorem fns_upd {s : Nat → Table K V} {r : Nat} {t : Table K V} (h : t.fns = (s r).fns) :
    ∀ i, (upd s r t i).fns = (s i).fns := by
  intro i
  unfold upd
  split
  · rename_i h'; rw [h', h]
  · rfl

theorem fns_upd2 {s : Nat → Table K V} {r q : Nat} {t x : Table K V} (h : t.fns = (s r).fns) (hx : x.fns = (s q).fns) :
    ∀ i, (upd (upd s r t) q x i).fns = (s i).fns := by
  intro i
  unfold upd
  split
  · rename_i h'; rw [h', hx]
  · split
    · rename_i h'; rw [h', h]
    · rfl

theorem step_steady (c : MCfg K V) {s s' : Nat → Table K V} {a : Nat → Obj K V} (hr : RS c.u s a) {op : Op K V}
    {res : Res K V} (hp : SpecC.Pre c.u c.tr c.veq a op) (h0 : ∀ r, MlOk (s r)) (hN : Room s op)
    (h : step c s op = some (s', res)) : ∀ r, (s' r).b.size = (s r).b.size := by
  cases op <;> simp only [Room] at hN
  case on r o =>
    simp only [step] at h
    rw [Option.map_eq_some_iff] at h
    obtain ⟨⟨t', res'⟩, h1, h2⟩ := h; cases h2
    exact size_upd (lstep_steady (hr r) (h0 r) hp rfl hN h1)
  case merge r q =>
    obtain ⟨hd1, hd2, hal, hself⟩ := hp
    have g : ∀ i, (a i).defined = true → Good c.u (s i) := fun i hi => ⟨(hr i).inv, (hr i).law, (hr i).shape hi⟩
    have hal' : (s r).al = (s q).al := ((hr r).al.trans hal).trans (hr q).al.symm
    have hn := hN.le (h0 r)
    simp only [step] at h
    split at h
    · rename_i hu
      have gr := g r hd1
      rw [hu] at gr
      split at h
      · rename_i hrq
        subst hrq
        rw [Option.map_eq_some_iff] at h
        obtain ⟨t', h1, h2⟩ := h; cases h2
        exact size_upd (mergeSelf_steady hn h1)
      · rw [Option.map_eq_some_iff] at h
        obtain ⟨⟨t', x'⟩, h1, h2⟩ := h; cases h2
        obtain ⟨t2, o2, took, kept, e1, _, _, _, _, e5⟩ := mergeUnique_spec gr.inv gr.law gr.shape (hr q).inv hal'
        rw [h1] at e1; cases e1
        exact size_upd2 (mergeUnique_steady hal' hn h1) e5.bsize
    · rename_i hu
      rw [Bool.not_eq_true] at hu
      have gr := g r hd1
      rw [hu] at gr
      split at h
      · cases h
      · rw [Option.map_eq_some_iff] at h
        obtain ⟨⟨t', x'⟩, h1, h2⟩ := h; cases h2
        obtain ⟨t2, o2, took, e1, _, _, _, e5, _⟩ := mergeEquiv_spec gr.inv gr.law gr.shape (hr q).inv hal'
        rw [h1] at e1; cases e1
        exact size_upd2 (mergeEquiv_steady gr (h0 r) (hr q).inv hal' hn h1) e5.bsize
  case transfer r q k =>
    obtain ⟨hd1, hd2, hal, hrq⟩ := hp
    have hn := hN.le (h0 r)
    simp only [step] at h
    split at h
    · cases h
    · cases h; exact fun i => rfl
    · rename_i x e e1
      obtain ⟨xs, hx⟩ : ∃ xs, Removed (s q) xs x := by
        refine erasing_removed (op := .extract k) (res := .elem (some e)) (hr q) hd2 trivial ?_
        simp only [Table.lstep, e1, Option.map_some]
      split at h
      · cases h
      · rw [Option.map_eq_some_iff] at h
        obtain ⟨⟨t', b⟩, h1, h2⟩ := h; cases h2
        refine size_upd2 ?_ hx.bsize
        split at h1
        · rw [Option.map_eq_some_iff] at h1
          obtain ⟨⟨t'', p, b'⟩, h3, h4⟩ := h1; cases h4
          exact insertNodeUnique_steady hn h3
        · rw [Option.map_eq_some_iff] at h1
          obtain ⟨⟨t'', p⟩, h3, h4⟩ := h1; cases h4
          exact insertNodeEquiv_steady hn h3
  case equal r q =>
    simp only [step] at h
    rw [Option.map_eq_some_iff] at h
    obtain ⟨b, h1, h2⟩ := h; cases h2
    exact fun i => rfl

/-- Calls that do not replace a container by another one: the member functions on one container, `merge`, insertion of a node,
comparison. -/
def InPlace : Op K V → Prop
  | .on _ _ => True
  | .merge _ _ => True
  | .transfer _ _ _ => True
  | .equal _ _ => True
  | _ => False

theorem step_fns (c : MCfg K V) {s s' : Nat → Table K V} {a : Nat → Obj K V} (hr : RS c.u s a) {op : Op K V}
    {res : Res K V} (hp : SpecC.Pre c.u c.tr c.veq a op) (ho : InPlace op)
    (h : step c s op = some (s', res)) : ∀ r, (s' r).fns = (s r).fns := by
  cases op <;> simp only [InPlace] at ho
  case on r o =>
    simp only [step] at h
    rw [Option.map_eq_some_iff] at h
    obtain ⟨⟨t', res'⟩, h1, h2⟩ := h; cases h2
    exact fns_upd (lstep_fns (hr r) hp h1)
  case merge r q =>
    obtain ⟨hd1, hd2, hal, hself⟩ := hp
    have g : ∀ i, (a i).defined = true → Good c.u (s i) := fun i hi => ⟨(hr i).inv, (hr i).law, (hr i).shape hi⟩
    have hal' : (s r).al = (s q).al := ((hr r).al.trans hal).trans (hr q).al.symm
    have gr := g r hd1
    simp only [step] at h
    split at h
    · rename_i hu
      rw [hu] at gr
      split at h
      · rw [Option.map_eq_some_iff] at h
        obtain ⟨t', h1, h2⟩ := h; cases h2
        obtain ⟨t2, e1, e2⟩ := mergeSelf_spec gr.inv gr.law gr.shape
        rw [h1] at e1; cases e1
        exact fns_upd e2.fns
      · rw [Option.map_eq_some_iff] at h
        obtain ⟨⟨t', x'⟩, h1, h2⟩ := h; cases h2
        obtain ⟨t2, o2, took, kept, e1, _, _, e4, _, e5⟩ := mergeUnique_spec gr.inv gr.law gr.shape (hr q).inv hal'
        rw [h1] at e1; cases e1
        exact fns_upd2 e4.fns e5.fns
    · rename_i hu
      rw [Bool.not_eq_true] at hu
      rw [hu] at gr
      split at h
      · cases h
      · rw [Option.map_eq_some_iff] at h
        obtain ⟨⟨t', x'⟩, h1, h2⟩ := h; cases h2
        obtain ⟨t2, o2, took, e1, _, e4, _, e5, _⟩ := mergeEquiv_spec gr.inv gr.law gr.shape (hr q).inv hal'
        rw [h1] at e1; cases e1
        exact fns_upd2 e4.fns e5.fns
  case transfer r q k =>
    obtain ⟨hd1, hd2, hal, hrq⟩ := hp
    have gr : Good c.u (s r) := ⟨(hr r).inv, (hr r).law, (hr r).shape hd1⟩
    simp only [step] at h
    split at h
    · cases h
    · cases h; exact fun i => rfl
    · rename_i x e e1
      obtain ⟨xs, hx⟩ : ∃ xs, Removed (s q) xs x := by
        refine erasing_removed (op := .extract k) (res := .elem (some e)) (hr q) hd2 trivial ?_
        simp only [Table.lstep, e1, Option.map_some]
      split at h
      · cases h
      · rw [Option.map_eq_some_iff] at h
        obtain ⟨⟨t', b⟩, h1, h2⟩ := h; cases h2
        refine fns_upd2 ?_ hx.fns
        split at h1
        · rename_i hu
          rw [hu] at gr
          rw [Option.map_eq_some_iff] at h1
          obtain ⟨⟨t'', p, b'⟩, h3, h4⟩ := h1; cases h4
          rcases insertNodeUnique_spec gr.inv gr.law gr.shape e with ⟨_, _, i1, _⟩ | ⟨_, _, i1, _, i2, _⟩
          · rw [h3] at i1; cases i1; rfl
          · rw [h3] at i1; cases i1; exact i2.fns
        · rename_i hu
          rw [Bool.not_eq_true] at hu
          rw [hu] at gr
          rw [Option.map_eq_some_iff] at h1
          obtain ⟨⟨t'', p⟩, h3, h4⟩ := h1; cases h4
          obtain ⟨_, _, i1, i2, _⟩ := insertNodeEquiv_spec gr.inv gr.law gr.shape e
          rw [h3] at i1; cases i1; exact i2.fns
  case equal r q =>
    simp only [step] at h
    rw [Option.map_eq_some_iff] at h
    obtain ⟨b, h1, h2⟩ := h; cases h2
    exact fun i => rfl

theorem reach_run (c : MCfg K V) : ∀ (ops : List (Op K V)) (op : Op K V) (s s' : Nat → Table K V) (a : Nat → Obj K V)
    (outs : List (Res K V)), RS c.u s a → SpecC.Safe c.u c.tr c.veq (ops ++ [op]) a → Fca.run c ops s = some (s', outs) →
    ∃ a', SpecC.Run c.u c.tr c.veq a ops outs a' ∧ RS c.u s' a' ∧ SpecC.Pre c.u c.tr c.veq a' op
  | [], op, s, s', a, outs, hr, hs, h => by
    simp only [Fca.run] at h; cases h; exact ⟨a, .nil a, hr, hs.1⟩
  | o :: ops, op, s, s', a, outs, hr, hs, h => by
    obtain ⟨s1, res, a1, e1, e2, e3⟩ := step_refines c hr o hs.1
    simp only [Fca.run, e1] at h
    rw [Option.map_eq_some_iff] at h
    obtain ⟨⟨s2, outs2⟩, h1, h2⟩ := h; cases h2
    obtain ⟨a', g1, g2, g3⟩ := reach_run c ops op s1 _ a1 outs2 e3 (hs.2 _ _ e2) h1
    exact ⟨a', .cons e2 g1, g2, g3⟩

theorem contents_of_no_buckets {t : Table K V} (h0 : t.b.size = 0) : t.contents = [] := by
  show (List.range t.b.size).flatMap t.b.chain = []
  rw [h0]; rfl

theorem lstep_defined {u : Bool} {o o' : Obj K V} {op : LOp K V} {res : Res K V} (h : LStep u o op res o')
    (hd : o.defined = true) : o'.defined = true := by
  cases op <;> simp only [LStep] at h
  case insertRange => exact (insertsAll_plain h.1).1.trans hd
  all_goals grind [SpecC.Inserts]

theorem step_defined {u : Bool} {tr : Traits} {veq : K × V → K × V → Bool} {a a' : Nat → Obj K V} {op : Op K V} {res : Res K V}
    (h : Step u tr veq a op res a') (ho : InPlace op) {r : Nat} (hd : (a r).defined = true) : (a' r).defined = true := by
  cases op <;> simp only [InPlace] at ho <;> simp only [Step] at h
  case on q o =>
    obtain ⟨o', h1, rfl⟩ := h
    by_cases hrq : r = q
    · subst hrq; simp only [upd, if_pos]; exact lstep_defined h1 hd
    · simp only [upd, if_neg hrq]; exact hd
  case merge q p =>
    obtain ⟨_, h⟩ := h
    split at h
    · subst h; exact hd
    · obtain ⟨took, kept, _, _, _, rfl⟩ := h
      by_cases hrp : r = p
      · subst hrp; simp only [upd, if_pos]; exact hd
      · by_cases hrq : r = q
        · subst hrq; simp only [upd, if_neg hrp, if_pos]; exact hd
        · simp only [upd, if_neg hrp, if_neg hrq]; exact hd
  case transfer q p k =>
    rcases h with ⟨_, _, rfl⟩ | ⟨x, rest, o', f, b, h1, h2, h3, h4, rfl⟩
    · exact hd
    · by_cases hrp : r = p
      · subst hrp; simp only [upd, if_pos]; exact hd
      · by_cases hrq : r = q
        · subst hrq; simp only [upd, if_neg hrp, if_pos]; exact (inserts_plain h3).1.trans hd
        · simp only [upd, if_neg hrp, if_neg hrq]; exact hd
  case equal q p => obtain ⟨rfl, _⟩ := h; exact hd

/-! ### the property -/

/-- The container `r` is not a moved-from one after `ops`: whatever the specification allows to have happened, its contents are
specified. -/
def Settled (c : MCfg K V) (e : K → K → Bool) (ops : List (Op K V)) (outs : List (Res K V)) (r : Nat) : Prop :=
  ∀ a, SpecC.Run c.u c.tr c.veq (SpecC.start e) ops outs a → (a r).defined = true

/-- what happens to an element: core of C58 -/
theorem fate (c : MCfg K V) {hf : K → Nat} {e : K → K → Bool} (hl : Spec.Lawful hf e) {ops : List (Op K V)}
    {op : Op K V} (hs : SpecC.Safe c.u c.tr c.veq (ops ++ [op]) (SpecC.start e)) {s s' : Nat → Table K V} {outs : List (Res K V)}
    {res : Res K V} (h1 : Fca.run c ops (Fca.start hf e) = some (s, outs)) (h2 : step c s op = some (s', res)) {r : Nat}
    (hd : Settled c e ops outs r) {x : K × V} (hx : x ∈ (s r).contents)
    (hnd : ¬ Destroyed (fun i => (s i).fns.eq) op res r x) (hw : Whole c.tr (fun i => (s i).al) op) :
    ∃ q ∈ home op r, assigned (fun i => (s i).fns.eq) op r x ∈ (s' q).contents ∧ SInv (s' q) ∧ Placed (s' q).fns (s' q).b := by
  obtain ⟨a, g1, g2, g3⟩ := reach_run c ops op _ s _ outs (start_rs c.u hl) hs h1
  obtain ⟨s2, res2, a', e1, e2, e3⟩ := step_refines c g2 op g3
  rw [h2] at e1; cases e1
  have heq : (fun i => (s i).fns.eq) = (fun i => (a i).eq) := funext fun i => (g2 i).eq
  have hal : (fun i => (s i).al) = (fun i => (a i).al) := funext fun i => (g2 i).al
  rw [heq] at hnd ⊢
  rw [hal] at hw
  have hdr := hd a g1
  obtain ⟨q, h3, h4, h5⟩ := step_fate e2 g3 hdr (((g2 r).elems hdr).subset hx) hnd hw
  exact ⟨q, h3, (((e3 q).elems h5).symm).subset h4, (e3 q).inv, ((e3 q).shape h5).1⟩

/-- **C58** (pointers and references). After any program, any further call leaves every element it does not destroy in place: the
element with the same node address, key and value is still in its container, or - for `swap`, moves between equal or propagated
allocators, `merge` and insertion of a node handle - in the container the nodes were handed to. `insert_or_assign` assigns the
mapped value. -/
theorem C58_references (c : MCfg K (V × Nat)) (hf : K → Nat) (e : K → K → Bool) (hl : Spec.Lawful hf e)
    (ops : List (Op K (V × Nat))) (op : Op K (V × Nat)) (hs : SpecC.Safe c.u c.tr c.veq (ops ++ [op]) (SpecC.start e))
    (s s' : Nat → Table K (V × Nat)) (outs : List (Res K (V × Nat))) (res : Res K (V × Nat))
    (h1 : Fca.run c ops (Fca.start hf e) = some (s, outs)) (h2 : step c s op = some (s', res)) (r : Nat)
    (hd : Settled c e ops outs r) (x : K × V × Nat) (hx : x ∈ (s r).contents)
    (hnd : ¬ Destroyed (fun i => (s i).fns.eq) op res r x) (hw : Whole c.tr (fun i => (s i).al) op) :
    ∃ q ∈ home op r, assigned (fun i => (s i).fns.eq) op r x ∈ (s' q).contents := by
  obtain ⟨q, h3, h4, _⟩ := fate c hl hs h1 h2 hd hx hnd hw
  exact ⟨q, h3, h4⟩

/-- **C58** (iterators). A call on containers that keep their buckets - the bucket count of `r` is the same after it, whatever
was inserted or erased - leaves an iterator to an element that is still in the container pointing to this element, and the
iterator can be dereferenced, incremented and erased through. -/
theorem C58_iterators (c : MCfg K (V × Nat)) (hf : K → Nat) (e : K → K → Bool) (hl : Spec.Lawful hf e)
    (ops : List (Op K (V × Nat))) (op : Op K (V × Nat)) (hs : SpecC.Safe c.u c.tr c.veq (ops ++ [op]) (SpecC.start e))
    (s s' : Nat → Table K (V × Nat)) (outs : List (Res K (V × Nat))) (res : Res K (V × Nat))
    (h1 : Fca.run c ops (Fca.start hf e) = some (s, outs)) (h2 : step c s op = some (s', res)) (ho : InPlace op) (r : Nat)
    (hd : Settled c e ops outs r) (hb : (s' r).bucketCount = (s r).bucketCount) (it : CIt) (x x' : K × V × Nat)
    (hp : Points (s r) it x) (hx : x' ∈ (s' r).contents) (hk : x'.1 = x.1) (ha : addr x' = addr x) :
    Points (s' r) it x' ∧ (((s' r).contents.map addr).Nodup → Usable (s' r) it x') := by
  obtain ⟨a, g1, g2, g3⟩ := reach_run c ops op _ s _ outs (start_rs c.u hl) hs h1
  obtain ⟨s2, res2, a', e1, e2, e3⟩ := step_refines c g2 op g3
  rw [h2] at e1; cases e1
  have hdr := hd a g1
  have hpl := ((g2 r).shape hdr).1
  have hf := step_fns c g2 g3 ho h2 r
  have hne : (s r).b.size ≠ 0 := by
    intro h0
    have := hp.mem (g2 r).inv
    rw [contents_of_no_buckets h0] at this
    cases this
  have hpos := pos_eq (g2 r).inv.wf (e3 r).inv.wf hb hne (by rw [hf])
  have hdr' : (a' r).defined = true := step_defined e2 ho hdr
  have hpl' := ((e3 r).shape hdr').1
  have hq := Points.mk' (e3 r).inv hpl' hx
  have : Points (s' r) it x' := by
    rw [hp.fields hpl, ← hpos, ← ha, ← hk]; exact hq
  exact ⟨this, fun hn => this.usable (e3 r).inv hn⟩

theorem assigned_key (eq : Nat → K → K → Bool) (op : Op K V) (r : Nat) (x : K × V) : (assigned eq op r x).1 = x.1 := by
  unfold assigned
  split
  · split <;> rfl
  · rfl

/-- **C58** (which calls keep the buckets). Erasures, lookups and `max_load_factor` never change the bucket count; insertions,
`merge` and insertion of nodes do not change it if the elements fit under the maximum load factor. -/
theorem C58_room_keeps_buckets (c : MCfg K V) (hf : K → Nat) (e : K → K → Bool) (hl : Spec.Lawful hf e)
    (ops : List (Op K V)) (op : Op K V) (hs : SpecC.Safe c.u c.tr c.veq (ops ++ [op]) (SpecC.start e))
    (hn : NoPoccaAll c.u c.tr c.veq (ops ++ [op]) (SpecC.start e)) (s s' : Nat → Table K V) (outs : List (Res K V)) (res : Res K V)
    (h1 : Fca.run c ops (Fca.start hf e) = some (s, outs)) (h2 : step c s op = some (s', res)) (hN : Room s op) (r : Nat) :
    (s' r).bucketCount = (s r).bucketCount := by
  obtain ⟨a, g1, g2, _, g4⟩ := reach_pre c ops op _ s _ outs (start_rs c.u hl) hs hn (fun r => start_ok ..) h1
  exact step_steady c g1 g2 g4 hN h2 r

theorem room_inPlace {s : Nat → Table K V} {op : Op K V} (h : Room s op) : InPlace op := by
  cases op <;> trivial

/-- **C58** (insertions and erasures keep iterators). After a call for which there is room every iterator to an element that is not
destroyed points to this element and can be dereferenced, incremented and erased through. -/
theorem C58_room_keeps_iterators (c : MCfg K (V × Nat)) (hf : K → Nat) (e : K → K → Bool) (hl : Spec.Lawful hf e)
    (ops : List (Op K (V × Nat))) (op : Op K (V × Nat)) (hs : SpecC.Safe c.u c.tr c.veq (ops ++ [op]) (SpecC.start e))
    (hn : NoPoccaAll c.u c.tr c.veq (ops ++ [op]) (SpecC.start e))
    (s s' : Nat → Table K (V × Nat)) (outs : List (Res K (V × Nat))) (res : Res K (V × Nat))
    (h1 : Fca.run c ops (Fca.start hf e) = some (s, outs)) (h2 : step c s op = some (s', res)) (hN : Room s op) (r : Nat)
    (hr : home op r = [r]) (hd : Settled c e ops outs r) (it : CIt) (x : K × V × Nat) (hp : Points (s r) it x)
    (hnd : ¬ Destroyed (fun i => (s i).fns.eq) op res r x)
    (ha : addr (assigned (fun i => (s i).fns.eq) op r x) = addr x) :
    Points (s' r) it (assigned (fun i => (s i).fns.eq) op r x) ∧
      (((s' r).contents.map addr).Nodup → Usable (s' r) it (assigned (fun i => (s i).fns.eq) op r x)) := by
  have hi := room_inPlace hN
  have hb := C58_room_keeps_buckets c hf e hl ops op hs hn s s' outs res h1 h2 hN r
  obtain ⟨a, _, g2, _⟩ := reach_run c ops op _ s _ outs (start_rs c.u hl) hs h1
  have hw : Whole c.tr (fun i => (s i).al) op := by cases op <;> trivial
  obtain ⟨q, h3, h4, _⟩ := fate c hl hs h1 h2 hd (hp.mem (g2 r).inv) hnd hw
  rw [hr, List.mem_singleton] at h3
  subst h3
  exact C58_iterators c hf e hl ops op hs s s' outs res h1 h2 hi q hd hb it x _ hp h4 (assigned_key _ _ _ _) ha

theorem node_b {t t' : Table K (V × Nat)} (h : t'.b = t.b) {it : CIt} {x : K × V × Nat} (hp : Points t it x) : Points t' it x := by
  obtain ⟨q, h1, h2⟩ := hp
  exact ⟨q, by rw [h]; exact h1, h2⟩

/-- **C58** (swap and moves). `swap`, move construction, and move construction with an equal allocator or move assignment with equal
or propagated allocators hand the iterators over: an iterator to an element of the source is an iterator to the same element of
the container that has it afterwards. -/
theorem C58_handed_over (c : MCfg K (V × Nat)) (s s' : Nat → Table K (V × Nat)) (res : Res K (V × Nat)) (r q : Nat) (hrq : r ≠ q)
    (it : CIt) (x : K × V × Nat) :
    (step c s (.swap r q) = some (s', res) → (Points (s r) it x → Points (s' q) it x) ∧ (Points (s q) it x → Points (s' r) it x)) ∧
    (step c s (.moveConstruct r q) = some (s', res) → Points (s q) it x → Points (s' r) it x) ∧
    (step c s (.moveConstructAlloc r q (s q).al) = some (s', res) → Points (s q) it x → Points (s' r) it x) ∧
    (c.tr.pocma = true ∨ (s r).al = (s q).al → step c s (.moveAssign r q) = some (s', res) → Points (s q) it x →
      Points (s' r) it x) := by
  have hqr : q ≠ r := Ne.symm hrq
  refine ⟨fun h => ?_, fun h hp => ?_, fun h hp => ?_, fun hw h hp => ?_⟩
  · simp only [step, if_neg hrq] at h
    rw [Option.map_eq_some_iff] at h
    obtain ⟨⟨t', x'⟩, h1, h2⟩ := h; cases h2
    unfold Table.swap at h1
    split at h1
    · cases h1
    · cases h1
      constructor
      · intro hp
        refine node_b ?_ hp
        simp only [upd, if_pos]
      · intro hp
        refine node_b ?_ hp
        simp only [upd, if_neg hrq, if_pos]
  · simp only [step] at h
    rw [Option.map_eq_some_iff] at h
    obtain ⟨_, _, h2⟩ := h; cases h2
    refine node_b ?_ hp
    simp only [upd, if_neg hrq, if_pos, Table.moveCtor]
  · simp only [step, Table.moveCtorAlloc, if_pos] at h
    split at h
    · rename_i t' x' _ h1
      cases h
      refine node_b ?_ hp
      simp only [upd, if_neg hrq, if_pos]
      unfold Table.moveBucketsFrom at h1
      split at h1
      · cases h1
      · cases h1; rfl
    · cases h
  · simp only [step, if_neg hrq] at h
    rw [Option.map_eq_some_iff] at h
    obtain ⟨⟨t', x'⟩, h1, h2⟩ := h; cases h2
    refine node_b ?_ hp
    simp only [upd, if_neg hrq, if_pos]
    unfold Table.moveAssign at h1
    rw [if_pos hw] at h1
    split at h1
    · cases h1
    · unfold Table.moveBucketsFrom at h1
      split at h1
      · cases h1
      · cases h1; rfl

/-- **C58** (the bucket array is replaced only with a change of the bucket count). Wherever a call may reallocate (`rehash`,
`reserve`, growth for one element, growth for several elements below the largest bucket count), it either leaves the container
exactly as it was, or the bucket count changes: an unchanged `bucket_count()` tells that iterators were not invalidated. -/
theorem C58_same_count_same_buckets (t t' : Table K V) (n : Nat) :
    (t.rehash n = some t' → t' = t ∨ t'.bucketCount ≠ t.bucketCount) ∧
    (t.reserve n = some t' → t' = t ∨ t'.bucketCount ≠ t.bucketCount) ∧
    (t.growForOne = some t' → t' = t ∨ t'.bucketCount ≠ t.bucketCount) ∧
    (t.bucketCount < Cost.top → t.reserveForInsert n = some t' → t' = t ∨ t.bucketCount < t'.bucketCount) := by
  have re : ∀ n, t.rehash n = some t' → t' = t ∨ t'.bucketCount ≠ t.bucketCount := by
    intro n h
    unfold Table.rehash at h
    dsimp only at h
    split at h
    · rename_i hne
      refine Or.inr ?_
      show t'.b.size ≠ _
      rw [rehashImpl_size h, Gba.bucketCountFor_idem]
      exact hne
    · cases h; exact Or.inl rfl
  refine ⟨re n, fun h => re _ h, fun h => ?_, fun hb h => ?_⟩
  · unfold Table.growForOne at h
    split at h
    · exact re _ h
    · cases h; exact Or.inl rfl
  · unfold Table.reserveForInsert at h
    split at h
    · refine Or.inr ?_
      show _ < t'.b.size
      rw [rehashImpl_size h]
      have hm : t.bucketCount < insertBuckets n t.mlf t.bucketCount := by
        unfold insertBuckets
        omega
      generalize insertBuckets n t.mlf t.bucketCount = w at hm
      by_cases hw : Gba.bucketCountFor w < Cost.top
      · have := le_of_lt_top (by omega) hw
        omega
      · omega
    · cases h; exact Or.inl rfl

/-! ### concrete programs -/

open Props.SerIterC (numbers ident numbers_lawful) in
/-- a program of easy calls meets the general hypotheses; `it` points to the element `x` of container 0 -/
theorem met (u : Bool) (ops : List (Op Nat (Nat × Nat))) (op : Op Nat (Nat × Nat)) (he : ∀ o ∈ ops ++ [op], Easy u o)
    {β : Type} {f : (Nat → Table Nat (Nat × Nat)) → β} {y : β}
    (h : ((Fca.run (numbers u) ops (Fca.start ident (fun a b => a == b))).map (fun p => f p.1)) = some y) :
    SpecC.Safe u (numbers u).tr (numbers u).veq (ops ++ [op]) (SpecC.start (fun a b => a == b)) ∧
    NoPoccaAll u (numbers u).tr (numbers u).veq (ops ++ [op]) (SpecC.start (fun a b => a == b)) ∧
    ∃ s outs s' res, Fca.run (numbers u) ops (Fca.start ident (fun a b => a == b)) = some (s, outs) ∧
      step (numbers u) s op = some (s', res) ∧ f s = y ∧
      (∀ r, Settled (numbers u) (fun a b => a == b) ops outs r) ∧
      ∀ r x, x ∈ (s r).contents → ∃ it, Points (s r) it x := by
  have hs := easy_safe (tr := (numbers u).tr) (veq := (numbers u).veq) (ops ++ [op]) _ he (start_plain (fun a b => a == b))
  have he1 : ∀ o ∈ ops, Easy u o := fun o ho => he o (List.mem_append_left _ ho)
  refine ⟨hs, noPocca_all (numbers u) rfl _ _, ?_⟩
  cases hrun : Fca.run (numbers u) ops (Fca.start ident (fun a b => a == b)) with
  | none => rw [hrun] at h; cases h
  | some p =>
    obtain ⟨s, outs⟩ := p
    rw [hrun] at h
    simp only [Option.map_some, Option.some.injEq] at h
    obtain ⟨a, g1, g2, g3⟩ := reach_run (numbers u) ops op _ s _ outs (start_rs u numbers_lawful) hs hrun
    obtain ⟨s', res, a', e1, _, _⟩ := step_refines (numbers u) g2 op g3
    have hset : ∀ r, Settled (numbers u) (fun a b => a == b) ops outs r := fun r a ha => (easy_plain ha he1 (start_plain _) r).1
    exact ⟨s, outs, s', res, rfl, e1, h, hset, fun r x hx => ⟨_, Points.mk' (g2 r).inv ((g2 r).shape (hset r a g1)).1 hx⟩⟩

/-- calls on single containers -/
def OnOne : Op K V → Prop
  | .on _ _ => True
  | _ => False

theorem run_eq {u : Bool} {tr : Traits} {veq : K × V → K × V → Bool} {ops : List (Op K V)} {a a' : Nat → Obj K V}
    {outs : List (Res K V)} (h : SpecC.Run u tr veq a ops outs a') (ho : ∀ o ∈ ops, OnOne o) : ∀ r, (a' r).eq = (a r).eq := by
  induction h with
  | nil => exact fun r => rfl
  | @cons a a1 a2 op ops res outs h1 h2 ih =>
    intro r
    refine (ih (fun o hx => ho o (List.mem_cons_of_mem _ hx)) r).trans ?_
    have := ho op (List.mem_cons_self ..)
    cases op <;> simp only [OnOne] at this
    obtain ⟨o', g1, rfl⟩ := h1
    unfold upd
    split
    · rename_i h; rw [h]; exact Props.SerIterC.lstep_eq g1
    · rfl

/-- three elements, two in the same bucket; container 1 has two elements, one with a key container 0 has -/
def three : List (Op Nat (Nat × Nat)) :=
  [.on 0 (.insert (3, 30, 0)), .on 0 (.insert (16, 31, 1)), .on 0 (.insert (5, 50, 2)), .on 1 (.insert (5, 51, 3)), .on 1 (.insert (29, 60, 4))]

/-- what the hypotheses need to know of container `r`: elements, `size()`, `bucket_count()`, `max_load_factor()` -/
def facts (s : Nat → Table Nat (Nat × Nat)) (r : Nat) : List (Nat × Nat × Nat) × Nat × Nat × Option Nat :=
  ((s r).contents, (s r).size, (s r).bucketCount, (s r).mlf)

theorem three_easy (u : Bool) (op : Op Nat (Nat × Nat)) (h : Easy u op) : ∀ o ∈ three ++ [op], Easy u o := by
  intro o ho
  rcases List.mem_append.1 ho with h1 | h1
  · unfold three at h1
    simp only [List.mem_cons, List.not_mem_nil, or_false] at h1
    rcases h1 with rfl | rfl | rfl | rfl | rfl <;> trivial
  · rw [List.mem_singleton] at h1; rw [h1]; exact h

theorem three_on : ∀ o ∈ three, OnOne o := by
  intro o h1
  unfold three at h1
  simp only [List.mem_cons, List.not_mem_nil, or_false] at h1
  rcases h1 with rfl | rfl | rfl | rfl | rfl <;> trivial

theorem fit_of {s : Nat → Table Nat (Nat × Nat)} {r n : Nat} {l : List (Nat × Nat × Nat)} {m b : Nat} (h : facts s r = (l, m, b, some one))
    (h1 : m + n ≤ b) (h2 : b < 2 ^ 53) : Fit (s r) n := by
  simp only [facts, Prod.mk.injEq] at h
  obtain ⟨_, e2, e3, e4⟩ := h
  refine ⟨by omega, ?_⟩
  rw [e4, e3, e2]
  show (m + n) * F32.SC ≤ F32.SC * b
  rw [Nat.mul_comm F32.SC]
  exact Nat.mul_le_mul_right _ h1

open Props.SerIterC (numbers ident) in
set_option synthInstance.maxSize 100000 in
set_option synthInstance.maxHeartbeats 200000 in
set_option maxRecDepth 100000 in
theorem three_run (u : Bool) : ((Fca.run (numbers u) three (Fca.start ident (fun a b => a == b))).map (fun p => (facts p.1 0, facts p.1 1))) =
    some (([(16, 31, 1), (3, 30, 0), (5, 50, 2)], 3, 13, some one), ([(29, 60, 4), (5, 51, 3)], 2, 13, some one)) := by
  cases u <;> decide +kernel

open Props.SerIterC (numbers ident) in
/-- `C58_room_keeps_iterators`, `C58_room_keeps_buckets`, `C58_iterators`, `C58_references`: an insertion next to the element pointed
to (bucket 3 of 13), an erasure in its bucket, a merge into its container -/
example (u : Bool) (op : Op Nat (Nat × Nat))
    (hop : op = .on 0 (.insert (29, 7, 9)) ∨ op = .on 0 (.erase 3) ∨ op = .merge 0 1) :
    ∃ s outs s' res it, Fca.run (numbers u) three (Fca.start ident (fun a b => a == b)) = some (s, outs) ∧
      step (numbers u) s op = some (s', res) ∧ Settled (numbers u) (fun a b => a == b) three outs 0 ∧ Room s op ∧ home op 0 = [0] ∧
      Points (s 0) it (16, 31, 1) ∧ ¬ Destroyed (fun i => (s i).fns.eq) op res 0 (16, 31, 1) ∧
      Whole (numbers u).tr (fun i => (s i).al) op ∧
      assigned (fun i => (s i).fns.eq) op 0 (16, 31, 1) = (16, 31, 1) ∧ Points (s' 0) it (16, 31, 1) := by
  have hez : Easy u op := by rcases hop with rfl | rfl | rfl <;> first | trivial | exact (by decide : (0 : Nat) ≠ 1)
  obtain ⟨h1, h2, s, outs, s', res, h3, h4, h5, h6, h7⟩ := met u three op (three_easy u op hez) (f := fun s => (facts s 0, facts s 1)) (three_run u)
  simp only [Prod.mk.injEq] at h5
  obtain ⟨h8, h9⟩ := h5
  have hmem : (16, 31, 1) ∈ (s 0).contents := by
    have : (s 0).contents = [(16, 31, 1), (3, 30, 0), (5, 50, 2)] := congrArg Prod.fst h8
    rw [this]; simp
  have hsz : (s 1).size = 2 := congrArg (fun p => p.2.1) h9
  obtain ⟨it, h10⟩ := h7 0 _ hmem
  have hroom : Room s op := by
    rcases hop with rfl | rfl | rfl
    · exact fit_of h8 (by decide) (by decide)
    · trivial
    · show Fit (s 0) (s 1).size
      rw [hsz]; exact fit_of h8 (by decide) (by decide)
  have hfe : (s 0).fns.eq = (fun a b => a == b) := by
    obtain ⟨a, g1, g2, g3⟩ := reach_run (numbers u) three op _ s _ outs (start_rs u Props.SerIterC.numbers_lawful) h1 h3
    exact (g2 0).eq.trans (run_eq g1 three_on 0)
  have hnd : ¬ Destroyed (fun i => (s i).fns.eq) op res 0 (16, 31, 1) := by
    rcases hop with rfl | rfl | rfl
    · exact id
    · rintro ⟨_, h⟩
      dsimp only at h
      rw [hfe] at h; revert h; decide
    · exact id
  have has : assigned (fun i => (s i).fns.eq) op 0 (16, 31, 1) = (16, 31, 1) := by rcases hop with rfl | rfl | rfl <;> rfl
  have hhome : home op 0 = [0] := by rcases hop with rfl | rfl | rfl <;> rfl
  have hw : Whole (numbers u).tr (fun i => (s i).al) op := by rcases hop with rfl | rfl | rfl <;> trivial
  refine ⟨s, outs, s', res, it, h3, h4, h6 0, hroom, hhome, h10, hnd, hw, has, ?_⟩
  have := (C58_room_keeps_iterators (numbers u) ident _ Props.SerIterC.numbers_lawful three op h1 h2 s s' outs res h3 h4 hroom 0 hhome
    (h6 0) it _ h10 hnd (by rw [has])).1
  rwa [has] at this

end Props.Addr

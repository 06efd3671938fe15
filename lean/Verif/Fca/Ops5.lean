/-
Specification lemmas: groups of equivalent elements, ranges.
-/
import Verif.Fca.Ops4

namespace Fca
open SpecC (Contig)
variable {K V : Type}

/-! ### count -/

theorem countRun_all (p : K × V → Bool) : ∀ (ys zs : List (K × V)), (∀ y ∈ ys, p y = true) → (∀ z ∈ zs, p z = false) →
    Table.countRun p true (ys ++ zs) = ys.length := by
  intro ys
  induction ys with
  | nil =>
    intro zs _ h
    cases zs with
    | nil => rfl
    | cons z zs => unfold Table.countRun; simp [h z (by simp)]
  | cons y ys ih =>
    intro zs h1 h2
    rw [List.cons_append]
    unfold Table.countRun
    rw [if_pos (h1 y (by simp)), ih zs (fun a ha => h1 a (by simp [ha])) h2]; rfl

theorem countRun_split (p : K × V → Bool) : ∀ (xs ys zs : List (K × V)), (∀ x ∈ xs, p x = false) →
    (∀ y ∈ ys, p y = true) → (∀ z ∈ zs, p z = false) → Table.countRun p false (xs ++ (ys ++ zs)) = ys.length := by
  intro xs
  induction xs with
  | nil =>
    intro ys zs _ h2 h3
    cases ys with
    | nil =>
      simp only [List.nil_append, List.length_nil]
      clear h2
      induction zs with
      | nil => rfl
      | cons z zs ih =>
        unfold Table.countRun
        rw [if_neg (by simp [h3 z (by simp)]), if_neg (by simp)]
        exact ih (fun a ha => h3 a (by simp [ha]))
    | cons y ys =>
      simp only [List.nil_append, List.cons_append]
      unfold Table.countRun
      rw [if_pos (h2 y (by simp)), countRun_all p ys zs (fun a ha => h2 a (by simp [ha])) h3]; rfl
  | cons x xs ih =>
    intro ys zs h1 h2 h3
    rw [List.cons_append]
    unfold Table.countRun
    rw [if_neg (by simp [h1 x (by simp)]), if_neg (by simp)]
    exact ih ys zs (fun a ha => h1 a (by simp [ha])) h2 h3

theorem groupCount_spec {t : Table K V} (hs : SInv t) (hl : FLawful t.fns) (hsh : Shape false t.fns t.b) (k : K) :
    t.groupCount k = some (t.contents.countP (fun e => t.fns.eq k e.1)) := by
  unfold Table.groupCount
  by_cases h0 : t.size = 0
  · rw [if_pos h0, hs.contents_nil h0]; rfl
  · rw [if_neg h0]
    have hb := hs.pos h0
    obtain ⟨L, hg⟩ := hs.wf.ginv hb
    have hlt : t.pos k < t.b.size := Gba.position_lt hg _
    rw [bucketFor_eq hb, Gba.get_of_le hg (Nat.le_of_lt hlt)]
    simp only [Option.map_some, Option.some.injEq]
    obtain ⟨xs, ys, zs, s1, s2, s3, s4⟩ := contig_split (eqLaw hl) k _ (hsh.2 (t.pos k)).contig
    have f1 := filter_contents hl hsh.1 hg k
    rw [s1, split_filter s2 s3 s4] at f1
    rw [List.countP_eq_length_filter, f1]
    rw [s1]
    exact countRun_split _ _ _ _ s2 s3 s4

/-! ### find as a cursor -/

theorem find_at {u : Bool} {t : Table K V} (hs : SInv t) (hl : FLawful t.fns) (hsh : Shape u t.fns t.b) (k : K)
    {q : BIt × Nat} (hf : t.find k = some (some q)) : ∃ L pre y ys post, t.b.Ginv L ∧
      t.b.At L (some q) pre (y :: ys ++ post) ∧ (∀ e ∈ y :: ys, t.fns.eq k e.1 = true) ∧
      (∀ e ∈ pre ++ post, t.fns.eq k e.1 = false) := by
  rcases find_spec hs hl hsh.1 k with ⟨h1, _⟩ | ⟨i, x, h1, h2, h3, h4, h5⟩
  · rw [h1] at hf; simp at hf
  · rw [h1] at hf
    have hq := Option.some.inj (Option.some.inj hf)
    subst hq
    obtain ⟨L, hg⟩ := hs.ginv_of_mem (h4.mem hs)
    obtain ⟨pre, post, hc⟩ := h4.at_ hg
    have hel := hc.elems
    have har := (hsh.elems hl hg).contig
    rw [hel] at har
    have har2 : Contig t.fns.eq (x :: post) := by
      rw [trip_iff (eqLaw hl)] at har ⊢
      exact har.sublist (List.sublist_append_right _ _)
    obtain ⟨ys, zs, e, s1, s2⟩ := contig_head (eqLaw hl) post x har2 h5
    refine ⟨L, pre, x, ys, zs, hg, by rw [List.cons_append, ← e]; exact hc, ?_, ?_⟩
    · intro a ha
      rw [List.mem_cons] at ha
      rcases ha with rfl | ha
      · exact h5
      · exact s1 a ha
    · intro a ha
      rw [List.mem_append] at ha
      rcases ha with ha | ha
      · -- elements before the first equivalent one
        have hb : t.b.size ≠ 0 := Nat.pos_iff_ne_zero.mp hg.pos
        rw [bucketFor_eq hb] at hc
        obtain ⟨_, hi, xs', ys', ho, hp, _⟩ := hc
        dsimp only at *
        rw [hp, List.mem_append] at ha
        rcases ha with ha | ha
        · obtain ⟨b, hbm, hab⟩ := List.mem_flatMap.mp ha
          cases hh : t.fns.eq k a.1 with
          | false => rfl
          | true =>
            exfalso
            have hnd := Gba.order_nodup hg
            rw [ho, List.nodup_append] at hnd
            have h6 := hsh.1 b a hab
            have h7 := hl.compat _ _ hh
            have : t.pos k = b := by unfold Table.pos; rw [h7]; exact h6
            exact hnd.2.2 b hbm b (by rw [← this]; simp) rfl
        · obtain ⟨j, hj, he⟩ := List.mem_take_iff_getElem.mp ha
          obtain ⟨_, _, h8⟩ := findIdx_some h3
          rw [← he]
          exact h8 j (by omega)
      · exact s2 a ha

theorem find_none {u : Bool} {t : Table K V} (hs : SInv t) (hl : FLawful t.fns) (hsh : Shape u t.fns t.b) (k : K)
    (hf : t.find k = some none) : ∀ e ∈ t.contents, t.fns.eq k e.1 = false := by
  rcases find_spec hs hl hsh.1 k with ⟨_, h⟩ | ⟨i, x, h1, _⟩
  · exact h
  · rw [h1] at hf; simp at hf

theorem nextGroup_at {t : Table K V} {L : List Nat} (hg : t.b.Ginv L) {k : K} : ∀ (ys : List (K × V)) (f : Nat) (it : It)
    (pre post : List (K × V)), t.b.At L it pre (ys ++ post) → (∀ y ∈ ys, t.fns.eq k y.1 = true) →
    (∀ z ∈ post, t.fns.eq k z.1 = false) → ys.length ≤ f →
    ∃ it', t.nextGroup k f it = some (ys, it') ∧ t.b.At L it' (pre ++ ys) post := by
  intro ys
  induction ys with
  | nil =>
    intro f it pre post hc _ h2 _
    rw [List.nil_append] at hc
    refine ⟨it, ?_, by simpa using hc⟩
    cases it with
    | none => cases f <;> rfl
    | some q =>
      have : post ≠ [] := fun e => by have := hc.none_iff.mpr e; simp at this
      cases post with
      | nil => exact absurd rfl this
      | cons z post =>
        unfold Table.nextGroup
        rw [hc.deref hg]; dsimp only
        rw [if_neg (by simp [h2 z (by simp)])]
  | cons y ys ih =>
    intro f it pre post hc h1 h2 hf
    rw [List.cons_append] at hc
    obtain ⟨q, rfl⟩ := hc.some_of_cons
    cases f with
    | zero => simp at hf
    | succ f =>
      obtain ⟨it1, e1, e2⟩ := hc.inc hg
      obtain ⟨it', i1, i2⟩ := ih f it1 _ post e2 (fun a ha => h1 a (by simp [ha])) h2 (by simpa using hf)
      refine ⟨it', ?_, by simpa using i2⟩
      unfold Table.nextGroup
      rw [hc.deref hg]; dsimp only
      rw [if_pos (h1 y (by simp)), e1]
      show (t.nextGroup k f it1).map _ = _
      rw [i1]; rfl

theorem at_filter {t : Table K V} {L : List Nat} (hg : t.b.Ginv L) {it : It} {p : K × V → Bool} {pre ys post : List (K × V)}
    (hc : t.b.At L it pre (ys ++ post)) (h1 : ∀ y ∈ ys, p y = true) (h2 : ∀ z ∈ pre ++ post, p z = false) :
    ys.Perm (t.contents.filter p) := by
  have := hc.elems
  have h3 := (Gba.elems_perm hg).filter p
  rw [this, split_filter (fun x hx => h2 x (by simp [hx])) h1 (fun x hx => h2 x (by simp [hx]))] at h3
  exact h3

theorem equalRangeEquiv_spec {t : Table K V} (hs : SInv t) (hl : FLawful t.fns) (hsh : Shape false t.fns t.b) (k : K) :
    ∃ l, t.equalRangeEquiv k = some l ∧ l.Perm (t.contents.filter (fun e => t.fns.eq k e.1)) := by
  unfold Table.equalRangeEquiv
  rcases find_spec hs hl hsh.1 k with ⟨h1, h2⟩ | ⟨i, x, h1, h2, h3, h4, h5⟩
  · rw [h1]; dsimp only
    refine ⟨[], by cases t.size <;> rfl, ?_⟩
    rw [List.filter_eq_nil_iff.mpr (fun a ha => by simp [h2 a ha])]
  · obtain ⟨L, pre, y, ys, post, e1, e2, e3, e4⟩ := find_at hs hl hsh k h1
    rw [h1]; dsimp only
    have hlen := At.length hs e1 e2
    obtain ⟨it', i1, i2⟩ := nextGroup_at e1 (y :: ys) t.size _ pre post e2 e3 (fun z hz => e4 z (by simp [hz]))
      (by rw [List.length_append] at hlen; omega)
    rw [i1]
    exact ⟨_, rfl, at_filter e1 e2 e3 e4⟩

theorem equalRangeUnique_spec {t : Table K V} (hs : SInv t) (hl : FLawful t.fns) (hsh : Shape true t.fns t.b) (k : K) :
    ∃ l, t.equalRangeUnique k = some l ∧ l.Perm (t.contents.filter (fun e => t.fns.eq k e.1)) := by
  unfold Table.equalRangeUnique
  rcases find_spec hs hl hsh.1 k with ⟨h1, h2⟩ | ⟨i, x, h1, h2, h3, h4, h5⟩
  · rw [h1]; dsimp only
    refine ⟨[], rfl, ?_⟩
    rw [List.filter_eq_nil_iff.mpr (fun a ha => by simp [h2 a ha])]
  · obtain ⟨L, pre, y, ys, post, e1, e2, e3, e4⟩ := find_at hs hl hsh k h1
    rw [h1]; dsimp only
    rw [List.cons_append] at e2
    obtain ⟨it', i1, _⟩ := e2.inc e1
    rw [e2.deref e1, i1]; dsimp only
    have hys : ys = [] := by
      cases ys with
      | nil => rfl
      | cons z ys =>
        exfalso
        have har := hsh.elems hl e1
        rw [e2.elems] at har
        unfold Arranged at har
        simp only [if_true] at har
        have h6 := (List.pairwise_append.mp har).2.1
        rw [List.cons_append, List.pairwise_cons] at h6
        have h7 := h6.1 z (by simp)
        rw [hl.trans _ _ _ (hl.symm _ _ (e3 y (by simp))) (e3 z (by simp))] at h7
        cases h7
    subst hys
    exact ⟨[y], rfl, at_filter e1 e2 e3 e4⟩

/-! ### erase(key) of a multi container -/

theorem eraseRun_spec (p : K × V → Bool) (xs : List (K × V)) : ∀ (ys zs : List (K × V)) (f : Nat), (∀ y ∈ ys, p y = true) →
    (∀ z ∈ zs, p z = false) → ys.length ≤ f →
    Table.eraseRun p xs.length f (xs ++ (ys ++ zs)) = (xs ++ zs, ys.length) := by
  intro ys
  induction ys with
  | nil =>
    intro zs f _ h2 _
    cases f with
    | zero => rfl
    | succ f =>
      unfold Table.eraseRun
      rw [List.nil_append, List.getElem?_append_right (Nat.le_refl _), Nat.sub_self]
      cases zs with
      | nil => rfl
      | cons z zs => simp [h2 z (by simp)]
  | cons y ys ih =>
    intro zs f h1 h2 hf
    cases f with
    | zero => simp at hf
    | succ f =>
      unfold Table.eraseRun
      rw [List.getElem?_append_right (Nat.le_refl _), Nat.sub_self]
      simp only [List.cons_append, List.getElem?_cons_zero]
      rw [if_pos (h1 y (by simp)), List.eraseIdx_append_of_length_le (Nat.le_refl _), Nat.sub_self]
      simp only [List.eraseIdx_cons_zero]
      rw [ih zs f (fun a ha => h1 a (by simp [ha])) h2 (by simpa using hf)]
      rfl

theorem eraseKeyEquiv_spec {t : Table K V} (hs : SInv t) (hl : FLawful t.fns) (hsh : Shape false t.fns t.b) (k : K) :
    ∃ t' gone, t.eraseKeyEquiv k = some (t', gone.length) ∧ Removed t gone t' ∧
      (∀ e ∈ gone, t.fns.eq k e.1 = true) ∧ (∀ e ∈ t'.contents, t.fns.eq k e.1 = false) := by
  unfold Table.eraseKeyEquiv
  dsimp only
  by_cases h0 : 0 < t.size
  · rw [if_pos h0]
    have hb := hs.pos (Nat.pos_iff_ne_zero.mp h0)
    obtain ⟨L, hg⟩ := hs.wf.ginv hb
    have hlt : t.pos k < t.b.size := Gba.position_lt hg _
    rw [bucketFor_eq hb, Gba.get_of_le hg (Nat.le_of_lt hlt)]
    dsimp only
    obtain ⟨xs, ys, zs, s1, s2, s3, s4⟩ := contig_split (eqLaw hl) k _ (hsh.2 (t.pos k)).contig
    by_cases hne : ys = []
    · have hno : ∀ e ∈ t.b.chain (t.pos k), t.fns.eq k e.1 = false := by
        intro e he
        rw [s1, hne, List.nil_append, List.mem_append] at he
        rcases he with he | he
        · exact s2 e he
        · exact s4 e he
      have hf : (t.b.chain (t.pos k)).findIdx? (fun e => t.fns.eq k e.1) = none :=
        List.findIdx?_eq_none_iff.mpr (fun x hx => by simp [hno x hx])
      rw [hf]
      exact ⟨t, [], rfl, Removed.nil hs, by simp, (absent_iff hs hl hsh.1 k).mpr hno⟩
    · have hf : (t.b.chain (t.pos k)).findIdx? (fun e => t.fns.eq k e.1) = some xs.length := by
        rw [s1]; exact split_findIdx s2 s3 hne
      rw [hf]; dsimp only
      rw [hs.deleteNode (by omega)]; dsimp only
      have hrun : Table.eraseRun (fun e => t.fns.eq e.1 k) xs.length (t.b.chain (t.pos k)).length (t.b.chain (t.pos k)) =
          (xs ++ zs, ys.length) := by
        have := eraseRun_spec (fun e => t.fns.eq e.1 k) xs ys zs (t.b.chain (t.pos k)).length
          (fun y hy => hl.symm _ _ (s3 y hy)) (fun z hz => eq_false_symm hl (s4 z hz)) (by rw [s1]; simp; omega)
        rw [← s1] at this; exact this
      rw [hrun]; dsimp only
      have hcne : t.b.chain (t.pos k) ≠ [] := by rw [s1]; simp [hne]
      -- the array afterwards
      have key : ∃ b' L', (if (xs ++ zs).isEmpty = true then
            ({ t.b with chain := up t.b.chain (t.pos k) (xs ++ zs) } : Gba (K × V)).unlinkBucket ⟨t.pos k, some (t.pos k / 64)⟩
          else some { t.b with chain := up t.b.chain (t.pos k) (xs ++ zs) }) = some b' ∧ b'.Ginv L' ∧ b'.size = t.b.size ∧
          b'.si = t.b.si ∧ b'.mal = t.b.mal ∧ b'.chain = up t.b.chain (t.pos k) (xs ++ zs) := by
        split
        · rename_i he
          have he' : xs ++ zs = [] := List.isEmpty_iff.mp he
          rw [he']
          obtain ⟨a', L', e1, e2, e3, e4, e5, e6, _⟩ := Gba.unlinkBucket_spec hg hcne
          exact ⟨a', L', e1, e2, e3, e4, e5, e6⟩
        · rename_i he
          refine ⟨_, L, rfl, hg.congr_chain ?_, rfl, rfl, rfl, rfl⟩
          intro b
          rw [up_apply]; split
          · rename_i hbb; rw [hbb]
            constructor
            · intro h; rw [h] at he; simp at he
            · intro h; exact absurd h hcne
          · exact Iff.rfl
      obtain ⟨b', L', k1, k2, k3, k4, k5, k6⟩ := key
      have hperm : t.contents.Perm (ys ++ b'.contents) := by
        have hc := Gba.contents_up k3 k6 hlt
        rw [s1] at hc
        -- b'.contents ++ (xs ++ (ys ++ zs)) ~ (xs ++ zs) ++ t.contents
        have h1 : (b'.contents ++ (xs ++ (ys ++ zs))).Perm ((xs ++ zs) ++ (ys ++ b'.contents)) := by
          have : (xs ++ (ys ++ zs)).Perm ((xs ++ zs) ++ ys) := by
            rw [List.append_assoc]; exact List.Perm.append_left _ List.perm_append_comm
          refine List.perm_append_comm.trans ((this.append_right _).trans ?_)
          rw [List.append_assoc]
        exact ((List.perm_append_left_iff _).mp (hc.symm.trans h1))
      have hsize : ¬ t.size < ys.length := by
        have := hperm.length_eq
        rw [hs.len, this, List.length_append]; omega
      rw [if_neg hsize, k1]; dsimp only
      have hrem : Removed t ys { t with b := b', size := t.size - ys.length } := by
        refine ⟨⟨Or.inr ⟨L', k2⟩, fun h => k5.trans (hs.mal (k3 ▸ h)), ?_, fun h => hs.ml (k3 ▸ h)⟩, rfl, rfl, rfl, ?_, k3, rfl, hperm, ?_⟩
        · show t.size - ys.length = b'.contents.length
          have := hperm.length_eq
          rw [hs.len, this, List.length_append]; omega
        · dsimp only; omega
        · intro u f hl' hsh'
          refine shape_sublist hl' hsh' k4 ?_
          intro b
          show (b'.chain b).Sublist _
          rw [k6]
          refine up_sublist ?_ b
          rw [s1]
          exact List.Sublist.append_left (List.sublist_append_right _ _) _
      refine ⟨_, ys, rfl, hrem, s3, ?_⟩
      apply (absent_iff hrem.inv hl (hrem.shape _ _ hl hsh).1 k).mpr
      intro e he
      have hpos : Table.pos { t with b := b', size := t.size - ys.length } k = t.pos k := by
        unfold Table.pos Gba.position; dsimp only; rw [k4]
      rw [hpos] at he
      dsimp only at he
      rw [k6, up_same, List.mem_append] at he
      rcases he with he | he
      · exact s2 e he
      · exact s4 e he
  · rw [if_neg h0]
    refine ⟨t, [], rfl, Removed.nil hs, by simp, ?_⟩
    rw [hs.contents_nil (by omega)]; simp

/-! ### merge of multi containers -/

theorem mergeEquivLoop_spec : ∀ (n f : Nat) (t o : Table K V), SInv t → FLawful t.fns → Shape false t.fns t.b → SInv o →
    o.size = n → n ≤ f →
    ∃ t' o' took, Table.mergeEquivLoop f t o = some (t', o') ∧ o.contents.Perm took ∧ AddedAll t took t' ∧
      Shape false t.fns t'.b ∧ Removed o took o' ∧ o'.contents = [] := by
  intro n
  induction n with
  | zero =>
    intro f t o hs hl hsh hso h0 _
    have hc := hso.contents_nil h0
    refine ⟨t, o, [], ?_, by rw [hc], AddedAll.nil hs, hsh, Removed.nil hso, hc⟩
    cases f <;> (unfold Table.mergeEquivLoop; rw [if_pos h0])
  | succ n ih =>
    intro f t o hs hl hsh hso hn hf
    cases f with
    | zero => omega
    | succ f =>
      unfold Table.mergeEquivLoop
      rw [if_neg (by omega)]
      rcases begin_spec hso with ⟨h1, h2⟩ | ⟨L, it, h1, h2, h3, h4, h5⟩
      · have := hso.len; rw [h2] at this; simp at this; omega
      · rw [h2]
        cases hel : o.b.elems L with
        | nil => rw [hel] at h5; simp at h5; omega
        | cons x post =>
          rw [hel] at h3
          obtain ⟨q, rfl⟩ := h3.some_of_cons
          dsimp only
          obtain ⟨o1, L1, e1, e2, e3, e4⟩ := extractAt_at hso h1 h3
          rw [e1]; dsimp only
          obtain ⟨t1, q1, i1, i2, i3, i4⟩ := insertNodeEquiv_spec hs hl hsh x
          rw [i1]; dsimp only
          have hn1 := e2.size
          simp at hn1
          obtain ⟨t', o', took, j1, j2, j3, j4, j5, j6⟩ := ih f t1 o1 i2.inv (by rw [i2.fns]; exact hl)
            (by rw [i2.fns]; exact i3) e2.inv (by omega) (by omega)
          rw [i2.fns] at j4
          refine ⟨t', o', x :: took, j1, ?_, i2.cons j3, j4, e2.trans j5, j6⟩
          exact e2.perm.trans (j2.cons x)

theorem mergeEquiv_spec {t o : Table K V} (hs : SInv t) (hl : FLawful t.fns) (hsh : Shape false t.fns t.b)
    (hso : SInv o) (hal : t.al = o.al) :
    ∃ t' o' took, t.mergeEquiv o = some (t', o') ∧ o.contents.Perm took ∧ AddedAll t took t' ∧
      Shape false t.fns t'.b ∧ Removed o took o' ∧ o'.contents = [] := by
  unfold Table.mergeEquiv
  rw [if_neg (by simp [hal])]
  exact mergeEquivLoop_spec _ _ t o hs hl hsh hso rfl (Nat.le_refl _)

/-! ### erase(first,last) -/

theorem eraseRangeLoop_at : ∀ (mid post pre : List (K × V)) (t : Table K V) (L : List Nat) (itb : BIt) (i : Nat), SInv t →
    t.b.Ginv L → (mid ≠ [] → t.b.At L (some (itb, i)) pre (mid ++ post)) → (mid = [] → t.b.elems L = pre ++ post) →
    ∃ t' L', Table.eraseRangeLoop mid.length t itb i = some t' ∧ Removed t mid t' ∧ t'.b.Ginv L' ∧
      t'.b.elems L' = pre ++ post := by
  intro mid
  induction mid with
  | nil => intro post pre t L itb i hs hg _ h; exact ⟨t, L, rfl, Removed.nil hs, hg, h rfl⟩
  | cons x mid ih =>
    intro post pre t L itb i hs hg hc _
    have hc := hc (by simp)
    rw [List.cons_append] at hc
    have h0 := At.size_pos hs hg hc
    have hn := Node.of_at hc
    have hlt := hn.lt
    dsimp only at hlt
    have hle : itb.p ≤ t.b.size := Nat.le_of_lt (hg.nonempty_lt (by intro e; rw [e] at hlt; simp at hlt))
    have hget := Gba.get_of_le hg hle
    obtain ⟨b', L1, it1, e1, e2, e3, e4, e5, e6, e7⟩ := Gba.extractIt_at hg hc
    have hrem := removed_of_extract hs hg hc e2 e3 e4 e5 e6
    -- unfold `extractIt` to see the successor
    have hex := e1
    unfold Gba.extractIt at hex
    rw [hc.deref hg] at hex
    obtain ⟨nx, n1, n2⟩ := hc.inc hg
    rw [n1] at hex
    dsimp only at hex
    have hxn : t.b.extractNode itb i = some b' := by
      cases hh : t.b.extractNode itb i with
      | none => rw [hh] at hex; simp at hex
      | some bb => rw [hh] at hex; simp at hex; rw [hex.1]
    rw [hxn] at hex
    simp only [Option.some.injEq, Prod.mk.injEq, true_and] at hex
    rw [List.length_cons]
    unfold Table.eraseRangeLoop
    rw [hget]; dsimp only
    rw [if_neg (by rintro (h | h) <;> omega), hs.deleteNode h0]; dsimp only
    have hlen : ((t.b.chain itb.p).eraseIdx i).length = (t.b.chain itb.p).length - 1 := List.length_eraseIdx_of_lt hlt
    unfold Gba.extractNode at hxn
    rw [hget] at hxn; dsimp only at hxn
    rw [if_pos hlt] at hxn
    unfold Gba.incIt at n1
    rw [hget] at n1
    dsimp only at n1
    split
    · rename_i hend
      rw [if_neg (by omega)] at n1
      have hinc : ∀ c, ({ t.b with chain := c } : Gba (K × V)).inc itb = t.b.inc itb := fun _ => rfl
      rw [hinc]
      cases hi : t.b.inc itb with
      | none => rw [hi] at n1; simp at n1
      | some nb =>
        rw [hi] at n1
        dsimp only at n1 ⊢
        rw [hxn]; dsimp only
        obtain ⟨t', L', j1, j2, j3, j4⟩ := ih post pre { t with b := b', size := t.size - 1 } L1 nb 0 hrem.inv e2 (by
            intro hne
            have : ∃ q, it1 = some q := by
              cases mid with
              | nil => exact absurd rfl hne
              | cons m mid => exact e7.some_of_cons
            obtain ⟨q, hq⟩ := this
            cases hgn : t.b.get nb with
            | none => rw [hgn] at n1; simp at n1
            | some l =>
              rw [hgn] at n1
              cases l with
              | nil => simp at n1; subst n1; rw [← hex] at hq; simp at hq
              | cons z l =>
                simp at n1; subst n1
                dsimp only at hex
                have : it1 = some (nb, 0) := by
                  rw [← hex]; split <;> rfl
                rw [this] at e7; exact e7) (by
            intro he
            have := e7.elems
            rw [he, List.nil_append] at this
            exact this)
        exact ⟨t', L', j1, hrem.trans j2, j3, j4⟩
    · rename_i hend
      rw [if_pos (by omega)] at n1
      have hne : ((t.b.chain itb.p).eraseIdx i).isEmpty = false := by
        cases hh : (t.b.chain itb.p).eraseIdx i with
        | nil => rw [hh] at hend; simp at hend
        | cons _ _ => rfl
      rw [hne] at hxn
      simp only [Bool.false_eq_true, if_false, Option.some.injEq] at hxn
      rw [hxn]
      have hnx := Option.some.inj n1
      subst hnx
      dsimp only at hex
      rw [if_pos rfl] at hex
      have hit : it1 = some (itb, i) := by rw [← hex]; rfl
      rw [hit] at e7
      obtain ⟨t', L', j1, j2, j3, j4⟩ := ih post pre { t with b := b', size := t.size - 1 } L1 itb i hrem.inv e2
          (fun _ => e7) (by
            intro he
            have := e7.elems
            rw [he, List.nil_append] at this
            exact this)
      exact ⟨t', L', j1, hrem.trans j2, j3, j4⟩

theorem eraseRange_at {t : Table K V} {L : List Nat} (hs : SInv t) (hg : t.b.Ginv L) {first : It} {pre mid post : List (K × V)}
    (hc : t.b.At L first pre (mid ++ post)) :
    ∃ t' L', t.eraseRange first mid.length = some t' ∧ Removed t mid t' ∧ t'.b.Ginv L' ∧ t'.b.elems L' = pre ++ post := by
  unfold Table.eraseRange
  cases first with
  | none =>
    have := hc.none_iff.mp rfl
    rw [List.append_eq_nil_iff] at this
    obtain ⟨rfl, rfl⟩ := this
    exact ⟨t, L, rfl, Removed.nil hs, hg, by rw [hc.elems]; simp⟩
  | some q =>
    obtain ⟨itb, i⟩ := q
    exact eraseRangeLoop_at mid post pre t L itb i hs hg (fun _ => hc) (by
      intro he; rw [hc.elems, he]; rfl)

end Fca

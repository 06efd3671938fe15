/-
Specification lemmas: `operator==`.
-/
import Verif.Fca.Ops5

namespace Fca
open SpecC (Contig EqLawful)
variable {K V : Type}

/-- `A` and `B` hold pairwise `veq` elements, up to order -/
def Match (veq : K × V → K × V → Bool) (A B : List (K × V)) : Prop :=
  ∃ l, l.Perm B ∧ List.Forall₂ (fun x y => veq x y = true) A l

section
variable {veq : K × V → K × V → Bool} {eq : K → K → Bool} (hv : EqLawful eq veq)
include hv

theorem veq_congr {x y : K × V} (h : veq x y = true) (v : K × V) : veq v x = veq v y := by
  cases h1 : veq v x with
  | true => exact (hv.trans _ _ _ h1 h).symm
  | false =>
    cases h2 : veq v y with
    | false => rfl
    | true => rw [hv.trans _ _ _ h2 (hv.symm _ _ h)] at h1; cases h1

theorem veq_comm (x y : K × V) : veq x y = veq y x := by
  cases h1 : veq x y with
  | true => exact (hv.symm _ _ h1).symm
  | false =>
    cases h2 : veq y x with
    | false => rfl
    | true => rw [hv.symm _ _ h2] at h1; cases h1

theorem forall2_count (v : K × V) : ∀ {A l : List (K × V)}, List.Forall₂ (fun x y => veq x y = true) A l →
    A.countP (veq v) = l.countP (veq v) := by
  intro A l h
  induction h with
  | nil => rfl
  | cons h _ ih => rw [List.countP_cons, List.countP_cons, ih, veq_congr hv h v]

theorem Match.counts {A B : List (K × V)} (h : Match veq A B) : A.length = B.length ∧ ∀ v, A.countP (veq v) = B.countP (veq v) := by
  obtain ⟨l, hp, hf⟩ := h
  refine ⟨hf.length_eq.trans hp.length_eq, fun v => ?_⟩
  rw [forall2_count hv v hf, hp.countP_eq]

theorem match_of_counts : ∀ (A B : List (K × V)), A.length = B.length →
    (∀ v ∈ A, A.countP (veq v) ≤ B.countP (veq v)) → Match veq A B := by
  intro A
  induction A with
  | nil =>
    intro B h _
    have : B = [] := List.eq_nil_of_length_eq_zero h.symm
    subst this
    exact ⟨[], List.Perm.refl _, List.Forall₂.nil⟩
  | cons a A ih =>
    intro B hlen hc
    have h1 := hc a (by simp)
    rw [List.countP_cons, if_pos (hv.refl a)] at h1
    have h2 : 0 < B.countP (veq a) := by omega
    obtain ⟨b, hb, hab⟩ := List.countP_pos_iff.mp h2
    obtain ⟨xs, ys, rfl⟩ := List.append_of_mem hb
    have hperm : (xs ++ b :: ys).Perm (b :: (xs ++ ys)) := List.perm_middle
    obtain ⟨l, hl1, hl2⟩ := ih (xs ++ ys) (by simp at hlen ⊢; omega) (by
      intro v hvA
      have h3 := hc v (by simp [hvA])
      rw [hperm.countP_eq, List.countP_cons, List.countP_cons, veq_congr hv hab v] at h3
      omega)
    exact ⟨b :: l, (hl1.cons b).trans hperm.symm, List.Forall₂.cons hab hl2⟩

theorem match_iff {A B : List (K × V)} : Match veq A B ↔ A.length = B.length ∧ ∀ v, A.countP (veq v) = B.countP (veq v) :=
  ⟨fun h => h.counts hv, fun h => match_of_counts hv A B h.1 (fun v _ => Nat.le_of_eq (h.2 v))⟩

theorem match_cons {x y : K × V} (hxy : veq x y = true) {A B : List (K × V)} :
    Match veq (x :: A) (y :: B) ↔ Match veq A B := by
  rw [match_iff hv, match_iff hv]
  simp only [List.length_cons, List.countP_cons, veq_congr hv hxy]
  constructor
  · rintro ⟨h1, h2⟩; exact ⟨by omega, fun v => by have := h2 v; omega⟩
  · rintro ⟨h1, h2⟩; exact ⟨by omega, fun v => by have := h2 v; omega⟩

omit hv in
theorem match_filter {A B : List (K × V)} (h : Match veq A B) {p : K × V → Bool} (hp : ∀ x y, veq x y = true → p x = p y) :
    Match veq (A.filter p) (B.filter p) := by
  obtain ⟨l, h1, h2⟩ := h
  refine ⟨l.filter p, h1.filter p, ?_⟩
  clear h1
  induction h2 with
  | nil => exact List.Forall₂.nil
  | cons hxy _ ih =>
    rw [List.filter_cons, List.filter_cons, hp _ _ hxy]
    split
    · exact List.Forall₂.cons hxy ih
    · exact ih

theorem match_perm {A A' B B' : List (K × V)} (ha : A.Perm A') (hb : B.Perm B') : Match veq A B ↔ Match veq A' B' := by
  rw [match_iff hv, match_iff hv, ha.length_eq, hb.length_eq]
  simp only [ha.countP_eq, hb.countP_eq]

/-! ### `group_equals_equiv` -/

theorem stripEqual_spec : ∀ (A B : List (K × V)), A ≠ [] → B ≠ [] →
    (∃ b, Table.stripEqual veq A B = some (.inl b) ∧ (b = true ↔ Match veq A B)) ∨
    (∃ m1 m2, Table.stripEqual veq A B = some (.inr (m1, m2)) ∧ m1 ≠ [] ∧ m2 ≠ [] ∧ (Match veq A B ↔ Match veq m1 m2)) := by
  intro A
  induction A with
  | nil => intro B h; exact absurd rfl h
  | cons x xs ih =>
    intro B _ hB
    cases B with
    | nil => exact absurd rfl hB
    | cons y ys =>
      cases hxy : veq x y with
      | false =>
        right
        refine ⟨x :: xs, y :: ys, ?_, by simp, by simp, Iff.rfl⟩
        unfold Table.stripEqual
        rw [if_pos hxy]
      | true =>
        rw [match_cons hv hxy]
        cases xs with
        | nil =>
          left
          refine ⟨ys.isEmpty, ?_, ?_⟩
          · unfold Table.stripEqual
            rw [if_neg (by simp [hxy])]
          · rw [List.isEmpty_iff]
            constructor
            · rintro rfl; exact ⟨[], List.Perm.refl _, List.Forall₂.nil⟩
            · intro h
              have := (h.counts hv).1
              exact List.eq_nil_of_length_eq_zero this.symm
        | cons x' xs =>
          cases ys with
          | nil =>
            left
            refine ⟨false, ?_, ?_⟩
            · unfold Table.stripEqual
              rw [if_neg (by simp [hxy])]
            · constructor
              · intro h; cases h
              · intro h
                have := (h.counts hv).1
                simp at this
          | cons y' ys =>
            have := ih (y' :: ys) (by simp) (by simp)
            have e : Table.stripEqual veq (x :: x' :: xs) (y :: y' :: ys) = Table.stripEqual veq (x' :: xs) (y' :: ys) := by
              conv => lhs; unfold Table.stripEqual
              rw [if_neg (by simp [hxy])]
            rw [e]; exact this

omit hv in
theorem sameLength_spec : ∀ (A B : List (K × V)), A ≠ [] → B ≠ [] →
    Table.sameLength A B = some (decide (A.length = B.length)) := by
  intro A
  induction A with
  | nil => intro B h; exact absurd rfl h
  | cons x xs ih =>
    intro B _ hB
    cases B with
    | nil => exact absurd rfl hB
    | cons y ys =>
      cases xs with
      | nil => cases ys <;> simp [Table.sameLength]
      | cons x' xs =>
        cases ys with
        | nil => simp [Table.sameLength]
        | cons y' ys =>
          have := ih (y' :: ys) (by simp) (by simp)
          unfold Table.sameLength
          dsimp only
          rw [this]; simp

theorem countP_flip (v : K × V) (l : List (K × V)) : l.countP (fun e => veq e v) = l.countP (veq v) := by
  congr 1; funext e; exact veq_comm hv e v

theorem countsAgree_imp (l2 : List (K × V)) : ∀ (cur seen : List (K × V)), Table.countsAgree veq l2 seen cur = true →
    ∀ v ∈ cur, (∃ e ∈ seen, veq e v = true) ∨ l2.countP (veq v) = (seen ++ cur).countP (veq v) := by
  intro cur
  induction cur with
  | nil => intro seen _ v hv'; simp at hv'
  | cons w cur ih =>
    intro seen h
    unfold Table.countsAgree at h
    -- the head
    have head : ((∃ e ∈ seen, veq e w = true) ∨ l2.countP (veq w) = (seen ++ w :: cur).countP (veq w)) ∧
        Table.countsAgree veq l2 (seen ++ [w]) cur = true := by
      split at h
      · rename_i ha
        refine ⟨Or.inl ?_, h⟩
        simpa using ha
      · rename_i ha
        dsimp only at h
        split at h
        · cases h
        · split at h
          · cases h
          · rename_i h1 h2
            refine ⟨Or.inr ?_, h⟩
            have h3 : l2.countP (fun e => veq e w) = 1 + cur.countP (fun e => veq e w) := by
              by_contra hh; exact h2 hh
            have h4 : seen.countP (veq w) = 0 := by
              rw [List.countP_eq_zero]
              intro e he hew
              apply ha
              rw [List.any_eq_true]
              exact ⟨e, he, hv.symm _ _ hew⟩
            rw [countP_flip hv, countP_flip hv] at h3
            rw [h3, List.countP_append, List.countP_cons, h4, if_pos (hv.refl w)]
            omega
    obtain ⟨hd, htl⟩ := head
    intro v hvm
    rw [List.mem_cons] at hvm
    rcases hvm with rfl | hvm
    · exact hd
    · rcases ih (seen ++ [w]) htl v hvm with ⟨e, he, hev⟩ | h5
      · rw [List.mem_append, List.mem_singleton] at he
        rcases he with he | rfl
        · exact Or.inl ⟨e, he, hev⟩
        · rcases hd with ⟨e', he', hew⟩ | hd
          · exact Or.inl ⟨e', he', hv.trans _ _ _ hew hev⟩
          · right
            have hcong : ∀ l : List (K × V), l.countP (veq v) = l.countP (veq e) := by
              intro l
              congr 1; funext z
              rw [veq_comm hv v z, veq_comm hv e z]
              exact (veq_congr hv hev z).symm
            rw [hcong, hcong]; exact hd
      · right; rw [h5, List.append_assoc]; rfl

theorem countsAgree_of (l2 : List (K × V)) : ∀ (cur seen : List (K × V)),
    (∀ v ∈ cur, l2.countP (veq v) = (seen ++ cur).countP (veq v)) → Table.countsAgree veq l2 seen cur = true := by
  intro cur
  induction cur with
  | nil => intro seen _; rfl
  | cons w cur ih =>
    intro seen h
    have htl : Table.countsAgree veq l2 (seen ++ [w]) cur = true := by
      apply ih
      intro v hvm
      rw [h v (by simp [hvm]), List.append_assoc]; rfl
    unfold Table.countsAgree
    split
    · exact htl
    · rename_i ha
      have h3 := h w (by simp)
      have h4 : seen.countP (veq w) = 0 := by
        rw [List.countP_eq_zero]
        intro e he hew
        apply ha
        rw [List.any_eq_true]
        exact ⟨e, he, hv.symm _ _ hew⟩
      rw [List.countP_append, List.countP_cons, h4, if_pos (hv.refl w)] at h3
      dsimp only
      rw [countP_flip hv, countP_flip hv]
      rw [if_neg (by omega), if_neg (by omega)]
      exact htl

theorem groupEquals_spec (A B : List (K × V)) (hA : A ≠ []) (hB : B ≠ []) :
    ∃ b, Table.groupEquals veq A B = some b ∧ (b = true ↔ Match veq A B) := by
  unfold Table.groupEquals
  rcases stripEqual_spec hv A B hA hB with ⟨b, h1, h2⟩ | ⟨m1, m2, h1, h2, h3, h4⟩
  · rw [h1]; exact ⟨b, rfl, h2⟩
  · rw [h1]; dsimp only
    rw [sameLength_spec m1 m2 h2 h3]
    by_cases hlen : m1.length = m2.length
    · rw [decide_eq_true hlen]
      refine ⟨_, rfl, ?_⟩
      rw [h4]
      constructor
      · intro h
        apply match_of_counts hv _ _ hlen
        intro v hvm
        rcases countsAgree_imp hv m2 m1 [] h v hvm with ⟨e, he, _⟩ | h5
        · simp at he
        · rw [h5]; simp
      · intro h
        apply countsAgree_of hv
        intro v _
        rw [List.nil_append, (h.counts hv).2 v]
    · rw [decide_eq_false hlen]
      refine ⟨false, rfl, ?_⟩
      rw [h4]
      constructor
      · intro h; cases h
      · intro h; exact absurd (h.counts hv).1 hlen

end

/-! ### whole containers -/

theorem pairwise_unique {eq : K → K → Bool} (he : EqLaw eq) {l : List (K × V)}
    (h : l.Pairwise (fun a b => eq a.1 b.1 = false)) {a b : K × V} (ha : a ∈ l) (hb : b ∈ l) (hab : eq a.1 b.1 = true) :
    a = b := by
  induction l with
  | nil => simp at ha
  | cons x l ih =>
    rw [List.pairwise_cons] at h
    rw [List.mem_cons] at ha hb
    rcases ha with rfl | ha <;> rcases hb with rfl | hb
    · rfl
    · rw [h.1 b hb] at hab; cases hab
    · have := h.1 a ha
      rw [he.symm _ _ hab] at this; cases this
    · exact ih h.2 ha hb

theorem countP_le_one {eq : K → K → Bool} {veq : K × V → K × V → Bool} (he : EqLaw eq) (hv : EqLawful eq veq) (v : K × V) :
    ∀ {l : List (K × V)}, l.Pairwise (fun a b => eq a.1 b.1 = false) → l.countP (veq v) ≤ 1 := by
  intro l
  induction l with
  | nil => intro _; simp
  | cons x l ih =>
    intro h
    rw [List.pairwise_cons] at h
    rw [List.countP_cons]
    split
    · rename_i hx
      have : l.countP (veq v) = 0 := by
        rw [List.countP_eq_zero]
        intro y hy hvy
        have := h.1 y hy
        rw [he.trans _ _ _ (he.symm _ _ (hv.key _ _ hx)) (hv.key _ _ hvy)] at this
        cases this
      omega
    · have := ih h.2; omega

theorem equalsLoop_spec {o : Table K V} (hs : SInv o) (hl : FLawful o.fns) (hsh : Shape true o.fns o.b)
    {veq : K × V → K × V → Bool} (hv : EqLawful o.fns.eq veq) : ∀ l : List (K × V),
    ∃ b, Table.equalsLoop veq o l = some b ∧ (b = true ↔ ∀ x ∈ l, ∃ e ∈ o.contents, veq x e = true) := by
  intro l
  induction l with
  | nil => exact ⟨true, rfl, by simp⟩
  | cons x l ih =>
    unfold Table.equalsLoop
    rcases findNode_spec hs hl hsh.1 x.1 with ⟨h1, h2⟩ | ⟨q, e, h1, h2, h3⟩
    · rw [h1]
      refine ⟨false, rfl, ?_⟩
      constructor
      · intro h; cases h
      · intro h
        obtain ⟨e, he, hxe⟩ := h x (by simp)
        have := hv.key _ _ hxe
        rw [h2 e he] at this; cases this
    · rw [h1]; dsimp only
      obtain ⟨L, hg⟩ := hs.ginv_of_mem (h2.mem hs)
      rw [h2.deref hg]; dsimp only
      cases hxe : veq x e with
      | true =>
        rw [if_pos rfl]
        obtain ⟨b, i1, i2⟩ := ih
        refine ⟨b, i1, ?_⟩
        rw [i2, List.forall_mem_cons]
        exact ⟨fun h => ⟨⟨e, h2.mem hs, hxe⟩, h⟩, fun h => h.2⟩
      | false =>
        rw [if_neg (by simp)]
        refine ⟨false, rfl, ?_⟩
        constructor
        · intro h; cases h
        · intro h
          obtain ⟨e', he', hxe'⟩ := h x (by simp)
          have har := hsh.contents hl
          unfold Arranged at har
          simp only [if_true] at har
          have : e' = e := pairwise_unique (eqLaw hl) har he' (h2.mem hs)
            (hl.trans _ _ _ (hl.symm _ _ (hv.key _ _ hxe')) h3)
          rw [this, hxe] at hxe'; cases hxe'

theorem equalsUnique_spec {t o : Table K V} (hs : SInv t) (hl : FLawful t.fns) (hsh : Shape true t.fns t.b)
    (hso : SInv o) (hlo : FLawful o.fns) (hsho : Shape true o.fns o.b) (he : t.fns.eq = o.fns.eq)
    {veq : K × V → K × V → Bool} (hv : EqLawful t.fns.eq veq) :
    ∃ b, Table.equalsUnique veq t o = some b ∧ (b = true ↔ Match veq t.contents o.contents) := by
  have hvo : EqLawful o.fns.eq veq := he ▸ hv
  unfold Table.equalsUnique
  by_cases h0 : t.size = o.size
  · rw [if_neg (by simp [h0])]
    obtain ⟨l, e1, e2, e3, _⟩ := iterate_spec hs
    rw [e1]; dsimp only
    obtain ⟨b, i1, i2⟩ := equalsLoop_spec hso hlo hsho hvo l
    refine ⟨b, i1, ?_⟩
    rw [i2]
    constructor
    · intro h
      apply match_of_counts hv _ _ (by rw [← hs.len, ← hso.len]; exact h0)
      intro v hvm
      have har := hsh.contents hl
      unfold Arranged at har
      simp only [if_true] at har
      have h1 : t.contents.countP (veq v) ≤ 1 := countP_le_one (eqLaw hl) hv v har
      obtain ⟨e, he', hve⟩ := h v (e2.mem_iff.mpr hvm)
      have : 0 < o.contents.countP (veq v) := List.countP_pos_iff.mpr ⟨e, he', hve⟩
      omega
    · intro h x hx
      have := (h.counts hv).2 x
      have h1 : 0 < t.contents.countP (veq x) := List.countP_pos_iff.mpr ⟨x, e2.mem_iff.mp hx, hv.refl x⟩
      obtain ⟨e, he', hxe⟩ := List.countP_pos_iff.mp (by omega : 0 < o.contents.countP (veq x))
      exact ⟨e, he', hxe⟩
  · rw [if_pos h0]
    refine ⟨false, rfl, ?_⟩
    constructor
    · intro h; cases h
    · intro h
      have := (h.counts hv).1
      rw [← hs.len, ← hso.len] at this
      exact absurd this h0

theorem countP_filter_key {eq : K → K → Bool} (he : EqLaw eq) {veq : K × V → K × V → Bool} (hv : EqLawful eq veq) {k : K}
    {v : K × V} (hk : eq k v.1 = true) (l : List (K × V)) :
    (l.filter (fun e => eq k e.1)).countP (veq v) = l.countP (veq v) := by
  rw [List.countP_filter]
  apply List.countP_congr
  intro x _
  simp only [Bool.and_eq_true]
  constructor
  · exact fun h => h.1
  · exact fun h => ⟨h, he.trans _ _ _ hk (hv.key _ _ h)⟩

theorem equalsEquivLoop_at {t o : Table K V} (hs : SInv t) (hl : FLawful t.fns) (hsh : Shape false t.fns t.b)
    (hso : SInv o) (hlo : FLawful o.fns) (hsho : Shape false o.fns o.b) (he : t.fns.eq = o.fns.eq)
    {veq : K × V → K × V → Bool} (hv : EqLawful t.fns.eq veq) {L : List Nat} (hg : t.b.Ginv L) :
    ∀ (f : Nat) (it : It) (pre post : List (K × V)), t.b.At L it pre post → post.length ≤ f →
      (∀ x ∈ pre, ∀ y ∈ post, t.fns.eq y.1 x.1 = false) →
      ∃ b, Table.equalsEquivLoop veq t o f it = some b ∧
        (b = true → ∀ v ∈ post, t.contents.countP (veq v) = o.contents.countP (veq v)) ∧
        (b = false → ¬ Match veq t.contents o.contents) := by
  intro f
  induction f with
  | zero =>
    intro it pre post hc hf _
    have hp : post = [] := List.eq_nil_of_length_eq_zero (by omega)
    obtain rfl := hc.none_iff.mpr hp
    subst hp
    exact ⟨true, rfl, by simp, by simp⟩
  | succ f ih =>
    intro it pre post hc hf hpre
    cases post with
    | nil =>
      obtain rfl := hc.none_iff.mpr rfl
      exact ⟨true, rfl, by simp, by simp⟩
    | cons x post =>
      obtain ⟨n1, rfl⟩ := hc.some_of_cons
      have hxm : x ∈ t.contents := (Gba.elems_perm hg).mem_iff.mp (by rw [hc.elems]; simp)
      unfold Table.equalsEquivLoop
      rw [hc.deref hg]; dsimp only
      rcases find_spec hso hlo hsho.1 x.1 with ⟨h1, h2⟩ | ⟨i, y, h1, _⟩
      · rw [h1]
        refine ⟨false, rfl, by simp, fun _ hm => ?_⟩
        have := (hm.counts hv).2 x
        have h3 : 0 < t.contents.countP (veq x) := List.countP_pos_iff.mpr ⟨x, hxm, hv.refl x⟩
        obtain ⟨e, he', hxe⟩ := List.countP_pos_iff.mp (by omega : 0 < o.contents.countP (veq x))
        have h4 := hv.key _ _ hxe
        rw [he, h2 e he'] at h4; cases h4
      · rw [h1]; dsimp only
        obtain ⟨Lo, preo, y', ys', posto, o1, o2, o3, o4⟩ := find_at hso hlo hsho x.1 h1
        -- the group in t
        have har := (hsh.elems hl hg).contig
        rw [hc.elems] at har
        have har2 : Contig t.fns.eq (x :: post) := by
          rw [trip_iff (eqLaw hl)] at har ⊢
          exact har.sublist (List.sublist_append_right _ _)
        obtain ⟨ys, zs, e, s1, s2⟩ := contig_head (eqLaw hl) post x har2 (hl.refl x.1)
        have hall : ∀ y ∈ x :: ys, t.fns.eq x.1 y.1 = true := by
          intro y hy; rw [List.mem_cons] at hy
          rcases hy with rfl | hy
          · exact hl.refl _
          · exact s1 y hy
        have hc2 : t.b.At L (some n1) pre ((x :: ys) ++ zs) := by rw [List.cons_append, ← e]; exact hc
        have hlt := At.length hs hg hc2
        rw [List.length_append] at hlt
        obtain ⟨it', n2, n3⟩ := nextGroup_at hg (x :: ys) t.size _ pre zs hc2 hall s2 (by omega)
        have hlo' := At.length hso o1 o2
        rw [List.length_append] at hlo'
        obtain ⟨ito, m2, _⟩ := nextGroup_at o1 (y' :: ys') o.size _ preo posto o2 o3 (fun z hz => o4 z (by simp [hz])) (by omega)
        rw [n2, m2]; dsimp only
        obtain ⟨b, g1, g2⟩ := groupEquals_spec hv (x :: ys) (y' :: ys') (by simp) (by simp)
        rw [g1]
        have hnopre : ∀ z ∈ pre ++ zs, t.fns.eq x.1 z.1 = false := by
          intro z hz
          rw [List.mem_append] at hz
          rcases hz with hz | hz
          · exact hpre z hz x (by simp)
          · exact s2 z hz
        have P1 := at_filter (p := fun e => t.fns.eq x.1 e.1) hg hc2 hall hnopre
        have P2 := at_filter (p := fun e => t.fns.eq x.1 e.1) o1 o2 (by rw [he]; exact o3) (by rw [he]; exact o4)
        rw [match_perm hv P1 P2] at g2
        cases b with
        | false =>
          dsimp only
          refine ⟨false, rfl, by simp, fun _ hm => ?_⟩
          have := g2.mpr (match_filter hm (by
            intro a b hab
            have h5 := hv.key _ _ hab
            cases h6 : t.fns.eq x.1 a.1 with
            | true => exact (hl.trans _ _ _ h6 h5).symm
            | false =>
              cases h7 : t.fns.eq x.1 b.1 with
              | false => rfl
              | true => rw [hl.trans _ _ _ h7 (hl.symm _ _ h5)] at h6; cases h6))
          cases this
        | true =>
          dsimp only
          have hlen : zs.length ≤ f := by
            rw [List.length_cons, e, List.length_append] at hf; omega
          obtain ⟨b', i1, i2, i3⟩ := ih it' (pre ++ (x :: ys)) zs n3 hlen (by
            intro a ha c hc'
            rw [List.mem_append] at ha
            rcases ha with ha | ha
            · exact hpre a ha c (by rw [e]; simp [hc'])
            · cases h6 : t.fns.eq c.1 a.1 with
              | false => rfl
              | true =>
                have := s2 c hc'
                rw [hl.trans _ _ _ (hall a ha) (hl.symm _ _ h6)] at this; cases this)
          refine ⟨b', i1, ?_, i3⟩
          intro hb v hvm
          have hm := g2.mp rfl
          have key : ∀ v ∈ x :: ys, t.contents.countP (veq v) = o.contents.countP (veq v) := by
            intro v hvm
            have := (hm.counts hv).2 v
            rw [countP_filter_key (eqLaw hl) hv (hall v hvm), countP_filter_key (eqLaw hl) hv (hall v hvm)] at this
            exact this
          rw [List.mem_cons, e, List.mem_append] at hvm
          rcases hvm with hvm | hvm | hvm
          · exact key v (by simp [hvm])
          · exact key v (by simp [hvm])
          · exact i2 hb v hvm

theorem equalsEquiv_spec {t o : Table K V} (hs : SInv t) (hl : FLawful t.fns) (hsh : Shape false t.fns t.b)
    (hso : SInv o) (hlo : FLawful o.fns) (hsho : Shape false o.fns o.b) (he : t.fns.eq = o.fns.eq)
    {veq : K × V → K × V → Bool} (hv : EqLawful t.fns.eq veq) :
    ∃ b, Table.equalsEquiv veq t o = some b ∧ (b = true ↔ Match veq t.contents o.contents) := by
  unfold Table.equalsEquiv
  by_cases h0 : t.size = o.size
  · rw [if_neg (by simp [h0])]
    have hlen : t.contents.length = o.contents.length := by rw [← hs.len, ← hso.len]; exact h0
    rcases begin_spec hs with ⟨h1, h2⟩ | ⟨L, it, h1, h2, h3, h4, h5⟩
    · rw [h1]; dsimp only
      refine ⟨true, by cases t.size <;> rfl, ?_⟩
      rw [match_iff hv]
      refine ⟨fun _ => ?_, fun _ => rfl⟩
      refine ⟨hlen, ?_⟩
      have : o.contents = [] := List.eq_nil_of_length_eq_zero (by rw [← hlen, h2]; rfl)
      rw [h2, this]; intro v; rfl
    · rw [h2]; dsimp only
      obtain ⟨b, i1, i2, i3⟩ := equalsEquivLoop_at hs hl hsh hso hlo hsho he hv h1 t.size it [] _ h3 (by omega) (by simp)
      refine ⟨b, i1, ?_⟩
      constructor
      · intro hb
        apply match_of_counts hv _ _ hlen
        intro v hvm
        exact Nat.le_of_eq (i2 hb v ((Gba.elems_perm h1).mem_iff.mpr hvm))
      · intro hm
        cases b with
        | true => rfl
        | false => exact absurd hm (i3 rfl)
  · rw [if_pos h0]
    refine ⟨false, rfl, ?_⟩
    constructor
    · intro h; cases h
    · intro h
      have := (h.counts hv).1
      rw [← hs.len, ← hso.len] at this
      exact absurd this h0

end Fca

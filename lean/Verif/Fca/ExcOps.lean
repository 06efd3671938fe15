/-
Throwing executions of the closed-addressing containers: operations on one container with unique keys, and erasure.
-/
import Verif.Fca.ExcLemmas
import Verif.Fca.Refine

namespace Fca
variable {K V : Type}

theorem RSat.bind {may : Call → Bool} {β σ : Type} {o : Out (Table K V) (Table K V)} {r : Option (Table K V)} {e : Env}
    {t : Table K V} (h : RSat may o r e t) {g : Env → Table K V → Option (Env × σ)} {f : Env → Table K V → Out β σ}
    {D : Env → β → Prop} {T : Env → σ → Prop}
    (hd : ∀ e' t', r = some t' → Led e e' 0 (t'.blocks - t.blocks) → (f e' t').Sat D T)
    (ht : ∀ e' t', Lost may e t e' t' → ∃ e'' s, g e' t' = some (e'', s) ∧ T e'' s) : ((o.onThrow g).bind f).Sat D T := by
  apply Out.Sat.bind
  apply Out.Sat.onThrow
  exact Out.Sat.mono h (fun e' t' hh => hd e' t' hh.1 hh.2) ht

theorem RSat.bind' {may : Call → Bool} {β : Type} {o : Out (Table K V) (Table K V)} {r : Option (Table K V)} {e : Env}
    {t : Table K V} (h : RSat may o r e t) {f : Env → Table K V → Out β (Table K V)}
    {D : Env → β → Prop} {T : Env → Table K V → Prop}
    (hd : ∀ e' t', r = some t' → Led e e' 0 (t'.blocks - t.blocks) → (f e' t').Sat D T)
    (ht : ∀ e' t', Lost may e t e' t' → T e' t') : (o.bind f).Sat D T := by
  apply Out.Sat.bind
  exact Out.Sat.mono h (fun e' t' hh => hd e' t' hh.1 hh.2) ht

theorem Led.back {e0 e e' : Env} {a b c d : Int} (h0 : Led e0 e a b) (h : Led e e' c d) : Led e0 e' (a + c) (b + d) :=
  h0.trans h rfl rfl

theorem Lost.back {may : Call → Bool} {e0 e e' : Env} {t t' : Table K V} (h0 : Led e0 e 0 0) (h : Lost may e t e' t') :
    Lost may e0 t e' t' := Lost.step h0 h

/-- losing and dropping the node that was to be inserted -/
theorem Lost.drop {may : Call → Bool} {e0 e e' : Env} {t t' : Table K V} (h0 : Led e0 e 1 0) (h : Lost may e t e' t') :
    Lost may e0 t (e'.addNodes (-1)) t' := by
  obtain ⟨l, h1, h2, h3⟩ := h
  exact ⟨l, h1, (h0.trans h2 rfl rfl).trans (led_nodes e' (-1)) (by omega) (by omega), h3⟩

theorem insertNode_blocks {t : Table K V} {b : Gba (K × V)} {n : Nat} (h : b.size = t.b.size) :
    ({ t with b := b, size := n } : Table K V).blocks = t.blocks := by unfold Table.blocks; rw [h]

theorem emplaceBodyX_sat (may : Call → Bool) (held : Bool) {t : Table K V} (hs : SInv t) (hl : FLawful t.fns)
    (hsh : Shape true t.fns t.b) (x : K × V) {e0 e : Env} (h0 : Led e0 e (if held then 1 else 0) 0) :
    (t.emplaceBodyX may held x e).Sat (fun e' r => t.emplaceUnique x = some r ∧ Bal e0 t e' r.1) (Lost may e0 t) := by
  unfold Table.emplaceBodyX
  apply Out.Sat.bind
  apply Out.Sat.onThrow
  have hthrow : ∀ e', Led e e' 0 0 → ∃ e'' s, (if held then dropNode e' t else some (e', t)) = some (e'', s) ∧ Lost may e0 t e'' s := by
    intro e' h'
    cases held with
    | true => exact ⟨_, _, rfl, Lost.drop h0 (Lost.refl hs h')⟩
    | false => exact ⟨_, _, rfl, Lost.refl hs (h0.trans h' (by simp) (by simp))⟩
  rcases findImpl_spec hs hl hsh.1 x.1 with ⟨h1, h2⟩ | ⟨i, y, h1, h2, h3, h4, h5⟩
  · refine hashFind_sat may h1 t e ?_ hthrow
    intro e1 l1
    obtain ⟨t1, g1, g2, g3⟩ := growForOne_spec hs
    obtain ⟨b', e1', e2', e3', e4', e5'⟩ := push_new (u := true) g2.inv g3 (by rw [g2.fns]; exact g2.shape _ hl hsh)
      (x := x) (by rw [g2.fns]; intro e he; exact h2 e (g2.perm.mem_iff.mp he))
    have main : ∀ e2, Led e0 e2 1 0 → ((t.growForOneX may e2).onThrow dropNode |>.bind fun e t1 =>
          match t1.b.insertNode (t1.bucketFor (t.fns.hash x.1)) x with
          | none => .bad
          | some b' => Out.done e (({ t1 with b := b', size := t1.size + 1 } : Table K V), (t1.bucketFor (t.fns.hash x.1), 0), true)).Sat
          (fun e' r => t.emplaceUnique x = some r ∧ Bal e0 t e' r.1) (Lost may e0 t) := by
      intro e2 l2
      refine (growForOneX_sat may hs e2).bind ?_ ?_
      · intro e3 t1' ht1 l3
        rw [g1] at ht1; cases ht1
        rw [g2.fns] at e1'
        rw [e1']
        refine ⟨?_, ?_⟩
        · unfold Table.emplaceUnique
          simp only [h1, g1, e1']
        · refine l2.trans l3 ?_ ?_
          · show ((t1.size + 1 : Nat) : Int) - t.size = 1 + 0
            rw [g2.size]; omega
          · rw [insertNode_blocks e4']; omega
      · intro e3 t' hlost
        exact ⟨_, _, rfl, hlost.drop l2⟩
    apply Out.Sat.bind
    cases held with
    | true => exact main e1 (h0.trans l1 (by simp) (by simp))
    | false =>
      refine newNode_sat may t e1 (fun e2 l2 => main e2 ?_) (fun e2 l2 => Lost.refl hs ?_)
      · exact (h0.trans l1 rfl rfl).trans l2 (by simp) (by simp)
      · exact (h0.trans l1 rfl rfl).trans l2 (by simp) (by simp)
  · refine hashFind_sat may h1 t e ?_ hthrow
    intro e1 l1
    refine ⟨?_, ?_⟩
    · unfold Table.emplaceUnique; simp only [h1]
    · cases held with
      | true => exact ((h0.trans l1 rfl rfl).trans (led_nodes e1 (-1)) rfl rfl).congr (by simp) (by simp)
      | false => exact (h0.trans l1 rfl rfl).congr (by simp) (by simp)

theorem emplaceUniqueX_sat (may : Call → Bool) (nf : Bool) {t : Table K V} (hs : SInv t) (hl : FLawful t.fns)
    (hsh : Shape true t.fns t.b) (x : K × V) (e : Env) :
    (t.emplaceUniqueX may nf x e).Sat (fun e' r => t.emplaceUnique x = some r ∧ Bal e t e' r.1) (Lost may e t) := by
  unfold Table.emplaceUniqueX
  apply Out.Sat.bind
  cases nf with
  | true =>
    refine newNode_sat may t e (fun e1 l1 => emplaceBodyX_sat may true hs hl hsh x l1) (fun e1 l1 => Lost.refl hs l1)
  | false => exact emplaceBodyX_sat may false hs hl hsh x (Led.refl e)

theorem emplaceHintUniqueX_sat (may : Call → Bool) (nf : Bool) {t : Table K V} (hs : SInv t) (hl : FLawful t.fns)
    (hsh : Shape true t.fns t.b) (hint : It) (hh : ∀ q, hint = some q → ∃ e, Node t.b q e) (x : K × V) (e : Env) :
    (t.emplaceHintUniqueX may nf hint x e).Sat (fun e' r => t.emplaceHintUnique hint x = some r ∧ Bal e t e' r.1)
      (Lost may e t) := by
  unfold Table.emplaceHintUniqueX
  apply Out.Sat.bind
  have main : ∀ e1, Led e e1 (if nf then 1 else 0) 0 → Out.Sat (match hint with
    | none => (t.emplaceBodyX may nf x e1).bind fun e r => .done e (r.1, r.2.1)
    | some p =>
      match t.b.deref p with
      | none => .bad
      | some y =>
        ((ask may .eq t e1).onThrow (fun e s => if nf then dropNode e s else some (e, s))).bind fun e _ =>
          if t.fns.eq x.1 y.1 then .done (if nf then e.addNodes (-1) else e) (t, p)
          else (t.emplaceBodyX may nf x e).bind fun e r => .done e (r.1, r.2.1))
      (fun e' r => t.emplaceHintUnique hint x = some r ∧ Bal e t e' r.1) (Lost may e t) := by
    intro e1 l1
    have body : ∀ e2, Led e e2 (if nf then 1 else 0) 0 → ((t.emplaceBodyX may nf x e2).bind fun e r => .done e (r.1, r.2.1)).Sat
        (fun e' r => (t.emplaceUnique x).map (fun r => (r.1, r.2.1)) = some r ∧ Bal e t e' r.1) (Lost may e t) := by
      intro e2 l2
      apply Out.Sat.bind
      refine (emplaceBodyX_sat may nf hs hl hsh x l2).mono ?_ (fun _ _ h => h)
      rintro e' r ⟨q1, q2⟩
      exact ⟨by rw [q1]; rfl, q2⟩
    cases hint with
    | none => exact body e1 l1
    | some p =>
      obtain ⟨y, hy⟩ := hh p rfl
      simp only [Table.emplaceHintUnique, hy.deref' hs]
      apply Out.Sat.bind
      apply Out.Sat.onThrow
      apply ask_sat
      · intro e2 l2
        by_cases hq : t.fns.eq x.1 y.1 = true
        · rw [if_pos hq, if_pos hq]
          refine ⟨rfl, ?_⟩
          cases nf with
          | true => exact ((l1.trans l2 rfl rfl).trans (led_nodes e2 (-1)) rfl rfl).congr (by simp) (by simp)
          | false => exact (l1.trans l2 rfl rfl).congr (by simp) (by simp)
        · rw [if_neg hq, if_neg hq]
          exact body e2 (l1.trans l2 (by simp) (by simp))
      · intro _ e2 l2
        cases nf with
        | true => exact ⟨_, _, rfl, Lost.drop l1 (Lost.refl hs l2)⟩
        | false => exact ⟨_, _, rfl, Lost.refl hs (l1.trans l2 (by simp) (by simp))⟩
  cases nf with
  | true => exact newNode_sat may t e (fun e1 l1 => main e1 l1) (fun e1 l1 => Lost.refl hs l1)
  | false => exact main e (Led.refl e)

theorem insertOrAssignX_sat (may : Call → Bool) {t : Table K V} (hs : SInv t) (hl : FLawful t.fns)
    (hsh : Shape true t.fns t.b) (k : K) (v : V) (e : Env) :
    (t.insertOrAssignX may k v e).Sat (fun e' r => t.insertOrAssign k v = some r ∧ Bal e t e' r.1) (Lost may e t) := by
  unfold Table.insertOrAssignX
  apply Out.Sat.bind
  refine (emplaceUniqueX_sat may false hs hl hsh (k, v) e).mono ?_ (fun _ _ h => h)
  rintro e1 r ⟨q1, q2⟩
  rcases emplaceUnique_spec hs hl hsh (k, v) with ⟨q, y, h1, h2, h3⟩ | ⟨t', q, h1, h2, h3, h4, h5⟩
  · rw [h1] at q1; cases q1
    obtain ⟨t', rest, a1, a2, a3, a4, a5, a6, a7, a8, a9, a10⟩ := assignAt_spec hs h2 v
    simp only [Bool.false_eq_true, if_false]
    refine ofOpt_sat (a := (t', q, false)) (by rw [a1]; rfl) ⟨?_, ?_⟩
    · unfold Table.insertOrAssign; simp only [h1, a1, Option.map_some]
    · have hb : t'.blocks = t.blocks := by
        unfold Table.assignAt at a1
        cases hd : t.b.deref q with
        | none => rw [hd] at a1; cases a1
        | some z => rw [hd] at a1; cases a1; rfl
      refine Led.congr q2 ?_ ?_
      · rw [a6]
      · rw [hb]
  · rw [h1] at q1; cases q1
    refine ⟨?_, q2⟩
    unfold Table.insertOrAssign; simp only [h1]

theorem insertNodeUniqueX_sat (may : Call → Bool) {t : Table K V} (hs : SInv t) (hl : FLawful t.fns)
    (hsh : Shape true t.fns t.b) (x : K × V) (e : Env) :
    (t.insertNodeUniqueX may x e).Sat
      (fun e' r => t.insertNodeUnique x = some r ∧ Led e e' 0 (r.1.blocks - t.blocks)) (Lost may e t) := by
  unfold Table.insertNodeUniqueX
  apply Out.Sat.bind
  rcases findImpl_spec hs hl hsh.1 x.1 with ⟨h1, h2⟩ | ⟨i, y, h1, h2, h3, h4, h5⟩
  · refine hashFind_sat may h1 t e ?_ (fun e1 l1 => Lost.refl hs l1)
    intro e1 l1
    obtain ⟨t1, g1, g2, g3⟩ := reserveForInsert_spec hs (t.size + 1)
    obtain ⟨b', e1', e2', e3', e4', e5'⟩ := push_new (u := true) g2.inv (g3 (by omega)) (by rw [g2.fns]; exact g2.shape _ hl hsh)
      (x := x) (by rw [g2.fns]; intro e he; exact h2 e (g2.perm.mem_iff.mp he))
    dsimp only
    refine (reserveForInsertX_sat may hs (t.size + 1) e1).bind' ?_ (fun e2 t' h => h.step l1)
    intro e2 t1' ht1 l2
    rw [g1] at ht1; cases ht1
    rw [g2.fns] at e1'
    rw [e1']
    refine ⟨?_, l1.trans l2 (by omega) ?_⟩
    · unfold Table.insertNodeUnique
      simp only [h1, g1, e1']
    · rw [insertNode_blocks e4']; omega
  · refine hashFind_sat may h1 t e ?_ (fun e1 l1 => Lost.refl hs l1)
    intro e1 l1
    refine ⟨?_, l1.congr rfl (by simp)⟩
    unfold Table.insertNodeUnique; simp only [h1]

theorem insertRangeUniqueX_sat (may : Call → Bool) : ∀ (xs : List (K × V)) {t : Table K V}, SInv t → FLawful t.fns →
    Shape true t.fns t.b → ∀ e, (Table.insertRangeUniqueX may xs t e).Sat
      (fun e' t' => Table.insertRangeUnique xs t = some t' ∧ Bal e t e' t')
      (fun e' t' => ∃ ys zs t1 e1, xs = ys ++ zs ∧ zs ≠ [] ∧ Table.insertRangeUnique ys t = some t1 ∧ Bal e t e1 t1 ∧
        Lost may e1 t1 e' t') := by
  intro xs
  induction xs with
  | nil => intro t hs hl hsh e; exact ⟨rfl, Bal.refl (Led.refl e)⟩
  | cons x xs ih =>
    intro t hs hl hsh e
    unfold Table.insertRangeUniqueX
    apply Out.Sat.bind
    refine (emplaceUniqueX_sat may true hs hl hsh x e).mono ?_ ?_
    · rintro e1 ⟨t1, q, b⟩ ⟨q1, q2⟩
      have h1 : SInv t1 ∧ t1.fns = t.fns ∧ Shape true t.fns t1.b := by
        rcases emplaceUnique_spec hs hl hsh x with ⟨q, y, h1, h2, h3⟩ | ⟨t', q, h1, h2, h3, h4, h5⟩
        · rw [h1] at q1; cases q1; exact ⟨hs, rfl, hsh⟩
        · rw [h1] at q1; cases q1; exact ⟨h3.inv, h3.fns, h4⟩
      obtain ⟨k1, k2, k3⟩ := h1
      refine (ih k1 (by rw [k2]; exact hl) (by rw [k2]; exact k3) e1).mono ?_ ?_
      · rintro e' t' ⟨r1, r2⟩
        refine ⟨by unfold Table.insertRangeUnique; rw [q1]; exact r1, q2.trans r2⟩
      · rintro e' t' ⟨ys, zs, t2, e2, r1, r2, r3, r4, r5⟩
        exact ⟨x :: ys, zs, t2, e2, by rw [r1]; rfl, r2, by unfold Table.insertRangeUnique; rw [q1]; exact r3, q2.trans r4, r5⟩
    · intro e1 t1 h1
      exact ⟨[], x :: xs, t, e, rfl, by simp, rfl, Bal.refl (Led.refl e), h1⟩

/-! ### merge -/

/-- what a partial `merge_unique` loop leaves -/
structure Moved (t o : Table K V) (s : Table K V × Table K V) (took : List (K × V)) : Prop where
  add : AddedAll t took s.1
  shape : Shape true t.fns s.1.b
  rem : Removed o took s.2
  absent : ∀ e ∈ took, ∀ y ∈ t.contents, t.fns.eq e.1 y.1 = false
  pw : took.Pairwise (fun a b => t.fns.eq a.1 b.1 = false)

theorem mergeLoopX_sat (may : Call → Bool) : ∀ (post : List (K × V)) (f : Nat) (t o : Table K V) (L : List Nat) (it : It)
    (pre : List (K × V)) (e : Env),
    SInv t → FLawful t.fns → Shape true t.fns t.b → t.b.size ≠ 0 → SInv o → o.b.Ginv L → o.b.At L it pre post →
    post.length ≤ f →
    (Table.mergeLoopX may f t o it e).Sat
      (fun e' s => Table.mergeLoop f t o it = some s ∧ Led e e' 0 0 ∧ s.1.b.size = t.b.size ∧ s.2.b.size = o.b.size)
      (fun e' s => ∃ took, Moved t o s took ∧ Led e e' 0 0 ∧ s.1.b.size = t.b.size) := by
  intro post
  induction post with
  | nil =>
    intro f t o L it pre e hs hl hsh hb hso hg hc _
    obtain rfl := hc.none_iff.mpr rfl
    cases f <;> exact ⟨rfl, Led.refl e, rfl, rfl⟩
  | cons x post ih =>
    intro f t o L it pre e hs hl hsh hb hso hg hc hf
    cases f with
    | zero => simp at hf
    | succ f =>
      obtain ⟨q, rfl⟩ := hc.some_of_cons
      rw [List.length_cons] at hf
      unfold Table.mergeLoopX Table.mergeLoop
      rw [hc.deref hg]; dsimp only
      have nothing : ∀ e1, Led e e1 0 0 → ∃ took, Moved t o (t, o) took ∧ Led e e1 0 0 ∧ t.b.size = t.b.size := by
        intro e1 l1
        exact ⟨[], ⟨AddedAll.nil hs, hsh, Removed.nil hso, by simp, by simp⟩, l1, rfl⟩
      apply Out.Sat.bind
      rcases findImpl_spec hs hl hsh.1 x.1 with ⟨h1, h2⟩ | ⟨i, y, h1, h2, h3, h4, h5⟩
      · refine hashFind_sat may h1 (t, o) e ?_ nothing
        intro e1 l1
        rw [h1]; dsimp only
        obtain ⟨b', L', it', k1, k2, k3, k4, k5, k6, k7⟩ := Gba.extractIt_at hg hc
        rw [k1]; dsimp only
        have hr := removed_of_extract hso hg hc k2 k3 k4 k5 k6
        obtain ⟨tb, g1, g2, g3, g4, g5⟩ := push_new hs hb hsh h2
        rw [g1]; dsimp only
        refine (ih f { t with b := tb, size := t.size + 1 } { o with b := b', size := o.size - 1 } L' it' pre e1 g2.inv hl g3
          (by dsimp only; rw [g4]; exact hb) hr.inv k2 k7 (by omega)).mono ?_ ?_
        · rintro e' s ⟨r1, r2, r3, r4⟩
          exact ⟨r1, l1.trans r2 (by omega) (by omega), r3.trans g4, r4.trans k3⟩
        · rintro e' s ⟨took, m, r2, r3⟩
          refine ⟨x :: took, ⟨g2.cons m.add, m.shape, hr.trans m.rem, ?_, ?_⟩, l1.trans r2 (by omega) (by omega), r3.trans g4⟩
          · intro z hz y hy
            rw [List.mem_cons] at hz
            rcases hz with rfl | hz
            · exact h2 y hy
            · exact m.absent z hz y (g2.perm.mem_iff.mpr (List.mem_cons_of_mem _ hy))
          · refine List.pairwise_cons.mpr ⟨?_, m.pw⟩
            intro z hz
            exact eq_false_symm hl (m.absent z hz x (g2.perm.mem_iff.mpr (by simp)))
      · refine hashFind_sat may h1 (t, o) e ?_ nothing
        intro e1 l1
        rw [h1]; dsimp only
        obtain ⟨it', k1, k2⟩ := hc.inc hg
        rw [k1]; dsimp only
        refine (ih f t o L it' _ e1 hs hl hsh hb hso hg k2 (by omega)).mono ?_ ?_
        · rintro e' s ⟨r1, r2, r3⟩
          exact ⟨r1, l1.trans r2 (by omega) (by omega), r3⟩
        · rintro e' s ⟨took, m, r2, r3⟩
          exact ⟨took, m, l1.trans r2 (by omega) (by omega), r3⟩

theorem Kept.blocks {t t' : Table K V} (h : t'.b.size = t.b.size) : t'.blocks = t.blocks := by unfold Table.blocks; rw [h]

theorem mergeUniqueX_sat (may : Call → Bool) {t o : Table K V} (hs : SInv t) (hl : FLawful t.fns) (hsh : Shape true t.fns t.b)
    (hso : SInv o) (hal : t.al = o.al) (e : Env) :
    (t.mergeUniqueX may o e).Sat
      (fun e' s => t.mergeUnique o = some s ∧ Led e e' 0 (s.1.blocks - t.blocks) ∧ s.2.blocks = o.blocks)
      (fun e' s => (s.2 = o ∧ Lost may e t e' s.1) ∨
        ∃ t1 took, Kept t t1 ∧ Moved t1 o s took ∧ Led e e' 0 (s.1.blocks - t.blocks) ∧ s.2.blocks = o.blocks) := by
  have hne : ¬ t.al ≠ o.al := by simp [hal]
  by_cases h0 : o.size = 0
  · unfold Table.mergeUniqueX
    rw [if_neg hne, if_pos h0]
    refine ⟨?_, (Led.refl e).congr rfl (by simp), rfl⟩
    unfold Table.mergeUnique
    rw [if_neg hne, if_pos h0]
  · have hX : t.mergeUniqueX may o e = ((t.reserveForInsertX may (t.size + o.size) e).onThrow
        fun e t' => some (e, t', o)).bind fun e t1 =>
        match o.begin_ with
        | none => .bad
        | some it => Table.mergeLoopX may o.size t1 o it e := by
      unfold Table.mergeUniqueX
      rw [if_neg hne, if_neg h0]
      congr 1
    obtain ⟨t1, g1, g2, g3⟩ := reserveForInsert_spec hs (t.size + o.size)
    rw [hX]
    refine (reserveForInsertX_sat may hs (t.size + o.size) e).bind ?_ ?_
    · intro e1 t1' ht l1
      rw [g1] at ht; cases ht
      rcases begin_spec hso with ⟨h1, h2⟩ | ⟨L, it, h1, h2, h3, h4, h5⟩
      · exact absurd (by rw [hso.len, h2]; rfl) h0
      · have hB : t.mergeUnique o = Table.mergeLoop o.size t1 o it := by
          unfold Table.mergeUnique
          rw [if_neg hne, if_neg h0, g1]; dsimp only
          rw [h2]
        rw [h2]; dsimp only
        refine (mergeLoopX_sat may _ o.size t1 o L it [] e1 g2.inv (by rw [g2.fns]; exact hl)
          (by rw [g2.fns]; exact g2.shape _ hl hsh) (g3 (by omega)) hso h1 h3 (by omega)).mono ?_ ?_
        · rintro e' s ⟨r1, r2, r3, r4⟩
          refine ⟨hB.trans r1, l1.trans r2 (by omega) ?_, Kept.blocks r4⟩
          rw [Kept.blocks r3]; omega
        · rintro e' s ⟨took, m, r2, r3⟩
          refine Or.inr ⟨t1, took, g2, m, l1.trans r2 (by omega) ?_, m.rem.blocks⟩
          rw [Kept.blocks r3]; omega
    · intro e1 t' h
      exact ⟨_, _, rfl, Or.inl ⟨rfl, h⟩⟩

theorem mergeSelfWalkX_sat (may : Call → Bool) {t : Table K V} (hs : SInv t) (hl : FLawful t.fns) (hsh : Shape true t.fns t.b) :
    ∀ (l : List (K × V)) (e : Env), (∀ x ∈ l, x ∈ t.contents) → (t.mergeSelfWalkX may l e).Sat
      (fun e' t' => t' = t ∧ Led e e' 0 0) (fun e' t' => t' = t ∧ Led e e' 0 0) := by
  intro l
  induction l with
  | nil => intro e _; exact ⟨rfl, Led.refl e⟩
  | cons x xs ih =>
    intro e hx
    unfold Table.mergeSelfWalkX
    apply Out.Sat.bind
    rcases findNode_spec hs hl hsh.1 x.1 with ⟨h1, h2⟩ | ⟨q, y, h1, _⟩
    · have := h2 x (hx x (by simp))
      rw [hl.refl] at this; cases this
    · refine findNodeX_sat may h1 t e ?_ (fun e1 l1 => ⟨rfl, l1⟩)
      intro e1 l1
      simp only [Option.isSome_some, if_true]
      refine (ih e1 (fun y hy => hx y (by simp [hy]))).mono ?_ ?_ <;>
      · rintro e' t' ⟨r1, r2⟩
        exact ⟨r1, l1.trans r2 (by omega) (by omega)⟩

theorem mergeSelfX_sat (may : Call → Bool) {t : Table K V} (hs : SInv t) (hl : FLawful t.fns) (hsh : Shape true t.fns t.b)
    (e : Env) : (t.mergeSelfX may e).Sat (fun e' t' => t.mergeSelf = some t' ∧ Bal e t e' t')
      (fun e' t' => (Lost may e t e' t' ∨ Kept t t') ∧ Bal e t e' t') := by
  obtain ⟨tm, hm, _⟩ := mergeSelf_spec hs hl hsh
  unfold Table.mergeSelfX
  unfold Table.mergeSelf at hm ⊢
  by_cases h0 : t.size = 0
  · rw [if_pos h0, if_pos h0]; exact ⟨rfl, Bal.refl (Led.refl e)⟩
  · rw [if_neg h0] at hm ⊢
    rw [if_neg h0]
    obtain ⟨t1, g1, g2, g3⟩ := reserveForInsert_spec hs (t.size + t.size)
    refine (reserveForInsertX_sat may hs (t.size + t.size) e).bind' ?_ (fun e' t' h => ⟨Or.inl h, h.bal⟩)
    intro e1 t1' ht l1
    rw [g1] at ht; cases ht
    have hb1 : Bal e t e1 t1 := l1.congr (by rw [g2.size]; omega) rfl
    simp only [g1] at hm ⊢
    obtain ⟨l, i1, i2, i3, _⟩ := iterate_spec g2.inv
    simp only [i1] at hm ⊢
    have hm' : tm = t1 := by
      split at hm
      · cases hm; rfl
      · cases hm
    rw [hm'] at hm
    refine (mergeSelfWalkX_sat may g2.inv (by rw [g2.fns]; exact hl) (by rw [g2.fns]; exact g2.shape _ hl hsh) l e1
      (fun x hx => i2.mem_iff.mp hx)).mono ?_ ?_
    · rintro e' t' ⟨rfl, r2⟩
      exact ⟨hm, hb1.trans (Bal.refl r2)⟩
    · rintro e' t' ⟨rfl, r2⟩
      exact ⟨Or.inr g2, hb1.trans (Bal.refl r2)⟩

/-! ### erasure -/

theorem eraseKeyUniqueX_sat (may : Call → Bool) {t : Table K V} (hs : SInv t) (hl : FLawful t.fns) (hp : Placed t.fns t.b)
    (k : K) (e : Env) : (t.eraseKeyUniqueX may k e).Sat (fun e' r => t.eraseKeyUnique k = some r ∧ Bal e t e' r.1)
      (fun e' t' => t' = t ∧ Led e e' 0 0) := by
  unfold Table.eraseKeyUniqueX Table.eraseKeyUnique
  apply Out.Sat.bind
  apply ask_sat
  · intro e1 l1
    dsimp only
    by_cases h0 : 0 < t.size
    · rw [if_pos h0, if_pos h0]
      have hb := hs.pos (Nat.pos_iff_ne_zero.mp h0)
      obtain ⟨L, hg⟩ := hs.wf.ginv hb
      have hlt : t.pos k < t.b.size := Gba.position_lt hg _
      rw [bucketFor_eq hb, Gba.get_of_le hg (Nat.le_of_lt hlt)]
      dsimp only
      apply Out.Sat.bind
      apply Out.Sat.bind
      apply ask_sat
      · intro e2 l2
        apply findRunX_sat
        · intro e3 l3
          have l : Led e e3 0 0 := (l1.trans l2 rfl rfl).trans l3 (by omega) (by omega)
          cases hf : (t.b.chain (t.pos k)).findIdx? (fun e => t.fns.eq k e.1) with
          | none => exact ⟨rfl, Bal.refl l⟩
          | some i =>
            obtain ⟨hi, h1, _⟩ := findIdx_some hf
            have hn : Node t.b (⟨t.pos k, some (t.pos k / 64)⟩, i) _ := ⟨rfl, List.getElem?_eq_getElem hi⟩
            obtain ⟨pre, post, hc⟩ := hn.at_ hg
            obtain ⟨b', L1, k1, k2, k3, k4, k5, k6, k7, k8⟩ := Gba.extractNode_elems hg hc
            dsimp only at k1
            dsimp only
            rw [k1, hs.deleteNode (by omega)]
            refine ⟨rfl, l.trans (led_nodes e3 (-1)) ?_ ?_⟩
            · show ((t.size - 1 : Nat) : Int) - t.size = 0 + -1
              omega
            · rw [insertNode_blocks k3]; omega
        · intro e3 l3; exact ⟨rfl, (l1.trans l2 rfl rfl).trans l3 (by omega) (by omega)⟩
      · intro _ e2 l2; exact ⟨rfl, l1.trans l2 (by omega) (by omega)⟩
    · rw [if_neg h0, if_neg h0]
      exact ⟨rfl, Bal.refl l1⟩
  · intro _ e1 l1; exact ⟨rfl, l1⟩

theorem eraseIfLoopX_sat (may : Call → Bool) (pr : K × V → Bool) : ∀ (post : List (K × V)) (f : Nat) (t : Table K V)
    (L : List Nat) (it : It) (pre : List (K × V)) (e : Env), SInv t → t.b.Ginv L → t.b.At L it pre post → post.length ≤ f →
    (Table.eraseIfLoopX may pr f t it e).Sat (fun e' t' => Table.eraseIfLoop pr f t it = some t' ∧ Bal e t e' t')
      (fun e' t' => ∃ gone, Removed t gone t' ∧ (∀ x ∈ gone, pr x = true) ∧ Bal e t e' t') := by
  intro post
  induction post with
  | nil =>
    intro f t L it pre e hs hg hc _
    obtain rfl := hc.none_iff.mpr rfl
    cases f <;> exact ⟨rfl, Bal.refl (Led.refl e)⟩
  | cons x post ih =>
    intro f t L it pre e hs hg hc hf
    cases f with
    | zero => simp at hf
    | succ f =>
      obtain ⟨q, rfl⟩ := hc.some_of_cons
      unfold Table.eraseIfLoopX Table.eraseIfLoop
      rw [hc.deref hg]; dsimp only
      rw [List.length_cons] at hf
      apply Out.Sat.bind
      apply ask_sat
      · intro e1 l1
        cases hp : pr x with
        | true =>
          obtain ⟨t1, L1, it1, k1, k2, k3, k4⟩ := eraseNode_at hs hg hc
          rw [if_pos rfl, if_pos rfl, k1]; dsimp only
          have hb : Bal e t (e1.addNodes (-1)) t1 := by
            refine l1.trans (led_nodes e1 (-1)) ?_ ?_
            · have := k2.size; simp at this; omega
            · rw [k2.blocks]; omega
          refine (ih f t1 L1 it1 pre _ k2.inv k3 k4 (by omega)).mono ?_ ?_
          · rintro e' t' ⟨r1, r2⟩; exact ⟨r1, hb.trans r2⟩
          · rintro e' t' ⟨gone, r1, r2, r3⟩
            refine ⟨x :: gone, k2.trans r1, ?_, hb.trans r3⟩
            intro y hy; rw [List.mem_cons] at hy
            rcases hy with rfl | hy
            · exact hp
            · exact r2 y hy
        | false =>
          obtain ⟨it1, k1, k2⟩ := hc.inc hg
          rw [if_neg (by simp), if_neg (by simp), k1]; dsimp only
          refine (ih f t L it1 _ e1 hs hg k2 (by omega)).mono ?_ ?_
          · rintro e' t' ⟨r1, r2⟩; exact ⟨r1, r2.step l1⟩
          · rintro e' t' ⟨gone, r1, r2, r3⟩; exact ⟨gone, r1, r2, r3.step l1⟩
      · intro _ e1 l1
        exact ⟨[], Removed.nil hs, by simp, Bal.refl l1⟩

theorem eraseIfX_sat (may : Call → Bool) (pr : K × V → Bool) {t : Table K V} (hs : SInv t) (e : Env) :
    (t.eraseIfX may pr e).Sat (fun e' r => t.eraseIf pr = some r ∧ Bal e t e' r.1)
      (fun e' t' => ∃ gone, Removed t gone t' ∧ (∀ x ∈ gone, pr x = true) ∧ Bal e t e' t') := by
  unfold Table.eraseIfX Table.eraseIf
  rcases begin_spec hs with ⟨h1, h2⟩ | ⟨L, it, h1, h2, h3, h4, h5⟩
  · rw [h1]; dsimp only
    have k1 : Table.eraseIfLoop pr t.size t none = some t := by cases t.size <;> rfl
    have k2 : Table.eraseIfLoopX may pr t.size t none e = .done e t := by cases t.size <;> rfl
    rw [k1, k2]
    exact ⟨rfl, Bal.refl (Led.refl e)⟩
  · rw [h2]; dsimp only
    apply Out.Sat.bind
    refine (eraseIfLoopX_sat may pr _ t.size t L it [] e hs h1 h3 (by omega)).mono ?_ (fun _ _ h => h)
    rintro e' t' ⟨r1, r2⟩
    exact ⟨by rw [r1]; rfl, r2⟩

theorem plainX_sat {σ : Type} {t t' : Table K V} {r : Option (Table K V)} (hr : r = some t') (e : Env)
    {D : Env → Table K V → Prop} {T : Env → σ → Prop} (hd : ∀ e', Bal e t e' t' → D e' t') :
    (Table.plainX t r e : Out (Table K V) σ).Sat D T := by
  subst hr
  exact hd _ ((led_nodes e _).trans (led_blocks _ _) (by omega) (by omega))

theorem extractX_sat (may : Call → Bool) {t : Table K V} (hs : SInv t) (hl : FLawful t.fns) (hp : Placed t.fns t.b)
    (k : K) (e : Env) : (t.extractX may k e).Sat
      (fun e' r => t.opExtract k = some r ∧ Led e e' 0 0 ∧ r.1.blocks = t.blocks)
      (fun e' t' => t' = t ∧ Led e e' 0 0) := by
  unfold Table.extractX Table.opExtract
  apply Out.Sat.bind
  rcases find_spec hs hl hp k with ⟨h1, h2⟩ | ⟨i, x, h1, _, _, h2, h3⟩
  · refine findX_sat may h1 t e ?_ (fun e1 l1 => ⟨rfl, l1⟩)
    intro e1 l1
    simp only [h1]
    exact ⟨rfl, l1, rfl⟩
  · refine findX_sat may h1 t e ?_ (fun e1 l1 => ⟨rfl, l1⟩)
    intro e1 l1
    obtain ⟨L, hg⟩ := hs.ginv_of_mem (h2.mem hs)
    obtain ⟨pre, post, hat⟩ := h2.at_ hg
    obtain ⟨t', L', k1, k2, k3, k4⟩ := extractAt_at hs hg hat
    simp only [h1, k1]
    exact ⟨rfl, l1, k2.blocks⟩

end Fca

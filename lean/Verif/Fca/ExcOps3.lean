/-
Throwing executions of the closed-addressing containers: copy, move, swap, comparison.
-/
import Verif.Fca.ExcOps2

namespace Fca
open SpecC (Contig)
variable {K V : Type}

theorem contig_prefix {eq : K → K → Bool} : ∀ (ys zs : List (K × V)), Contig eq (ys ++ zs) → Contig eq ys := by
  intro ys
  induction ys with
  | nil => intro zs _; trivial
  | cons a ys ih =>
    intro zs h
    refine ⟨?_, ih zs h.2⟩
    intro c hc hac
    obtain ⟨b, hb, hab⟩ := h.1 c (by simp [hc]) hac
    cases ys with
    | nil => simp at hc
    | cons d ys => exact ⟨b, hb, hab⟩

theorem arranged_prefix {u : Bool} {eq : K → K → Bool} {ys zs : List (K × V)} (h : Arranged u eq (ys ++ zs)) :
    Arranged u eq ys := by
  unfold Arranged at h ⊢
  cases u with
  | true => exact (List.pairwise_append.mp h).1
  | false => exact contig_prefix ys zs h

theorem fill_size {u : Bool} {f : Fns K} {xs : List (K × V)} {a a' : Gba (K × V)} (h : fill u f xs a = some a') : a'.size = a.size := by
  unfold fill at h
  split at h
  · exact fillFront_size h
  · exact fillEquiv_size h

/-- a filling loop on an empty container -/
theorem fillX_empty (may : Call → Bool) (k : Table.Fill) {u front : Bool} {t : Table K V} (hs : SInv t) (hl : FLawful t.fns)
    (h0 : t.contents = []) {xs : List (K × V)} (hx : Arranged u t.fns.eq xs) (hb : xs ≠ [] → t.b.size ≠ 0)
    (hf : front = true ∨ u = false) (e : Env) :
    (Table.fillX may k front xs t e).Sat
      (fun e' t' => ∃ B, fill front t.fns xs t.b = some B ∧ t' = { t with b := B, size := t.size + xs.length } ∧ Bal e t e' t')
      (fun e' t' => ∃ ys zs, xs = ys ++ zs ∧ zs ≠ [] ∧ Filled u t.fns t.al t.mlf ys t' ∧ Bal e t e' t') := by
  obtain ⟨B, f1, f2⟩ := fill_empty hs hl h0 hx hb hf
  refine (fillX_sat may k front xs t e B (fun hne => ⟨hb hne, WF.position_lt hs.wf (hb hne)⟩) f1).mono ?_ ?_
  · rintro e' t' ⟨rfl, l⟩
    refine ⟨B, f1, rfl, l.congr ?_ ?_⟩
    · show ((t.size + xs.length : Nat) : Int) - t.size = _
      omega
    · rw [insertNode_blocks (fill_size f1)]; omega
  · rintro e' t' ⟨ys, zs, b', r1, r2, r3, rfl, l⟩
    have hne : xs ≠ [] := by rw [r1]; simp [r2]
    obtain ⟨B', f1', f2'⟩ := fill_empty (front := front) hs hl h0 (xs := ys) (arranged_prefix (r1 ▸ hx)) (fun _ => hb hne) hf
    have : fill front t.fns ys t.b = some B' := f1'
    rw [r3] at this; cases this
    refine ⟨ys, zs, r1, r2, f2', l.congr ?_ ?_⟩
    · show ((t.size + ys.length : Nat) : Int) - t.size = _
      omega
    · rw [insertNode_blocks (fill_size r3)]; omega

theorem destroyX_eq {t : Table K V} (hs : SInv t) (e : Env) :
    t.destroyX e = some ((e.addNodes (-t.size)).addBlocks (-t.blocks)) := by
  unfold Table.destroyX
  rw [deleteBuckets_spec hs]

theorem led_destroy (e : Env) (a b : Int) : Led e ((e.addNodes a).addBlocks b) a b :=
  (led_nodes e a).trans (led_blocks _ b) (by omega) (by omega)

/-- losing elements of an empty container -/
theorem Removed.empty {t t' : Table K V} {xs : List (K × V)} (h : Removed t xs t') (h0 : t.contents = []) :
    xs = [] ∧ t'.contents = [] := by
  have := h.perm
  rw [h0] at this
  have := this.symm.eq_nil
  simpa using this

theorem Filled.of_lost {may : Call → Bool} {u : Bool} {e e' : Env} {t t' : Table K V} (h : Lost may e t e' t') (h0 : t.contents = []) :
    Filled u t.fns t.al t.mlf [] t' := by
  obtain ⟨l, h1, h2, h3⟩ := h
  have := (h1.empty h0).2
  exact ⟨h1.inv, h1.fns, h1.al, h1.mlf, by rw [this], shape_empty _ _ (h1.inv.wf.chain_nil this)⟩

theorem copyBucketsX_sat (may : Call → Bool) {u : Bool} {t x : Table K V} (hs : SInv t) (h0 : t.contents = []) (hx : SInv x)
    (hf : t.fns = x.fns) (hl : FLawful x.fns) (hsh : Shape u x.fns x.b) (e : Env) :
    (t.copyBucketsX may u x e).Sat (fun e' t' => t.copyBuckets u x = some t' ∧ Bal e t e' t')
      (fun e' t' => ∃ ys zs, x.contents.Perm (ys ++ zs) ∧ Filled u x.fns t.al t.mlf ys t' ∧ Bal e t e' t') := by
  obtain ⟨l, e1, e2, e3, e4⟩ := iterate_spec hx
  obtain ⟨t1, g1, g2, g3⟩ := reserveForInsert_spec hs x.size
  unfold Table.copyBucketsX
  refine (reserveForInsertX_sat may hs x.size e).bind' ?_ ?_
  · intro ea t1' ht l1
    rw [g1] at ht; cases ht
    rw [e1]; dsimp only
    have hc1 : t1.contents = [] := by have := g2.perm; rw [h0] at this; exact this.eq_nil
    have hf1 : t1.fns = x.fns := g2.fns.trans hf
    have lb : Bal e t ea t1 := l1.congr (by rw [g2.size]; omega) rfl
    refine (fillX_empty may .copy (u := u) (front := u) g2.inv (by rw [hf1]; exact hl) hc1 (by rw [hf1]; exact e4 u hl hsh)
      (fun hne => g3 (by rw [← e3]; exact List.length_pos_iff.mpr hne)) (by cases u <;> simp) ea).mono ?_ ?_
    · rintro e' t' ⟨B, r1, rfl, r2⟩
      refine ⟨?_, lb.trans r2⟩
      unfold Table.copyBuckets
      rw [g1, e1]; dsimp only
      have r1' : (if u = true then Table.fillFront t1.fns l t1.b else Table.fillEquiv t1.fns l t1.b) = some B := r1
      rw [r1']
    · rintro e' t' ⟨ys, zs, r1, r2, r3, r4⟩
      refine ⟨ys, zs, by rw [← r1]; exact e2.symm, ?_, lb.trans r4⟩
      have := r3
      rw [hf1, g2.al, g2.mlf] at this
      exact this
  · intro e1 t' h
    refine ⟨[], x.contents, List.Perm.refl _, ?_, h.bal⟩
    have := Filled.of_lost (u := u) h h0
    rw [hf] at this
    exact this

theorem mkBlocks (n a : Nat) (m : Option Nat) (ml : Nat) (f : Fns K) :
    ({ fns := f, al := a, size := 0, mlf := m, maxLoad := ml, b := Gba.new n a } : Table K V).blocks =
      if (Gba.new n a : Gba (K × V)).size = 0 then 0 else 2 := rfl

theorem copyCtorX_sat (may : Call → Bool) {u : Bool} {x : Table K V} (hx : SInv x) (hl : FLawful x.fns) (hsh : Shape u x.fns x.b)
    (a : Nat) (e : Env) : (x.copyCtorX may u a e).Sat (fun e' t' => x.copyCtor u a = some t' ∧ Led e e' t'.size t'.blocks)
      (fun e' _ => Led e e' 0 0) := by
  unfold Table.copyCtorX
  apply Out.Sat.bind
  apply ask_sat
  · intro e1 l1
    apply Out.Sat.bind
    apply newX_sat
    · intro e2 l2
      dsimp only
      have hs0 := fresh_sinv x.fns a x.size x.mlf (V := V)
      have hc0 : ({ fns := x.fns, al := a, size := 0, mlf := x.mlf, maxLoad := maxLoadFor x.mlf (Gba.new x.size a : Gba (K × V)).size, b := Gba.new x.size a } : Table K V).contents = [] := Gba.new_contents _ _
      have l02 := l1.trans l2 rfl rfl
      by_cases h0 : x.size ≠ 0
      · rw [if_pos h0]
        apply Out.Sat.onThrow
        refine (copyBucketsX_sat may hs0 hc0 hx rfl hl hsh e2).mono ?_ ?_
        · rintro e' t' ⟨r1, r2⟩
          refine ⟨?_, l02.trans r2 ?_ ?_⟩
          · unfold Table.copyCtor; dsimp only; rw [if_pos h0]; exact r1
          · simp
          · show t'.blocks = 0 + _ + (t'.blocks - _)
            rw [mkBlocks]; omega
        · rintro e' t' ⟨ys, zs, r1, r2, r3⟩
          refine ⟨_, _, by rw [destroyX_eq r2.inv]; rfl, ?_⟩
          refine (l02.trans r3 rfl rfl).trans (led_destroy e' _ _) ?_ ?_
          · simp
          · rw [mkBlocks]; omega
      · rw [if_neg h0]
        refine ⟨?_, l02.congr (by simp) (by rw [mkBlocks]; simp)⟩
        unfold Table.copyCtor; dsimp only; rw [if_neg h0]
    · intro _ _ e2 l2; exact l1.trans l2 (by omega) (by omega)
  · intro _ e1 l1; exact l1

theorem movedFrom_blocks (mv : K × V → K × V) (x : Table K V) : (x.movedFrom mv).blocks = x.blocks := rfl
theorem movedFrom_size (mv : K × V → K × V) (x : Table K V) : (x.movedFrom mv).size = x.size := rfl

theorem moveCtorX_sat (may : Call → Bool) (x : Table K V) (e : Env) :
    (x.moveCtorX may e).Sat
      (fun e' s => s = x.moveCtor ∧ Led e e' 0 0) (fun e' _ => Led e e' 0 0) := by
  unfold Table.moveCtorX
  apply Out.Sat.bind
  apply ask_sat
  · intro e1 l1; exact ⟨rfl, l1⟩
  · intro _ e1 l1; exact l1

theorem moveCtorAllocX_sat (may : Call → Bool) {u : Bool} {x : Table K V} (hx : SInv x) (hl : FLawful x.fns)
    (hsh : Shape u x.fns x.b) (mv : K × V → K × V) (a : Nat) (e : Env) : (Table.moveCtorAllocX may mv x a e).Sat
      (fun e' s => Table.moveCtorAlloc mv x a = some s ∧
        Led e e' ((s.1.size : Int) + s.2.size - x.size) (s.1.blocks + s.2.blocks - x.blocks))
      (fun e' x' => (x' = x ∨ (x' = x.movedFrom mv ∧ a ≠ x.al)) ∧ Led e e' 0 0) := by
  unfold Table.moveCtorAllocX
  apply Out.Sat.bind
  apply ask_sat
  · intro e1 l1
    apply Out.Sat.bind
    apply newX_sat
    · intro e2 l2
      dsimp only
      have hs0 := fresh_sinv x.fns a x.bucketCount x.mlf (V := V)
      have hc0 : ({ fns := x.fns, al := a, size := 0, mlf := x.mlf, maxLoad := maxLoadFor x.mlf (Gba.new x.bucketCount a : Gba (K × V)).size, b := Gba.new x.bucketCount a } : Table K V).contents = [] := Gba.new_contents _ _
      have l02 := l1.trans l2 rfl rfl
      by_cases ha : a = x.al
      · rw [if_pos ha]
        obtain ⟨e3, d1, d2⟩ := deallocX_eq hs0.dealloc e2
        dsimp only at d1
        rw [d1]; dsimp only
        have hm : ({ fns := x.fns, al := a, size := 0, mlf := x.mlf, maxLoad := maxLoadFor x.mlf (Gba.new x.bucketCount a : Gba (K × V)).size, b := Gba.new x.bucketCount a } : Table K V).moveBucketsFrom x = some ({ fns := x.fns, al := a, size := x.size, mlf := x.mlf, maxLoad := x.maxLoad, b := x.b }, { x with size := 0, maxLoad := 0, b := Gba.null x.al }) := by
          unfold Table.moveBucketsFrom
          rw [hs0.dealloc]
        refine ofOpt_sat hm ⟨?_, (l02.trans d2 rfl rfl).congr ?_ ?_⟩
        · unfold Table.moveCtorAlloc; dsimp only; rw [if_pos ha]; exact hm
        · simp
        · show x.blocks + 0 - x.blocks = _
          dsimp only
          omega
      · rw [if_neg ha]
        by_cases h0 : x.size = 0
        · rw [if_pos h0]
          refine ⟨?_, l02.congr (by simp) (by dsimp only; rw [mkBlocks]; omega)⟩
          unfold Table.moveCtorAlloc; dsimp only; rw [if_neg ha, if_pos h0]
        · rw [if_neg h0]
          obtain ⟨t1, g1, g2, g3⟩ := reserve_spec hs0 x.size
          obtain ⟨l, i1, i2, i3, i4⟩ := iterate_spec hx
          have hc1 : t1.contents = [] := by have := g2.perm; rw [hc0] at this; exact this.eq_nil
          have hf1 : t1.fns = x.fns := g2.fns
          refine (reserveX_sat may hs0 x.size e2).bind ?_ ?_
          · intro e3 t1' ht l3
            rw [g1] at ht; cases ht
            rw [i1]; dsimp only
            have l03 := l02.trans l3 rfl rfl
            apply Out.Sat.bind
            apply Out.Sat.onThrow
            have hsz : t1.size = 0 := g2.size
            refine (fillX_empty may .moveCtor (u := u) (front := true) g2.inv (by rw [hf1]; exact hl) hc1
              (by rw [hf1]; exact i4 u hl hsh) (fun _ => g3 (by omega)) (Or.inl rfl) e3).mono ?_ ?_
            · rintro e' t' ⟨B, r1, rfl, r2⟩
              refine ⟨?_, l03.trans r2 ?_ ?_⟩
              · unfold Table.moveCtorAlloc; dsimp only; rw [if_neg ha, if_neg h0, g1, i1]; dsimp only
                have r1' : Table.fillFront t1.fns l t1.b = some B := r1
                rw [r1']
              · rw [movedFrom_size]; dsimp only; rw [hsz]; omega
              · rw [movedFrom_blocks, mkBlocks]; dsimp only; omega
            · rintro e' t' ⟨ys, zs, r1, r2, r3, r4⟩
              refine ⟨_, _, by rw [destroyX_eq r3.inv]; rfl, Or.inr ⟨rfl, ha⟩, ?_⟩
              refine (l03.trans r4 rfl rfl).trans (led_destroy e' _ _) ?_ ?_
              · rw [hsz]; simp
              · rw [mkBlocks]; omega
          · intro e3 t' h
            have hinv : SInv t' := by obtain ⟨_, h1, _⟩ := h; exact h1.inv
            refine ⟨_, _, by rw [destroyX_eq hinv]; rfl, Or.inl rfl, ?_⟩
            refine (l02.trans h.bal rfl rfl).trans (led_destroy e3 _ _) ?_ ?_
            · simp
            · rw [mkBlocks]; omega
    · intro _ _ e2 l2; exact ⟨Or.inl rfl, l1.trans l2 (by omega) (by omega)⟩
  · intro _ e1 l1; exact ⟨Or.inl rfl, l1⟩

/-! ### assignment -/

/-- a container that has its old function objects and allocator, and may have lost elements -/
structure TKept (may : Call → Bool) (t : Table K V) (lost : List (K × V)) (t' : Table K V) : Prop where
  inv : SInv t'
  fns : t'.fns = t.fns
  al : t'.al = t.al
  perm : t.contents.Perm (lost ++ t'.contents)
  shape : ∀ u f, FLawful f → Shape u f t.b → Shape u f t'.b
  safe : may .hash = false → lost = []

/-- What a copy assignment that throws leaves in the target: its old self, possibly with lost elements, or some of the elements
of the source together with its function objects. -/
def Assigned (may : Call → Bool) (u : Bool) (al : Nat) (t x t' : Table K V) : Prop :=
  (∃ lost, TKept may t lost t') ∨ ∃ ys zs, x.contents.Perm (ys ++ zs) ∧ Filled u x.fns al x.mlf ys t'

theorem TKept.refl {may : Call → Bool} {t : Table K V} (hs : SInv t) : TKept may t [] t :=
  ⟨hs, rfl, rfl, List.Perm.refl _, fun _ _ _ h => h, fun _ => rfl⟩

theorem TKept.of_lost {may : Call → Bool} {t t' : Table K V} {m : Option Nat} {ml : Nat} {e e' : Env}
    (h : Lost may e { t with mlf := m, maxLoad := ml } e' t') : ∃ lost, TKept may t lost t' := by
  obtain ⟨l, h1, h2, h3⟩ := h
  refine ⟨l, h1.inv, h1.fns, h1.al, h1.perm, h1.shape, ?_⟩
  intro hh
  have := h1.size
  rw [h3 hh] at this
  exact List.eq_nil_of_length_eq_zero (by dsimp only at this; omega)

theorem Bal.congr {e e' : Env} {t t0 t' : Table K V} (h : Bal e t0 e' t') (h1 : t0.size = t.size) (h2 : t0.b.size = t.b.size) :
    Bal e t e' t' := by
  have hb : t0.blocks = t.blocks := by unfold Table.blocks; rw [h2]
  exact Led.congr h (by rw [h1]) (by rw [hb])

theorem Bal.congr' {e e' : Env} {t t0 t' : Table K V} (h : Bal e t e' t0) (h1 : t0.size = t'.size) (h2 : t0.b.size = t'.b.size) :
    Bal e t e' t' := by
  have hb : t0.blocks = t'.blocks := by unfold Table.blocks; rw [h2]
  exact Led.congr h (by rw [h1]) (by rw [hb])

theorem assignSameX_sat (may : Call → Bool) {u : Bool} {t x : Table K V} (hs : SInv t) (hx : SInv x) (hl : FLawful x.fns)
    (hsh : Shape u x.fns x.b) (e : Env) : (t.assignSameX may u x e).Sat
      (fun e' t' => t.assignSame u x = some t' ∧ Bal e t e' t')
      (fun e' t' => Assigned may u t.al t x t' ∧ Bal e t e' t') := by
  unfold Table.assignSameX
  apply Out.Sat.bind
  apply ask_sat
  · intro e1 l1
    have hs0 := setMaxLoad_sinv hs x.mlf
    obtain ⟨t1, g1, g2, g3⟩ := reserveForInsert_spec hs0 x.size
    refine (reserveForInsertX_sat may hs0 x.size e1).bind' ?_ ?_
    · intro e2 t1' ht l2
      rw [g1] at ht; cases ht
      obtain ⟨t2, xs, c1, c2, c3⟩ := clear_spec g2.inv
      apply Out.Sat.bind
      refine plainX_sat c1 e2 ?_
      intro e3 b3
      have hs2 : SInv ({ t2 with fns := x.fns } : Table K V) := ⟨c2.inv.wf, c2.inv.mal, c2.inv.len, c2.inv.ml⟩
      have b03 : Bal e t e3 { t2 with fns := x.fns } := by
        refine Bal.congr' (t0 := t2) ?_ rfl rfl
        refine Bal.trans (t1 := t1) ?_ b3
        exact (l1.trans l2 rfl rfl).congr (by rw [g2.size]; simp) (by show _ = 0 + (t1.blocks - t.blocks); omega)
      refine (copyBucketsX_sat may (u := u) hs2 c3 hx rfl hl hsh e3).mono ?_ ?_
      · rintro e' t' ⟨r1, r2⟩
        refine ⟨?_, b03.trans r2⟩
        unfold Table.assignSame
        dsimp only
        rw [g1]; dsimp only
        rw [c1]; exact r1
      · rintro e' t' ⟨ys, zs, r1, r2, r3⟩
        refine ⟨Or.inr ⟨ys, zs, r1, ?_⟩, b03.trans r3⟩
        have hal : t2.al = t.al := c2.al.trans g2.al
        have hm : t2.mlf = x.mlf := c2.mlf.trans g2.mlf
        have := r2
        dsimp only at this
        rw [hal, hm] at this
        exact this
    · intro e2 t' h
      exact ⟨Or.inl (TKept.of_lost h), Bal.step l1 (Bal.congr h.bal rfl rfl)⟩
  · intro _ e1 l1
    exact ⟨Or.inl ⟨_, .refl hs⟩, Bal.refl l1⟩

theorem assignPropX_sat (may : Call → Bool) {u : Bool} {t x : Table K V} (hs : SInv t) (hx : SInv x) (hl : FLawful x.fns)
    (hsh : Shape u x.fns x.b) (hal : t.al ≠ x.al) (hne : x.size ≠ 0) (e : Env) : (t.assignPropX may u x e).Sat
      (fun e' t' => Table.assign true u t x = some t' ∧ Bal e t e' t')
      (fun e' t' => Assigned may u x.al t x t' ∧ Bal e t e' t') := by
  unfold Table.assignPropX
  apply Out.Sat.bind
  apply newX_sat
  · intro e1 l1
    apply Out.Sat.bind
    apply Out.Sat.onThrow
    have hs0 := fresh_sinv x.fns x.al x.size x.mlf (V := V)
    apply ask_sat
    · intro e2 l2
      have hs1 : SInv ({ t with fns := x.fns } : Table K V) := ⟨hs.wf, hs.mal, hs.len, hs.ml⟩
      apply Out.Sat.bind
      refine plainX_sat (deleteBuckets_spec hs1) e2 ?_
      intro e3 b3
      dsimp only
      have hbz : (Gba.new x.size x.al : Gba (K × V)).size ≠ 0 := by
        rw [Gba.new_size]; exact le_bucketCountFor_pos (Nat.pos_of_ne_zero hne)
      have hs2 : SInv ({ fns := x.fns, al := x.al, size := 0, mlf := x.mlf, maxLoad := t.maxLoad, b := Gba.new x.size x.al } : Table K V) :=
        ⟨hs0.wf, hs0.mal, hs0.len, fun h => absurd h hbz⟩
      have hc2 : ({ fns := x.fns, al := x.al, size := 0, mlf := x.mlf, maxLoad := t.maxLoad, b := Gba.new x.size x.al } : Table K V).contents = [] :=
        Gba.new_contents _ _
      have b03 : Bal e t e3 { fns := x.fns, al := x.al, size := 0, mlf := x.mlf, maxLoad := t.maxLoad, b := Gba.new x.size x.al } := by
        refine ((l1.trans l2 rfl rfl).trans b3 rfl rfl).congr ?_ ?_
        · simp
        · rw [mkBlocks]; show _ = _ + (0 - t.blocks); omega
      obtain ⟨t1, g1, g2, g3⟩ := reserve_spec hs2 x.size
      have hc1 : t1.contents = [] := by have := g2.perm; rw [hc2] at this; exact this.eq_nil
      refine (reserveX_sat may hs2 x.size e3).bind' ?_ ?_
      · intro e4 t1' ht l4
        rw [g1] at ht; cases ht
        rw [if_pos hne]
        have b04 : Bal e t e4 t1 := b03.trans (l4.congr (by rw [g2.size]; simp) rfl)
        refine (copyBucketsX_sat may (u := u) g2.inv hc1 hx g2.fns hl hsh e4).mono ?_ ?_
        · rintro e' t' ⟨r1, r2⟩
          refine ⟨?_, b04.trans r2⟩
          unfold Table.assign
          rw [if_pos ⟨rfl, hal⟩]
          dsimp only
          rw [deleteBuckets_spec hs1]; dsimp only
          rw [g1]; dsimp only
          rw [if_pos hne]; exact r1
        · rintro e' t' ⟨ys, zs, r1, r2, r3⟩
          refine ⟨Or.inr ⟨ys, zs, r1, ?_⟩, b04.trans r3⟩
          have := r2
          rw [g2.al, g2.mlf] at this
          exact this
      · intro e4 t' h
        have hF := Filled.of_lost (u := u) h hc2
        exact ⟨Or.inr ⟨[], x.contents, List.Perm.refl _, hF⟩, b03.trans h.bal⟩
    · intro _ e2 l2
      obtain ⟨e3, d1, d2⟩ := deallocX_eq hs0.dealloc e2
      dsimp only at d1
      rw [d1]
      refine ⟨_, _, rfl, Or.inl ⟨_, .refl hs⟩, Bal.refl ?_⟩
      exact ((l1.trans l2 rfl rfl).trans d2 (by omega) (by dsimp only; omega))
  · intro _ _ e1 l1
    exact ⟨Or.inl ⟨_, .refl hs⟩, Bal.refl l1⟩

theorem assignX_sat (may : Call → Bool) {u pocca : Bool} {t x : Table K V} (hs : SInv t) (hx : SInv x) (hl : FLawful x.fns)
    (hsh : Shape u x.fns x.b) (hne : ¬ (pocca = true ∧ t.al ≠ x.al ∧ x.size = 0)) (e : Env) : (Table.assignX may pocca u t x e).Sat
      (fun e' t' => Table.assign pocca u t x = some t' ∧ Bal e t e' t')
      (fun e' t' => Assigned may u (if pocca then x.al else t.al) t x t' ∧ Bal e t e' t') := by
  unfold Table.assignX
  by_cases h : pocca = true ∧ t.al ≠ x.al
  · rw [if_pos h]
    obtain ⟨rfl, h2⟩ := h
    rw [if_pos rfl]
    exact assignPropX_sat may hs hx hl hsh h2 (fun h0 => hne ⟨rfl, h2, h0⟩) e
  · rw [if_neg h]
    have hal : (if pocca then x.al else t.al) = t.al := by
      cases pocca with
      | false => rfl
      | true => simp at h; simp [h]
    rw [hal]
    refine (assignSameX_sat may hs hx hl hsh e).mono ?_ (fun _ _ h => h)
    rintro e' t' ⟨r1, r2⟩
    refine ⟨?_, r2⟩
    unfold Table.assign
    rw [if_neg h]; exact r1

theorem moveAssignX_sat (may : Call → Bool) {u pocma : Bool} {t x : Table K V} (hs : SInv t) (hx : SInv x) (hl : FLawful x.fns)
    (hsh : Shape u x.fns x.b) (mv : K × V → K × V) (e : Env) : (Table.moveAssignX may pocma u mv t x e).Sat
      (fun e' s => Table.moveAssign pocma u mv t x = some s ∧
        Led e e' ((s.1.size : Int) + s.2.size - t.size - x.size) (s.1.blocks + s.2.blocks - t.blocks - x.blocks))
      (fun e' s => Led e e' ((s.1.size : Int) + s.2.size - t.size - x.size) (s.1.blocks + s.2.blocks - t.blocks - x.blocks) ∧
        ((s.2 = x ∧ ∃ lost, TKept may t lost s.1) ∨ (s.2 = x.movedFrom mv ∧ pocma = false ∧ t.al ≠ x.al ∧
          ∃ ys zs, x.contents.Perm (ys ++ zs) ∧ Filled u x.fns t.al x.mlf ys s.1))) := by
  unfold Table.moveAssignX
  by_cases h : pocma = true ∨ t.al = x.al
  · rw [if_pos h]
    unfold Table.moveAssignEqX
    apply Out.Sat.bind
    apply ask_sat
    · intro e1 l1
      have hs1 : SInv ({ t with fns := x.fns } : Table K V) := ⟨hs.wf, hs.mal, hs.len, hs.ml⟩
      apply Out.Sat.bind
      refine plainX_sat (deleteBuckets_spec hs1) e1 ?_
      intro e2 b2
      dsimp only
      have hn : (Gba.null x.al : Gba (K × V)).dealloc x.al = some () := by unfold Gba.dealloc; rfl
      have hm : ({ fns := x.fns, al := x.al, size := 0, mlf := x.mlf, maxLoad := t.maxLoad, b := Gba.null x.al } : Table K V).moveBucketsFrom x =
          some ({ fns := x.fns, al := x.al, size := x.size, mlf := x.mlf, maxLoad := x.maxLoad, b := x.b },
            { x with size := 0, maxLoad := 0, b := Gba.null x.al }) := by
        unfold Table.moveBucketsFrom; rw [hn]
      refine ofOpt_sat hm ⟨?_, (l1.trans b2 rfl rfl).congr ?_ ?_⟩
      · unfold Table.moveAssign
        rw [if_pos h, deleteBuckets_spec hs1]; exact hm
      · simp
      · show x.blocks + 0 - t.blocks - x.blocks = 0 + (0 - t.blocks); omega
    · intro _ e1 l1
      exact ⟨l1.congr (by dsimp only; omega) (by dsimp only; omega), Or.inl ⟨rfl, _, .refl hs⟩⟩
  · rw [if_neg h]
    have hpo : pocma = false := by
      cases pocma with
      | false => rfl
      | true => exact absurd (Or.inl rfl) h
    have hal : t.al ≠ x.al := fun hh => h (Or.inr hh)
    unfold Table.moveAssignReallocX
    apply Out.Sat.bind
    apply ask_sat
    · intro e1 l1
      dsimp only
      have hs0 := setMaxLoad_sinv hs x.mlf
      obtain ⟨l, i1, i2, i3, i4⟩ := iterate_spec hx
      have rest : ∀ (t1 : Table K V) (e2 : Env),
          (if 0 < x.size then ({ t with mlf := x.mlf, maxLoad := maxLoadFor x.mlf t.bucketCount } : Table K V).reserveForInsert x.size
            else some { t with mlf := x.mlf, maxLoad := maxLoadFor x.mlf t.bucketCount }) = some t1 →
          Kept { t with mlf := x.mlf, maxLoad := maxLoadFor x.mlf t.bucketCount } t1 → (0 < x.size → t1.b.size ≠ 0) →
          Bal e t e2 t1 →
          ((Table.plainX t1 t1.clear e2).bind fun e t2 =>
            match x.iterate with
            | none => .bad
            | some l =>
              ((Table.fillX may .moveAssign u l { t2 with fns := x.fns } e).onThrow
                (fun e t' => some (e, (t', Table.movedFrom mv x)))).bind fun e t3 => .done e (t3, Table.movedFrom mv x)).Sat
            (fun e' s => Table.moveAssign pocma u mv t x = some s ∧
              Led e e' ((s.1.size : Int) + s.2.size - t.size - x.size) (s.1.blocks + s.2.blocks - t.blocks - x.blocks))
            (fun e' s => Led e e' ((s.1.size : Int) + s.2.size - t.size - x.size) (s.1.blocks + s.2.blocks - t.blocks - x.blocks) ∧
        ((s.2 = x ∧ ∃ lost, TKept may t lost s.1) ∨ (s.2 = x.movedFrom mv ∧ pocma = false ∧ t.al ≠ x.al ∧
          ∃ ys zs, x.contents.Perm (ys ++ zs) ∧ Filled u x.fns t.al x.mlf ys s.1))) := by
        intro t1 e2 g1 g2 g3 b2
        obtain ⟨t2, xs, c1, c2, c3⟩ := clear_spec g2.inv
        apply Out.Sat.bind
        refine plainX_sat c1 e2 ?_
        intro e3 b3
        rw [i1]; dsimp only
        have hs2 : SInv ({ t2 with fns := x.fns } : Table K V) := ⟨c2.inv.wf, c2.inv.mal, c2.inv.len, c2.inv.ml⟩
        have b03 : Bal e t e3 { t2 with fns := x.fns } := Bal.congr' (b2.trans b3) rfl rfl
        apply Out.Sat.bind
        apply Out.Sat.onThrow
        refine (fillX_empty may .moveAssign (u := u) (front := u) hs2 hl c3 (i4 u hl hsh)
          (fun hne => by show t2.b.size ≠ 0; rw [c2.bsize]; apply g3; rw [← i3]; exact List.length_pos_iff.mpr hne)
          (by cases u <;> simp) e3).mono ?_ ?_
        · rintro e' t' ⟨B, r1, rfl, r2⟩
          refine ⟨?_, Led.congr (b03.trans r2) ?_ ?_⟩
          · unfold Table.moveAssign
            rw [if_neg h]; dsimp only
            rw [g1]; dsimp only
            rw [c1, i1]; dsimp only
            have r1' : (if u = true then Table.fillFront x.fns l t2.b else Table.fillEquiv x.fns l t2.b) = some B := r1
            rw [r1']
          · rw [movedFrom_size]; dsimp only; omega
          · rw [movedFrom_blocks]; dsimp only; omega
        · rintro e' t' ⟨ys, zs, r1, r2, r3, r4⟩
          refine ⟨_, _, rfl, Led.congr (b03.trans r4) ?_ ?_, Or.inr ⟨rfl, hpo, hal, ys, zs, by rw [← r1]; exact i2.symm, ?_⟩⟩
          · rw [movedFrom_size]; dsimp only; omega
          · rw [movedFrom_blocks]; dsimp only; omega
          · have hal : t2.al = t.al := c2.al.trans g2.al
            have hm : t2.mlf = x.mlf := c2.mlf.trans g2.mlf
            have := r3
            dsimp only at this
            rw [hal, hm] at this
            exact this
      by_cases h0 : 0 < x.size
      · obtain ⟨t1, g1, g2, g3⟩ := reserveForInsert_spec hs0 x.size
        rw [if_pos h0]
        refine (reserveForInsertX_sat may hs0 x.size e1).bind ?_ ?_
        · intro e2 t1' ht l2
          rw [g1] at ht; cases ht
          refine rest t1 e2 (by rw [if_pos h0]; exact g1) g2 g3 ?_
          exact (l1.trans l2 rfl rfl).congr (by rw [g2.size]; simp) (by show _ = 0 + (t1.blocks - t.blocks); omega)
        · intro e2 t' hlost
          refine ⟨_, _, rfl, ?_, Or.inl ⟨rfl, TKept.of_lost hlost⟩⟩
          have : Bal e t e2 t' := Bal.step l1 (Bal.congr hlost.bal rfl rfl)
          exact Led.congr this (by dsimp only; omega) (by dsimp only; omega)
      · rw [if_neg h0]
        exact rest _ e1 (by rw [if_neg h0]) (Kept.refl hs0) (fun e => absurd e h0) (Bal.congr' (Bal.refl l1) rfl rfl)
    · intro _ e1 l1
      exact ⟨l1.congr (by dsimp only; omega) (by dsimp only; omega), Or.inl ⟨rfl, _, .refl hs⟩⟩

theorem swapX_sat (may : Call → Bool) {pocs : Bool} {t o : Table K V} {s' : Table K V × Table K V} (h : Table.swap pocs t o = some s')
    (e : Env) : (Table.swapX may pocs t o e).Sat (fun e' s => s = s' ∧ Led e e' 0 0) (fun e' s => s = (t, o) ∧ Led e e' 0 0) := by
  unfold Table.swapX
  apply Out.Sat.bind
  apply ask_sat
  · intro e1 l1
    apply Out.Sat.bind
    apply ask_sat
    · intro e2 l2
      exact ofOpt_sat h ⟨rfl, l1.trans l2 (by omega) (by omega)⟩
    · intro _ e2 l2; exact ⟨rfl, l1.trans l2 (by omega) (by omega)⟩
  · intro _ e1 l1; exact ⟨rfl, l1⟩

/-! ### comparison -/

theorem equalsLoopX_sat {σ : Type} (may : Call → Bool) (veq : K × V → K × V → Bool) (o : Table K V) (s : σ) :
    ∀ (l : List (K × V)) (b : Bool) (e : Env), Table.equalsLoop veq o l = some b →
    (Table.equalsLoopX may veq o s l e).Sat (fun e' b' => b' = b ∧ Led e e' 0 0) (fun e' s' => s' = s ∧ Led e e' 0 0) := by
  intro l
  induction l with
  | nil => intro b e h; cases h; exact ⟨rfl, Led.refl e⟩
  | cons x xs ih =>
    intro b e h
    unfold Table.equalsLoop at h
    unfold Table.equalsLoopX
    apply Out.Sat.bind
    cases hf : o.findNode x.1 with
    | none => rw [hf] at h; cases h
    | some r =>
      refine findNodeX_sat may hf s e ?_ (fun e1 l1 => ⟨rfl, l1⟩)
      intro e1 l1
      rw [hf] at h
      cases r with
      | none => cases h; exact ⟨rfl, l1⟩
      | some it =>
        dsimp only at h ⊢
        cases hd : o.b.deref it with
        | none => rw [hd] at h; cases h
        | some y =>
          rw [hd] at h; dsimp only at h ⊢
          apply Out.Sat.bind
          apply ask_sat
          · intro e2 l2
            by_cases hv : veq x y = true
            · rw [if_pos hv] at h ⊢
              refine (ih b e2 h).mono ?_ ?_
              · rintro e' _ ⟨rfl, l3⟩; exact ⟨rfl, (l1.trans l2 rfl rfl).trans l3 (by omega) (by omega)⟩
              · rintro e' _ ⟨rfl, l3⟩; exact ⟨rfl, (l1.trans l2 rfl rfl).trans l3 (by omega) (by omega)⟩
            · rw [if_neg hv] at h ⊢
              cases h; exact ⟨rfl, l1.trans l2 (by omega) (by omega)⟩
          · intro _ e2 l2; exact ⟨rfl, l1.trans l2 (by omega) (by omega)⟩

theorem equalsUniqueX_sat {σ : Type} (may : Call → Bool) (veq : K × V → K × V → Bool) {t o : Table K V} (s : σ) {b : Bool}
    (h : Table.equalsUnique veq t o = some b) (e : Env) :
    (Table.equalsUniqueX may veq t o s e).Sat (fun e' b' => b' = b ∧ Led e e' 0 0) (fun e' s' => s' = s ∧ Led e e' 0 0) := by
  unfold Table.equalsUnique at h
  unfold Table.equalsUniqueX
  by_cases h0 : t.size ≠ o.size
  · rw [if_pos h0] at h ⊢; cases h; exact ⟨rfl, Led.refl e⟩
  · rw [if_neg h0] at h ⊢
    cases hi : t.iterate with
    | none => rw [hi] at h; cases h
    | some l => rw [hi] at h; exact equalsLoopX_sat may veq o s l b e h

theorem equalsEquivLoopX_sat {σ : Type} (may : Call → Bool) (veq : K × V → K × V → Bool) (t o : Table K V) (s : σ) :
    ∀ (f : Nat) (it : It) (b : Bool) (e : Env), Table.equalsEquivLoop veq t o f it = some b →
    (Table.equalsEquivLoopX may veq t o s f it e).Sat (fun e' b' => b' = b ∧ Led e e' 0 0) (fun e' s' => s' = s ∧ Led e e' 0 0) := by
  intro f
  induction f with
  | zero =>
    intro it b e h
    cases it with
    | none => simp only [Table.equalsEquivLoop] at h; cases h; simp only [Table.equalsEquivLoopX]; exact ⟨rfl, Led.refl e⟩
    | some q => simp only [Table.equalsEquivLoop] at h; cases h
  | succ f ih =>
    intro it b e h
    cases it with
    | none => simp only [Table.equalsEquivLoop] at h; cases h; simp only [Table.equalsEquivLoopX]; exact ⟨rfl, Led.refl e⟩
    | some q =>
      simp only [Table.equalsEquivLoop] at h
      simp only [Table.equalsEquivLoopX]
      cases hd : t.b.deref q with
      | none => rw [hd] at h; cases h
      | some x =>
        rw [hd] at h; dsimp only at h ⊢
        apply Out.Sat.bind
        cases hf : o.find x.1 with
        | none => rw [hf] at h; cases h
        | some r =>
          refine findX_sat may hf s e ?_ (fun e1 l1 => ⟨rfl, l1⟩)
          intro e1 l1
          rw [hf] at h
          cases r with
          | none => cases h; exact ⟨rfl, l1⟩
          | some n2 =>
            dsimp only at h ⊢
            cases h1 : t.nextGroup x.1 t.size (some q) with
            | none => rw [h1] at h; cases h
            | some g1 =>
              cases h2 : o.nextGroup x.1 o.size (some n2) with
              | none => rw [h1, h2] at h; cases h
              | some g2 =>
                rw [h1, h2] at h; dsimp only at h
                apply Out.Sat.bind
                refine (nextGroupX_sat may t x.1 s t.size (some q) e1 g1 h1).mono ?_ ?_
                · rintro e2 r1 ⟨hr1, l2⟩
                  subst r1
                  apply Out.Sat.bind
                  refine (nextGroupX_sat may o x.1 s o.size (some n2) e2 g2 h2).mono ?_ ?_
                  · rintro e3 r2 ⟨hr2, l3⟩
                    subst r2
                    have l03 : Led e e3 0 0 := (l1.trans l2 rfl rfl).trans l3 (by omega) (by omega)
                    apply Out.Sat.bind
                    apply ask_sat
                    · intro e4 l4
                      have l04 : Led e e4 0 0 := l03.trans l4 (by omega) (by omega)
                      cases hg : Table.groupEquals veq g1.1 g2.1 with
                      | none => rw [hg] at h; cases h
                      | some r =>
                        rw [hg] at h
                        cases r with
                        | false => cases h; exact ⟨rfl, l04⟩
                        | true =>
                          refine (ih g1.2 b e4 h).mono ?_ ?_
                          · rintro e' _ ⟨rfl, l5⟩; exact ⟨rfl, l04.trans l5 (by omega) (by omega)⟩
                          · rintro e' _ ⟨rfl, l5⟩; exact ⟨rfl, l04.trans l5 (by omega) (by omega)⟩
                    · intro _ e4 l4; exact ⟨rfl, l03.trans l4 (by omega) (by omega)⟩
                  · rintro e' _ ⟨rfl, l3⟩; exact ⟨rfl, (l1.trans l2 rfl rfl).trans l3 (by omega) (by omega)⟩
                · rintro e' _ ⟨rfl, l2⟩; exact ⟨rfl, l1.trans l2 (by omega) (by omega)⟩

theorem equalsEquivX_sat {σ : Type} (may : Call → Bool) (veq : K × V → K × V → Bool) {t o : Table K V} (s : σ) {b : Bool}
    (h : Table.equalsEquiv veq t o = some b) (e : Env) :
    (Table.equalsEquivX may veq t o s e).Sat (fun e' b' => b' = b ∧ Led e e' 0 0) (fun e' s' => s' = s ∧ Led e e' 0 0) := by
  unfold Table.equalsEquiv at h
  unfold Table.equalsEquivX
  by_cases h0 : t.size ≠ o.size
  · rw [if_pos h0] at h ⊢; cases h; exact ⟨rfl, Led.refl e⟩
  · rw [if_neg h0] at h ⊢
    cases hi : t.begin_ with
    | none => rw [hi] at h; cases h
    | some it => rw [hi] at h; exact equalsEquivLoopX_sat may veq t o s t.size it b e h

end Fca

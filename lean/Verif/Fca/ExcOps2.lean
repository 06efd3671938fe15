/-
Throwing executions of the closed-addressing containers: containers with equivalent keys.
-/
import Verif.Fca.ExcOps
import Verif.Fca.LoadInv

namespace Fca
variable {K V : Type}

theorem withNode_blocks {t1 : Table K V} {b : Gba (K × V)} (h : b.size = t1.b.size) (n : Nat) :
    ({ t1 with b := b, size := n } : Table K V).blocks = t1.blocks := insertNode_blocks h

theorem emplaceEquivTail_blocks {t t1 : Table K V} {x : K × V} {hint : Option Nat} {r : Table K V × (BIt × Nat)}
    (h : t.emplaceEquivTail x hint t1 = some r) : r.1.blocks = t1.blocks := by
  unfold Table.emplaceEquivTail at h
  dsimp only at h
  split at h
  · cases h
  · split at h
    · cases h
    · rename_i hb; cases h; exact insertNode_blocks (Gba.insertNodeHint_size hb)

theorem emplaceHintEquivTail_blocks {t t1 : Table K V} {x : K × V} {p : BIt × Nat} {r : Table K V × (BIt × Nat)}
    (h : t.emplaceHintEquivTail p x t1 = some r) : r.1.blocks = t1.blocks := by
  unfold Table.emplaceHintEquivTail at h
  dsimp only at h
  split at h
  · split at h
    · split at h
      · split at h
        · cases h
        · rename_i hb; cases h; exact insertNode_blocks (Gba.insertNodeHint_size hb)
      · cases h
    · cases h
  · split at h
    · cases h
    · rename_i hb; cases h; exact insertNode_blocks (Gba.insertNodeHint_size hb)

/-- `emplace_equiv` in two parts -/
theorem emplaceEquiv_eq {t t1 : Table K V} {x : K × V} {hint : Option Nat}
    (h1 : t.findImpl x.1 (t.bucketFor (t.fns.hash x.1)) = some hint) (h2 : t.growForOne = some t1) :
    t.emplaceEquiv x = t.emplaceEquivTail x hint t1 := by
  unfold Table.emplaceEquiv Table.emplaceEquivTail
  simp only [h1, h2]
  cases t1.b.get (t1.bucketFor (t.fns.hash x.1)) with
  | none => rfl
  | some l => cases hint <;> rfl

theorem findImpl_some {t : Table K V} (hs : SInv t) (hl : FLawful t.fns) (hp : Placed t.fns t.b) (k : K) :
    ∃ r, t.findImpl k (t.bucketFor (t.fns.hash k)) = some r := by
  rcases findImpl_spec hs hl hp k with ⟨h1, _⟩ | ⟨i, y, h1, _⟩
  · exact ⟨_, h1⟩
  · exact ⟨_, h1⟩

theorem emplaceEquivBodyX_sat (may : Call → Bool) {t : Table K V} (hs : SInv t) (hl : FLawful t.fns)
    (hsh : Shape false t.fns t.b) (x : K × V) {e0 e : Env} (h0 : Led e0 e 1 0) :
    (t.emplaceEquivBodyX may x e).Sat (fun e' r => t.emplaceEquiv x = some r ∧ Bal e0 t e' r.1) (Lost may e0 t) := by
  unfold Table.emplaceEquivBodyX
  apply Out.Sat.bind
  apply Out.Sat.onThrow
  obtain ⟨hint, h1⟩ := findImpl_some hs hl hsh.1 x.1
  refine hashFind_sat may h1 t e ?_ (fun e1 l1 => ⟨_, _, rfl, Lost.drop h0 (Lost.refl hs l1)⟩)
  intro e1 l1
  obtain ⟨t1, g1, g2, g3⟩ := growForOne_spec hs
  obtain ⟨t', q, k1, k2, k3, k4⟩ := emplaceEquiv_spec hs hl hsh x
  have l01 : Led e0 e1 1 0 := h0.trans l1 (by omega) (by omega)
  refine (growForOneX_sat may hs e1).bind ?_ (fun e2 t' h => ⟨_, _, rfl, h.drop l01⟩)
  intro e2 t1' ht l2
  rw [g1] at ht; cases ht
  have ht := emplaceEquiv_eq h1 g1
  rw [k1] at ht
  refine ofOpt_sat ht.symm ⟨k1, l01.trans l2 ?_ ?_⟩
  · rw [k2.size]; omega
  · rw [show t'.blocks = t1.blocks from emplaceEquivTail_blocks ht.symm]; omega

theorem emplaceEquivX_sat (may : Call → Bool) {t : Table K V} (hs : SInv t) (hl : FLawful t.fns)
    (hsh : Shape false t.fns t.b) (x : K × V) (e : Env) :
    (t.emplaceEquivX may x e).Sat (fun e' r => t.emplaceEquiv x = some r ∧ Bal e t e' r.1) (Lost may e t) := by
  unfold Table.emplaceEquivX
  apply Out.Sat.bind
  exact newNode_sat may t e (fun e1 l1 => emplaceEquivBodyX_sat may hs hl hsh x l1) (fun e1 l1 => Lost.refl hs l1)

theorem emplaceHintEquiv_eq {t t1 : Table K V} {p : BIt × Nat} {x y : K × V} (h1 : t.b.deref p = some y)
    (h2 : t.fns.eq x.1 y.1 = true) (h3 : t.growForOne = some t1) :
    t.emplaceHintEquiv (some p) x = t.emplaceHintEquivTail p x t1 := by
  unfold Table.emplaceHintEquiv Table.emplaceHintEquivTail
  simp only [h1, h2, h3, if_true]
  rfl

theorem emplaceHintEquivX_sat (may : Call → Bool) {t : Table K V} (hs : SInv t) (hl : FLawful t.fns)
    (hsh : Shape false t.fns t.b) (hint : It) (hh : ∀ q, hint = some q → ∃ e, Node t.b q e) (x : K × V) (e : Env) :
    (t.emplaceHintEquivX may hint x e).Sat (fun e' r => t.emplaceHintEquiv hint x = some r ∧ Bal e t e' r.1)
      (Lost may e t) := by
  unfold Table.emplaceHintEquivX
  apply Out.Sat.bind
  refine newNode_sat may t e ?_ (fun e1 l1 => Lost.refl hs l1)
  intro e1 l1
  cases hint with
  | none => exact emplaceEquivBodyX_sat may hs hl hsh x l1
  | some p =>
    obtain ⟨y, hy⟩ := hh p rfl
    have hd := hy.deref' hs
    dsimp only
    rw [hd]; dsimp only
    apply Out.Sat.bind
    apply Out.Sat.onThrow
    apply ask_sat
    · intro e2 l2
      have l02 : Led e e2 1 0 := l1.trans l2 (by omega) (by omega)
      by_cases hq : t.fns.eq x.1 y.1 = true
      · rw [if_pos hq]
        have main : ∀ e3, Led e e3 1 0 → (((t.growForOneX may e3).onThrow dropNode).bind fun e t1 =>
            ofOpt (t.emplaceHintEquivTail p x t1) e).Sat
            (fun e' r => t.emplaceHintEquiv (some p) x = some r ∧ Bal e t e' r.1) (Lost may e t) := by
          intro e3 l03
          obtain ⟨t1, g1, g2, g3⟩ := growForOne_spec hs
          obtain ⟨t', q, k1, k2, k3, k4⟩ := emplaceHintEquiv_spec hs hl hsh x (some p) hh
          refine (growForOneX_sat may hs e3).bind ?_ (fun e2 t' h => ⟨_, _, rfl, h.drop l03⟩)
          intro e4 t1' ht l4
          rw [g1] at ht; cases ht
          have ht := emplaceHintEquiv_eq hd hq g1
          rw [k1] at ht
          refine ofOpt_sat ht.symm ⟨k1, l03.trans l4 ?_ ?_⟩
          · rw [k2.size]; omega
          · rw [show t'.blocks = t1.blocks from emplaceHintEquivTail_blocks ht.symm]; omega
        apply Out.Sat.bind
        apply Out.Sat.onThrow
        split
        · apply ask_sat
          · intro e3 l3; exact main e3 (l02.trans l3 (by omega) (by omega))
          · intro _ e3 l3; exact ⟨_, _, rfl, Lost.drop l02 (Lost.refl hs l3)⟩
        · exact main e2 l02
      · rw [if_neg hq]
        refine (emplaceEquivBodyX_sat may hs hl hsh x l02).mono ?_ (fun _ _ h => h)
        rintro e' r ⟨r1, r2⟩
        refine ⟨?_, r2⟩
        simp only [Table.emplaceHintEquiv, hd, hq]
        exact r1
    · intro _ e2 l2
      exact ⟨_, _, rfl, Lost.drop l1 (Lost.refl hs l2)⟩

theorem insertNodeEquivX_sat (may : Call → Bool) {t : Table K V} (hs : SInv t) (hl : FLawful t.fns)
    (hsh : Shape false t.fns t.b) (x : K × V) (e : Env) :
    (t.insertNodeEquivX may x e).Sat
      (fun e' r => t.insertNodeEquiv x = some r ∧ Led e e' 0 (r.1.blocks - t.blocks))
      (fun e' t' => Lost may e t e' t' ∨ (Kept t t' ∧ Bal e t e' t')) := by
  unfold Table.insertNodeEquivX
  obtain ⟨t1, g1, g2, g3⟩ := reserveForInsert_spec hs (t.size + 1)
  refine (reserveForInsertX_sat may hs (t.size + 1) e).bind' ?_ (fun e2 t' h => Or.inl h)
  intro e1 t1' ht l1
  rw [g1] at ht; cases ht
  have hl1 : FLawful t1.fns := by rw [g2.fns]; exact hl
  have hsh1 : Shape false t1.fns t1.b := by rw [g2.fns]; exact g2.shape _ hl hsh
  obtain ⟨hint, h1⟩ := findImpl_some g2.inv hl1 hsh1.1 x.1
  apply Out.Sat.bind
  refine hashFind_sat may h1 t1 e1 ?_ ?_
  · intro e2 l2
    obtain ⟨t', q, k1, k2, k3, k4⟩ := insertNodeEquiv_spec hs hl hsh x
    have k1' := k1
    unfold Table.insertNodeEquiv at k1
    simp only [g1, h1] at k1
    cases hb : t1.b.insertNodeHint (t1.bucketFor (t1.fns.hash x.1)) x hint with
    | none => rw [hb] at k1; cases k1
    | some b' =>
      rw [hb] at k1
      have l := l1.trans l2 rfl rfl
      simp only [Option.some.injEq] at k1
      cases hint with
      | none =>
        refine ⟨k1'.trans (by rw [← k1]), l.congr (by omega) ?_⟩
        rw [insertNode_blocks (Gba.insertNodeHint_size hb)]; omega
      | some i =>
        refine ⟨k1'.trans (by rw [← k1]), l.congr (by omega) ?_⟩
        rw [insertNode_blocks (Gba.insertNodeHint_size hb)]; omega
  · intro e2 l2
    exact Or.inr ⟨g2, (l1.trans l2 rfl rfl).congr (by rw [g2.size]; omega) (by omega)⟩

/-! ### filling loops -/

/-- the filling loop without exceptions -/
def fill (u : Bool) (f : Fns K) (xs : List (K × V)) (a : Gba (K × V)) : Option (Gba (K × V)) :=
  if u then Table.fillFront f xs a else Table.fillEquiv f xs a

theorem findImpl_eq {t : Table K V} (hb : t.b.size ≠ 0) (hp : ∀ h, t.b.position h < t.b.size) (k : K) {l : List (K × V)}
    (hg : t.b.get (t.bucketFor (t.fns.hash k)) = some l) :
    t.findImpl k (t.bucketFor (t.fns.hash k)) = some (l.findIdx? (fun e => t.fns.eq k e.1)) := by
  unfold Table.findImpl
  rw [if_neg, hg]
  rw [bucketFor_eq hb]
  exact Nat.ne_of_lt (hp _)

theorem prepX_sat (may : Call → Bool) (k : Table.Fill) (u : Bool) {t : Table K V} (x : K × V) {h : Option Nat}
    (hf : u = false → t.findImpl x.1 (t.bucketFor (t.fns.hash x.1)) = some h) (hu : u = true → h = none) (e : Env) :
    (Table.prepX may k u t x e).Sat (fun e' r => r = h ∧ Led e e' 1 0) (fun e' t' => t' = t ∧ Led e e' 0 0) := by
  have search : ∀ e1 (D : Env → Option Nat → Prop) (T : Env → Table K V → Prop), (∀ e2, Led e1 e2 0 0 → D e2 h) →
      (∀ e2, Led e1 e2 0 0 → T e2 t) →
      (if u then Out.done e1 none else t.findImplX may x.1 (t.bucketFor (t.fns.hash x.1)) t e1 : Out (Option Nat) (Table K V)).Sat D T := by
    intro e1 D T hd ht
    cases u with
    | true => rw [if_pos rfl]; have := hd e1 (Led.refl _); rw [hu rfl] at this; exact this
    | false => rw [if_neg (by simp)]; exact findImplX_sat may (hf rfl) t e1 hd ht
  unfold Table.prepX
  dsimp only
  have hashFirst : (((ask may .hash t e).bind fun e _ => (newNode may t e).bind fun e _ =>
      (if u then Out.done e none else t.findImplX may x.1 (t.bucketFor (t.fns.hash x.1)) t e : Out (Option Nat) (Table K V)).onThrow dropNode)).Sat
      (fun e' r => r = h ∧ Led e e' 1 0) (fun e' t' => t' = t ∧ Led e e' 0 0) := by
    apply Out.Sat.bind
    apply ask_sat
    · intro e1 l1
      apply Out.Sat.bind
      apply newNode_sat
      · intro e2 l2
        have l02 : Led e e2 1 0 := l1.trans l2 (by omega) (by omega)
        apply Out.Sat.onThrow
        apply search
        · intro e3 l3; exact ⟨rfl, l02.trans l3 (by omega) (by omega)⟩
        · intro e3 l3; exact ⟨_, _, rfl, rfl, (l02.trans l3 rfl rfl).trans (led_nodes e3 (-1)) (by omega) (by omega)⟩
      · intro e2 l2; exact ⟨rfl, l1.trans l2 (by omega) (by omega)⟩
    · intro _ e1 l1; exact ⟨rfl, l1⟩
  have nodeFirst : (((newNode may t e).bind fun e _ => ((ask may .hash t e).bind fun e _ =>
      (if u then Out.done e none else t.findImplX may x.1 (t.bucketFor (t.fns.hash x.1)) t e : Out (Option Nat) (Table K V))).onThrow dropNode)).Sat
      (fun e' r => r = h ∧ Led e e' 1 0) (fun e' t' => t' = t ∧ Led e e' 0 0) := by
    apply Out.Sat.bind
    apply newNode_sat
    · intro e1 l1
      apply Out.Sat.onThrow
      apply Out.Sat.bind
      apply ask_sat
      · intro e2 l2
        have l02 : Led e e2 1 0 := l1.trans l2 (by omega) (by omega)
        apply search
        · intro e3 l3; exact ⟨rfl, l02.trans l3 (by omega) (by omega)⟩
        · intro e3 l3; exact ⟨_, _, rfl, rfl, (l02.trans l3 rfl rfl).trans (led_nodes e3 (-1)) (by omega) (by omega)⟩
      · intro _ e2 l2; exact ⟨_, _, rfl, rfl, (l1.trans l2 rfl rfl).trans (led_nodes e2 (-1)) (by omega) (by omega)⟩
    · intro e1 l1; exact ⟨rfl, l1⟩
  cases k with
  | copy => exact hashFirst
  | range => exact nodeFirst
  | moveCtor => exact nodeFirst
  | moveAssign =>
    apply Out.Sat.bind
    apply ask_sat
    · intro e1 l1
      apply Out.Sat.bind
      apply ask_sat
      · intro e2 l2
        have l02 : Led e e2 0 0 := l1.trans l2 (by omega) (by omega)
        apply Out.Sat.bind
        apply search
        · intro e3 l3
          have l03 : Led e e3 0 0 := l02.trans l3 (by omega) (by omega)
          apply Out.Sat.bind
          apply newNode_sat
          · intro e4 l4; exact ⟨rfl, l03.trans l4 (by omega) (by omega)⟩
          · intro e4 l4; exact ⟨rfl, l03.trans l4 (by omega) (by omega)⟩
        · intro e3 l3; exact ⟨rfl, l02.trans l3 (by omega) (by omega)⟩
      · intro _ e2 l2; exact ⟨rfl, l1.trans l2 (by omega) (by omega)⟩
    · intro _ e1 l1; exact ⟨rfl, l1⟩

theorem position_insertNode {α : Type} {a a' : Gba α} (h : a'.si = a.si) (n : Nat) : a'.position n = a.position n := by
  unfold Gba.position; rw [h]

theorem append_si {α : Type} {a a' : Gba α} {it : BIt} (h : a.append it = some a') : a'.si = a.si := by
  unfold Gba.append at h
  split at h
  · cases h
  · cases h; rfl
  · split at h
    · cases h
    · dsimp only at h
      split at h
      · split at h
        · cases h
        · cases h; rfl
      · cases h; rfl

theorem insertNode_si {α : Type} {a a' : Gba α} {it : BIt} {x : α} (h : a.insertNode it x = some a') : a'.si = a.si := by
  unfold Gba.insertNode at h
  split at h
  · cases h
  · rename_i h1; cases h; have := append_si h1; exact this

theorem insertNodeHint_si {α : Type} {a a' : Gba α} {it : BIt} {x : α} {hint : Option Nat}
    (h : a.insertNodeHint it x hint = some a') : a'.si = a.si := by
  unfold Gba.insertNodeHint at h
  split at h
  · cases h
  · rename_i h1
    split at h
    · split at h
      · cases h; have := append_si h1; exact this
      · cases h
    · cases h; have := append_si h1; exact this

theorem fillX_sat (may : Call → Bool) (k : Table.Fill) (u : Bool) : ∀ (xs : List (K × V)) (t : Table K V) (e : Env) (B : Gba (K × V)),
    (xs ≠ [] → t.b.size ≠ 0 ∧ ∀ h, t.b.position h < t.b.size) → fill u t.fns xs t.b = some B →
    (Table.fillX may k u xs t e).Sat
      (fun e' t' => t' = { t with b := B, size := t.size + xs.length } ∧ Led e e' xs.length 0)
      (fun e' t' => ∃ ys zs b', xs = ys ++ zs ∧ zs ≠ [] ∧ fill u t.fns ys t.b = some b' ∧
        t' = { t with b := b', size := t.size + ys.length } ∧ Led e e' ys.length 0) := by
  intro xs
  induction xs with
  | nil =>
    intro t e B hb hB
    have : t.b = B := by unfold fill at hB; split at hB <;> · cases hB; rfl
    subst this
    exact ⟨rfl, Led.refl e⟩
  | cons x xs ih =>
    intro t e B hb hB
    obtain ⟨hb0, hp⟩ := hb (by simp)
    unfold Table.fillX
    apply Out.Sat.bind
    have nothing : ∀ e' t', t' = t ∧ Led e e' 0 0 → ∃ ys zs b', x :: xs = ys ++ zs ∧ zs ≠ [] ∧ fill u t.fns ys t.b = some b' ∧
        t' = { t with b := b', size := t.size + ys.length } ∧ Led e e' ys.length 0 := by
      rintro e' t' ⟨rfl, l⟩
      exact ⟨[], x :: xs, t'.b, rfl, by simp, by unfold fill; split <;> rfl, rfl, l⟩
    have next : ∀ (h : Option Nat) (b' : Gba (K × V)) (e1 : Env), b'.size = t.b.size → b'.si = t.b.si →
        (∀ ys, fill u t.fns (x :: ys) t.b = fill u t.fns ys b') → Led e e1 1 0 →
        (Table.fillX may k u xs { t with b := b', size := t.size + 1 } e1).Sat
          (fun e' t' => t' = { t with b := B, size := t.size + (x :: xs).length } ∧ Led e e' (x :: xs).length 0)
          (fun e' t' => ∃ ys zs b', x :: xs = ys ++ zs ∧ zs ≠ [] ∧ fill u t.fns ys t.b = some b' ∧
            t' = { t with b := b', size := t.size + ys.length } ∧ Led e e' ys.length 0) := by
      intro h b' e1 hs1 hs2 hfill l1
      refine (ih { t with b := b', size := t.size + 1 } e1 B ?_ ?_).mono ?_ ?_
      · intro _
        dsimp only
        rw [hs1]
        refine ⟨hb0, ?_⟩
        intro n; rw [position_insertNode hs2]; exact hp n
      · rw [hfill] at hB; exact hB
      · rintro e' t' ⟨rfl, l2⟩
        refine ⟨?_, l1.trans l2 (by simp; omega) (by omega)⟩
        dsimp only; congr 1; simp; omega
      · rintro e' t' ⟨ys, zs, b2, r1, r2, r3, rfl, l2⟩
        refine ⟨x :: ys, zs, b2, by rw [r1]; rfl, r2, by rw [hfill]; exact r3, ?_, l1.trans l2 (by simp; omega) (by omega)⟩
        dsimp only; congr 1; simp; omega
    cases u with
    | true =>
      refine (prepX_sat may k true x (h := none) (by simp) (by simp) e).mono ?_ nothing
      rintro e1 r ⟨rfl, l1⟩
      rw [if_pos rfl]
      have hB' : Table.fillFront t.fns (x :: xs) t.b = some B := hB
      unfold Table.fillFront at hB'
      cases hi : t.b.insertNode (t.b.at_ (t.b.position (t.fns.hash x.1))) x with
      | none => rw [hi] at hB'; cases hB'
      | some b' =>
        rw [show t.b.insertNode (t.bucketFor (t.fns.hash x.1)) x = some b' from hi]
        refine next none b' e1 (Gba.insertNode_size hi) (insertNode_si hi) ?_ l1
        intro ys
        show Table.fillFront t.fns (x :: ys) t.b = Table.fillFront t.fns ys b'
        rw [Table.fillFront, hi]
    | false =>
      have hB' : Table.fillEquiv t.fns (x :: xs) t.b = some B := hB
      unfold Table.fillEquiv at hB'
      dsimp only at hB'
      cases hg : t.b.get (t.b.at_ (t.b.position (t.fns.hash x.1))) with
      | none => rw [hg] at hB'; cases hB'
      | some l =>
        rw [hg] at hB'; dsimp only at hB'
        have hfi := findImpl_eq hb0 hp x.1 hg
        refine (prepX_sat may k false x (fun _ => hfi) (by simp) e).mono ?_ nothing
        rintro e1 r ⟨rfl, l1⟩
        rw [if_neg (by simp)]
        cases hi : t.b.insertNodeHint (t.b.at_ (t.b.position (t.fns.hash x.1))) x (l.findIdx? (fun e => t.fns.eq x.1 e.1)) with
        | none => rw [hi] at hB'; cases hB'
        | some b' =>
          rw [show t.b.insertNodeHint (t.bucketFor (t.fns.hash x.1)) x (l.findIdx? (fun e => t.fns.eq x.1 e.1)) = some b' from hi]
          refine next none b' e1 (Gba.insertNodeHint_size hi) (insertNodeHint_si hi) ?_ l1
          intro ys
          show Table.fillEquiv t.fns (x :: ys) t.b = Table.fillEquiv t.fns ys b'
          rw [Table.fillEquiv, hg]; dsimp only; rw [hi]

theorem WF.position_lt {α : Type} {a : Gba α} (h : a.WF) (hb : a.size ≠ 0) (n : Nat) : a.position n < a.size := by
  obtain ⟨L, hg⟩ := h.ginv hb
  exact Gba.position_lt hg n

/-- what a partial range insertion leaves -/
structure Grown (t : Table K V) (ys : List (K × V)) (t' : Table K V) : Prop where
  add : AddedAll t ys t'
  shape : Shape false t.fns t'.b

theorem insertRangeEquiv1X_sat (may : Call → Bool) : ∀ (xs : List (K × V)) {t : Table K V}, SInv t → FLawful t.fns →
    Shape false t.fns t.b → ∀ e, (Table.insertRangeEquiv1X may xs t e).Sat
      (fun e' t' => Table.insertRangeEquiv1 xs t = some t' ∧ Bal e t e' t')
      (fun e' t' => ∃ ys zs t1 e1, xs = ys ++ zs ∧ zs ≠ [] ∧ Grown t ys.reverse t1 ∧ Bal e t e1 t1 ∧ Lost may e1 t1 e' t') := by
  intro xs
  induction xs with
  | nil => intro t hs hl hsh e; exact ⟨rfl, Bal.refl (Led.refl e)⟩
  | cons x xs ih =>
    intro t hs hl hsh e
    unfold Table.insertRangeEquiv1X
    apply Out.Sat.bind
    refine (emplaceEquivX_sat may hs hl hsh x e).mono ?_ ?_
    · rintro e1 ⟨t1, q⟩ ⟨q1, q2⟩
      obtain ⟨t', q', k1, k2, k3, k4⟩ := emplaceEquiv_spec hs hl hsh x
      rw [q1] at k1; cases k1
      refine (ih k2.inv (by rw [k2.fns]; exact hl) (by rw [k2.fns]; exact k3) e1).mono ?_ ?_
      · rintro e' t' ⟨r1, r2⟩
        refine ⟨by unfold Table.insertRangeEquiv1; rw [q1]; exact r1, q2.trans r2⟩
      · rintro e' t' ⟨ys, zs, t2, e2, r1, r2, r3, r4, r5⟩
        refine ⟨x :: ys, zs, t2, e2, by rw [r1]; rfl, r2, ⟨?_, by have := r3.shape; rw [k2.fns] at this; exact this⟩, q2.trans r4, r5⟩
        have := k2.cons r3.add
        refine ⟨this.inv, this.fns, this.al, this.mlf, this.perm.trans ?_⟩
        rw [List.reverse_cons]
        exact List.Perm.append_right _ (List.perm_append_comm (l₁ := [x]))
    · intro e1 t1 h1
      exact ⟨[], x :: xs, t, e, rfl, by simp, ⟨AddedAll.nil hs, hsh⟩, Bal.refl (Led.refl e), h1⟩

theorem fillEquiv_grown {t t1 : Table K V} (hs : SInv t) (hl : FLawful t.fns) (hsh : Shape false t.fns t.b) (g2 : Kept t t1)
    (hb : t1.b.size ≠ 0) (ys : List (K × V)) :
    ∃ b', fill false t1.fns ys t1.b = some b' ∧ b'.size = t1.b.size ∧
      Grown t ys { t1 with b := b', size := t1.size + ys.length } := by
  obtain ⟨L, hg⟩ := g2.inv.wf.ginv hb
  obtain ⟨a', L', e1, e2, e3, e4, e5, e6, e7⟩ := fillEquiv_spec hl ys t1.b L hg (g2.shape _ hl hsh)
  have hp : a'.contents.Perm (ys ++ t.contents) := e7.trans (g2.perm.append_left ys)
  refine ⟨a', by unfold fill; rw [g2.fns]; exact e1, e3, ⟨⟨⟨Or.inr ⟨L', e2⟩, fun _ => e5.trans (g2.inv.mal hb), ?_,
    fun h => absurd (e3 ▸ h) hb⟩, g2.fns, g2.al, g2.mlf, hp⟩, e6⟩⟩
  show t1.size + ys.length = a'.contents.length
  rw [hp.length_eq, List.length_append, g2.size, hs.len]; omega

theorem insertRangeEquivX_sat (may : Call → Bool) (xs : List (K × V)) {t : Table K V} (hs : SInv t) (hl : FLawful t.fns)
    (hsh : Shape false t.fns t.b) (e : Env) : (Table.insertRangeEquivX may t xs e).Sat
      (fun e' t' => Table.insertRangeEquiv t xs = some t' ∧ Bal e t e' t')
      (fun e' t' => ∃ ys zs t1 e1, xs = ys ++ zs ∧ zs ≠ [] ∧ Grown t ys t1 ∧ Bal e t e1 t1 ∧ Lost may e1 t1 e' t') := by
  unfold Table.insertRangeEquivX
  split
  · exact ⟨rfl, Bal.refl (Led.refl e)⟩
  · rename_i x
    apply Out.Sat.bind
    refine (emplaceEquivX_sat may hs hl hsh x e).mono ?_ ?_
    · rintro e1 r ⟨q1, q2⟩
      exact ⟨by show (t.emplaceEquiv x).map Prod.fst = _; rw [q1]; rfl, q2⟩
    · intro e1 t1 h1
      exact ⟨[], [x], t, e, rfl, by simp, ⟨AddedAll.nil hs, hsh⟩, Bal.refl (Led.refl e), h1⟩
  · rename_i h1 h2
    have hne : 0 < xs.length := by
      cases xs with
      | nil => exact absurd rfl h1
      | cons _ _ => simp
    obtain ⟨t1, g1, g2, g3⟩ := reserveForInsert_spec hs (t.size + xs.length)
    refine (reserveForInsertX_sat may hs (t.size + xs.length) e).bind' ?_ ?_
    · intro e1 t1' ht l1
      rw [g1] at ht; cases ht
      have hb := g3 (by omega)
      obtain ⟨B, f1, f2, f3⟩ := fillEquiv_grown hs hl hsh g2 hb xs
      refine (fillX_sat may .range false xs t1 e1 B (fun _ => ⟨hb, WF.position_lt g2.inv.wf hb⟩) f1).mono ?_ ?_
      · rintro e' t' ⟨rfl, l2⟩
        refine ⟨?_, l1.trans l2 ?_ ?_⟩
        · unfold Table.insertRangeEquiv
          split
          · exact absurd rfl h1
          · exact absurd rfl (h2 _)
          · rw [g1]; dsimp only
            have : Table.fillEquiv t1.fns xs t1.b = some B := f1
            rw [this]; rfl
        · show ((t1.size + xs.length : Nat) : Int) - t.size = _
          rw [g2.size]; omega
        · rw [insertNode_blocks f2]; omega
      · rintro e' t' ⟨ys, zs, b', r1, r2, r3, rfl, l2⟩
        obtain ⟨B', f1', f2', f3'⟩ := fillEquiv_grown hs hl hsh g2 hb ys
        rw [r3] at f1'; cases f1'
        refine ⟨ys, zs, _, e', r1, r2, f3', l1.trans l2 ?_ ?_, Lost.refl f3'.add.inv (Led.refl e')⟩
        · show ((t1.size + ys.length : Nat) : Int) - t.size = _
          rw [g2.size]; omega
        · rw [insertNode_blocks f2']; omega
    · intro e1 t1 h
      exact ⟨[], xs, t, e, rfl, by intro h; rw [h] at hne; simp at hne, ⟨AddedAll.nil hs, hsh⟩, Bal.refl (Led.refl e), h⟩

/-! ### queries -/

theorem countRunX_sat {σ : Type} (may : Call → Bool) (s : σ) (p : K × V → Bool) : ∀ (l : List (K × V)) (found : Bool) (e : Env),
    (Table.countRunX may s p found l e).Sat (fun e' n => n = Table.countRun p found l ∧ Led e e' 0 0)
      (fun e' s' => s' = s ∧ Led e e' 0 0) := by
  intro l
  induction l with
  | nil => intro found e; exact ⟨rfl, Led.refl e⟩
  | cons x l ih =>
    intro found e
    unfold Table.countRunX
    apply Out.Sat.bind
    apply ask_sat
    · intro e1 l1
      unfold Table.countRun
      by_cases hp : p x = true
      · rw [if_pos hp, if_pos hp]
        apply Out.Sat.bind
        refine (ih true e1).mono ?_ ?_
        · rintro e' n ⟨rfl, l2⟩; exact ⟨rfl, l1.trans l2 (by omega) (by omega)⟩
        · rintro e' n ⟨rfl, l2⟩; exact ⟨rfl, l1.trans l2 (by omega) (by omega)⟩
      · rw [if_neg hp, if_neg hp]
        cases found with
        | true => exact ⟨rfl, l1⟩
        | false =>
          refine (ih false e1).mono ?_ ?_
          · rintro e' n ⟨rfl, l2⟩; exact ⟨rfl, l1.trans l2 (by omega) (by omega)⟩
          · rintro e' n ⟨rfl, l2⟩; exact ⟨rfl, l1.trans l2 (by omega) (by omega)⟩
    · intro _ e1 l1; exact ⟨rfl, l1⟩

theorem groupCountX_sat (may : Call → Bool) {t : Table K V} (hs : SInv t) (hl : FLawful t.fns) (hsh : Shape false t.fns t.b)
    (k : K) (e : Env) : (t.groupCountX may k e).Sat (fun e' n => t.groupCount k = some n ∧ Led e e' 0 0)
      (fun e' t' => t' = t ∧ Led e e' 0 0) := by
  unfold Table.groupCountX
  have hc := groupCount_spec hs hl hsh k
  by_cases h0 : t.size = 0
  · rw [if_pos h0]
    refine ⟨?_, Led.refl e⟩
    unfold Table.groupCount; rw [if_pos h0]
  · rw [if_neg h0]
    apply Out.Sat.bind
    apply ask_sat
    · intro e1 l1
      unfold Table.groupCount at hc ⊢
      rw [if_neg h0] at hc
      simp only [if_neg h0]
      cases hg : t.b.get (t.bucketFor (t.fns.hash k)) with
      | none => rw [hg] at hc; cases hc
      | some l =>
        refine (countRunX_sat may t _ l false e1).mono ?_ ?_
        · rintro e' n ⟨rfl, l2⟩
          exact ⟨rfl, l1.trans l2 (by omega) (by omega)⟩
        · rintro e' n ⟨rfl, l2⟩; exact ⟨rfl, l1.trans l2 (by omega) (by omega)⟩
    · intro _ e1 l1; exact ⟨rfl, l1⟩

theorem nextGroupX_sat {σ : Type} (may : Call → Bool) (t : Table K V) (k : K) (s : σ) : ∀ (f : Nat) (it : It) (e : Env)
    (r : List (K × V) × It), t.nextGroup k f it = some r →
    (t.nextGroupX may k s f it e).Sat (fun e' r' => r' = r ∧ Led e e' 0 0) (fun e' s' => s' = s ∧ Led e e' 0 0) := by
  intro f
  induction f with
  | zero =>
    intro it e r h
    cases it with
    | none => simp only [Table.nextGroup] at h; cases h; unfold Table.nextGroupX; exact ⟨rfl, Led.refl e⟩
    | some q =>
      simp only [Table.nextGroup] at h
      simp only [Table.nextGroupX]
      cases hd : t.b.deref q with
      | none => rw [hd] at h; cases h
      | some x =>
        rw [hd] at h; dsimp only at h ⊢
        apply Out.Sat.bind
        apply ask_sat
        · intro e1 l1
          by_cases hk : t.fns.eq k x.1 = true
          · rw [if_pos hk] at h; cases h
          · rw [if_neg hk] at h ⊢; cases h; exact ⟨rfl, l1⟩
        · intro _ e1 l1; exact ⟨rfl, l1⟩
  | succ f ih =>
    intro it e r h
    cases it with
    | none => simp only [Table.nextGroup] at h; cases h; unfold Table.nextGroupX; exact ⟨rfl, Led.refl e⟩
    | some q =>
      simp only [Table.nextGroup] at h
      simp only [Table.nextGroupX]
      cases hd : t.b.deref q with
      | none => rw [hd] at h; cases h
      | some x =>
        rw [hd] at h; dsimp only at h ⊢
        apply Out.Sat.bind
        apply ask_sat
        · intro e1 l1
          by_cases hk : t.fns.eq k x.1 = true
          · rw [if_pos hk] at h ⊢
            cases hi : t.b.incIt q with
            | none => rw [hi] at h; cases h
            | some it' =>
              rw [hi] at h; dsimp only at h ⊢
              cases hn : t.nextGroup k f it' with
              | none => rw [hn] at h; cases h
              | some r' =>
                rw [hn] at h; cases h
                apply Out.Sat.bind
                refine (ih it' e1 r' hn).mono ?_ ?_
                · rintro e' _ ⟨rfl, l2⟩; exact ⟨rfl, l1.trans l2 (by omega) (by omega)⟩
                · rintro e' _ ⟨rfl, l2⟩; exact ⟨rfl, l1.trans l2 (by omega) (by omega)⟩
          · rw [if_neg hk] at h ⊢; cases h; exact ⟨rfl, l1⟩
        · intro _ e1 l1; exact ⟨rfl, l1⟩

/-! ### erasing a group -/

theorem eraseRunX_sat (may : Call → Bool) (p : K × V → Bool) (xs : List (K × V)) : ∀ (ys zs : List (K × V)) (f n : Nat) (e : Env),
    (∀ y ∈ ys, p y = true) → (∀ z ∈ zs, p z = false) → ys.length + zs.length ≤ f →
    (Table.eraseRunX may p xs.length f (xs ++ (ys ++ zs)) n e).Sat
      (fun e' r => r = (xs ++ zs, n + ys.length) ∧ Led e e' (-(ys.length : Int)) 0)
      (fun e' r => ∃ gone rest, ys = gone ++ rest ∧ rest ++ zs ≠ [] ∧ r = (xs ++ (rest ++ zs), n + gone.length) ∧
        Led e e' (-(gone.length : Int)) 0) := by
  intro ys
  induction ys with
  | nil =>
    intro zs f n e h1 h2 hf
    cases f with
    | zero => unfold Table.eraseRunX; exact ⟨by simp, Led.refl e⟩
    | succ f =>
      unfold Table.eraseRunX
      cases zs with
      | nil => simp; exact ⟨rfl, Led.refl e⟩
      | cons z zs =>
        have : (xs ++ ([] ++ z :: zs))[xs.length]? = some z := by simp
        rw [this]; dsimp only
        apply Out.Sat.bind
        apply ask_sat
        · intro e1 l1
          rw [if_neg (by rw [h2 z (by simp)]; simp)]
          exact ⟨by simp, l1.congr (by simp) rfl⟩
        · intro _ e1 l1
          exact ⟨[], [], rfl, by simp, by simp, l1.congr (by simp) rfl⟩
  | cons y ys ih =>
    intro zs f n e h1 h2 hf
    cases f with
    | zero => simp at hf
    | succ f =>
      unfold Table.eraseRunX
      have : (xs ++ (y :: ys ++ zs))[xs.length]? = some y := by simp
      rw [this]; dsimp only
      apply Out.Sat.bind
      apply ask_sat
      · intro e1 l1
        rw [if_pos (h1 y (by simp))]
        have he : (xs ++ (y :: ys ++ zs)).eraseIdx xs.length = xs ++ (ys ++ zs) := by
          rw [List.eraseIdx_append_of_length_le (by omega)]; simp
        rw [he]
        refine (ih zs f (n + 1) (e1.addNodes (-1)) (fun z hz => h1 z (by simp [hz])) h2 (by simp at hf; omega)).mono ?_ ?_
        · rintro e' r ⟨rfl, l2⟩
          refine ⟨by simp; omega, (l1.trans (led_nodes e1 (-1)) rfl rfl).trans l2 (by simp) (by omega)⟩
        · rintro e' r ⟨gone, rest, r1, r2, rfl, l2⟩
          refine ⟨y :: gone, rest, by rw [r1]; rfl, r2, by simp; omega,
            (l1.trans (led_nodes e1 (-1)) rfl rfl).trans l2 (by simp) (by omega)⟩
      · intro _ e1 l1
        exact ⟨[], y :: ys, rfl, by simp, by simp, l1.congr (by simp) rfl⟩

/-- shortening a bucket that stays non-empty -/
theorem removed_shorten {t : Table K V} (hs : SInv t) {L : List Nat} (hg : t.b.Ginv L) {b : Nat} (hlt : b < t.b.size)
    {xs gone rest : List (K × V)} (hc : t.b.chain b = xs ++ (gone ++ rest)) (hr : rest ≠ []) :
    Removed t gone { t with b := { t.b with chain := up t.b.chain b (xs ++ rest) }, size := t.size - gone.length } ∧
      gone.length ≤ t.size := by
  have hg' : ({ t.b with chain := up t.b.chain b (xs ++ rest) } : Gba (K × V)).Ginv L := by
    refine hg.congr_chain ?_
    intro c
    rw [up_apply]; split
    · rename_i hcc; rw [hcc, hc]; simp [hr]
    · exact Iff.rfl
  have hperm : t.contents.Perm (gone ++ ({ t.b with chain := up t.b.chain b (xs ++ rest) } : Gba (K × V)).contents) := by
    have hcu := Gba.contents_up (a := t.b) (a' := { t.b with chain := up t.b.chain b (xs ++ rest) }) rfl rfl hlt
    rw [hc] at hcu
    have h1 : (({ t.b with chain := up t.b.chain b (xs ++ rest) } : Gba (K × V)).contents ++ (xs ++ (gone ++ rest))).Perm
        ((xs ++ rest) ++ (gone ++ ({ t.b with chain := up t.b.chain b (xs ++ rest) } : Gba (K × V)).contents)) := by
      have : (xs ++ (gone ++ rest)).Perm ((xs ++ rest) ++ gone) := by
        rw [List.append_assoc]; exact List.Perm.append_left _ List.perm_append_comm
      refine List.perm_append_comm.trans ((this.append_right _).trans ?_)
      rw [List.append_assoc]
    exact ((List.perm_append_left_iff _).mp (hcu.symm.trans h1))
  have hlen := hperm.length_eq
  rw [List.length_append] at hlen
  have hle : gone.length ≤ t.size := by rw [hs.len, hlen]; omega
  refine ⟨⟨⟨Or.inr ⟨L, hg'⟩, hs.mal, ?_, hs.ml⟩, rfl, rfl, rfl, ?_, rfl, rfl, hperm, ?_⟩, hle⟩
  · show t.size - gone.length = _
    rw [hs.len, hlen]; simp only [Nat.add_sub_cancel_left]; rfl
  · dsimp only; omega
  · intro u f hl' hsh'
    refine shape_sublist hl' hsh' rfl ?_
    intro c
    refine up_sublist ?_ c
    rw [hc]
    exact List.Sublist.append_left (List.sublist_append_right _ _) _

theorem eraseKeyEquivX_sat (may : Call → Bool) {t : Table K V} (hs : SInv t) (hl : FLawful t.fns) (hsh : Shape false t.fns t.b)
    (k : K) (e : Env) : (t.eraseKeyEquivX may k e).Sat (fun e' r => t.eraseKeyEquiv k = some r ∧ Bal e t e' r.1)
      (fun e' t' => ∃ gone, Removed t gone t' ∧ (∀ x ∈ gone, t.fns.eq k x.1 = true) ∧ Bal e t e' t') := by
  have nothing : ∀ e1, Led e e1 0 0 → ∃ gone, Removed t gone t ∧ (∀ x ∈ gone, t.fns.eq k x.1 = true) ∧ Bal e t e1 t :=
    fun e1 l1 => ⟨[], Removed.nil hs, by simp, Bal.refl l1⟩
  obtain ⟨tf, gonef, w1, w2, w3, w4⟩ := eraseKeyEquiv_spec hs hl hsh k
  unfold Table.eraseKeyEquivX
  apply Out.Sat.bind
  apply ask_sat
  · intro e1 l1
    by_cases h0 : 0 < t.size
    · rw [if_pos h0]
      have hb := hs.pos (Nat.pos_iff_ne_zero.mp h0)
      obtain ⟨L, hg⟩ := hs.wf.ginv hb
      have hlt : t.pos k < t.b.size := Gba.position_lt hg _
      have w1' := w1
      unfold Table.eraseKeyEquiv at w1
      dsimp only at w1
      rw [if_pos h0, bucketFor_eq hb, Gba.get_of_le hg (Nat.le_of_lt hlt)] at w1
      dsimp only at w1
      rw [bucketFor_eq hb, Gba.get_of_le hg (Nat.le_of_lt hlt)]
      dsimp only
      apply Out.Sat.bind
      apply Out.Sat.bind
      apply ask_sat
      · intro e2 l2
        apply findRunX_sat
        · intro e3 l3
          have l : Led e e3 0 0 := (l1.trans l2 rfl rfl).trans l3 (by omega) (by omega)
          obtain ⟨xs, ys, zs, s1, s2, s3, s4⟩ := contig_split (eqLaw hl) k _ (hsh.2 (t.pos k)).contig
          by_cases hne : ys = []
          · have hf : (t.b.chain (t.pos k)).findIdx? (fun e => t.fns.eq k e.1) = none := by
              refine List.findIdx?_eq_none_iff.mpr (fun x hx => ?_)
              rw [s1, hne, List.nil_append, List.mem_append] at hx
              rcases hx with hx | hx
              · simp [s2 x hx]
              · simp [s4 x hx]
            rw [hf] at w1 ⊢
            dsimp only at w1 ⊢
            exact ⟨w1'.trans w1.symm, Bal.refl l⟩
          · have hf : (t.b.chain (t.pos k)).findIdx? (fun e => t.fns.eq k e.1) = some xs.length := by
              rw [s1]; exact split_findIdx s2 s3 hne
            rw [hf] at w1 ⊢
            dsimp only at w1 ⊢
            rw [hs.deleteNode (by omega)] at w1 ⊢
            dsimp only at w1 ⊢
            have hrun : Table.eraseRun (fun e => t.fns.eq e.1 k) xs.length (t.b.chain (t.pos k)).length (t.b.chain (t.pos k)) =
                (xs ++ zs, ys.length) := by
              have := eraseRun_spec (fun e => t.fns.eq e.1 k) xs ys zs (t.b.chain (t.pos k)).length
                (fun y hy => hl.symm _ _ (s3 y hy)) (fun z hz => eq_false_symm hl (s4 z hz)) (by rw [s1]; simp; omega)
              rw [← s1] at this; exact this
            rw [hrun] at w1
            dsimp only at w1
            apply Out.Sat.bind
            apply Out.Sat.onThrow
            have hX := eraseRunX_sat may (fun e => t.fns.eq e.1 k) xs ys zs (t.b.chain (t.pos k)).length 0 e3
              (fun y hy => hl.symm _ _ (s3 y hy)) (fun z hz => eq_false_symm hl (s4 z hz)) (by rw [s1]; simp)
            rw [← s1] at hX
            refine hX.mono ?_ ?_
            · rintro e4 r ⟨rfl, l4⟩
              dsimp only
              rw [Nat.zero_add]
              split at w1
              · cases w1
              · rename_i hsz
                rw [if_neg hsz]
                split at w1
                · cases w1
                · rename_i b'' hb''
                  rw [hb'']
                  refine ⟨w1'.trans (by rw [← w1]), ?_⟩
                  have hw := w2.size
                  have hwb := w2.blocks
                  simp only [Option.some.injEq, Prod.mk.injEq] at w1
                  obtain ⟨w1a, w1b⟩ := w1
                  rw [w1a]
                  refine l.trans l4 ?_ ?_
                  · dsimp only; rw [w1b]; omega
                  · rw [hwb]; omega
            · rintro e4 r ⟨gone, rest, r1, r2, rfl, l4⟩
              obtain ⟨q1, q2⟩ := removed_shorten hs hg hlt (xs := xs) (gone := gone) (rest := rest ++ zs)
                (by rw [s1, r1, List.append_assoc]) r2
              dsimp only
              rw [Nat.zero_add, if_neg (by omega)]
              refine ⟨_, _, rfl, gone, q1, fun x hx => s3 x (by rw [r1]; simp [hx]), l.trans l4 ?_ ?_⟩
              · show ((t.size - gone.length : Nat) : Int) - t.size = _
                omega
              · rw [q1.blocks]; omega
        · intro e3 l3; exact nothing e3 ((l1.trans l2 rfl rfl).trans l3 (by omega) (by omega))
      · intro _ e2 l2; exact nothing e2 (l1.trans l2 (by omega) (by omega))
    · rw [if_neg h0]
      refine ⟨?_, Bal.refl l1⟩
      unfold Table.eraseKeyEquiv; dsimp only; rw [if_neg h0]
  · intro _ e1 l1; exact nothing e1 l1

/-! ### merge of multi containers -/

/-- what `merge` of multi containers leaves when the insertion of the extracted element `x` throws: `took` has been moved, `x`
is destroyed, and the rehash that threw may have lost elements `lost` of the target -/
structure MergeCut (may : Call → Bool) (t o : Table K V) (s : Table K V × Table K V) (took : List (K × V)) (x : K × V)
    (lost : List (K × V)) : Prop where
  mid : ∃ t1, AddedAll t took t1 ∧ Shape false t.fns t1.b ∧
    (Removed t1 lost s.1 ∨ (Kept t1 s.1 ∧ lost = []))
  safe : may .hash = false → lost = []
  rem : Removed o (took ++ [x]) s.2

theorem mergeEquivLoopX_sat (may : Call → Bool) : ∀ (n f : Nat) (t o : Table K V) (e : Env), SInv t → FLawful t.fns →
    Shape false t.fns t.b → SInv o → o.size = n → n ≤ f →
    (Table.mergeEquivLoopX may f t o e).Sat
      (fun e' s => Table.mergeEquivLoop f t o = some s ∧ Led e e' 0 (s.1.blocks - t.blocks) ∧ s.2.blocks = o.blocks)
      (fun e' s => ∃ took x lost, MergeCut may t o s took x lost ∧
        Led e e' (-(lost.length : Int) - 1) (s.1.blocks - t.blocks) ∧ s.2.blocks = o.blocks) := by
  intro n
  induction n with
  | zero =>
    intro f t o e hs hl hsh hso hn hf
    cases f with
    | zero =>
      unfold Table.mergeEquivLoopX Table.mergeEquivLoop
      rw [if_pos hn, if_pos hn]
      exact ⟨rfl, (Led.refl e).congr rfl (by simp), rfl⟩
    | succ f =>
      unfold Table.mergeEquivLoopX Table.mergeEquivLoop
      rw [if_pos hn, if_pos hn]
      exact ⟨rfl, (Led.refl e).congr rfl (by simp), rfl⟩
  | succ n ih =>
    intro f t o e hs hl hsh hso hn hf
    cases f with
    | zero => omega
    | succ f =>
      rcases begin_spec hso with ⟨h1, h2⟩ | ⟨L, it, h1, h2, h3, h4, h5⟩
      · exact absurd (by rw [hso.len, h2]; rfl) (show o.size ≠ 0 by omega)
      · cases hel : o.b.elems L with
        | nil => rw [hel] at h5; simp at h5; omega
        | cons x post =>
          rw [hel] at h3
          obtain ⟨q, rfl⟩ := h3.some_of_cons
          obtain ⟨o', L', k1, k2, k3, k4⟩ := extractAt_at hso h1 h3
          unfold Table.mergeEquivLoopX
          rw [if_neg (by omega), h2]; dsimp only
          rw [k1]; dsimp only
          apply Out.Sat.bind
          apply Out.Sat.onThrow
          obtain ⟨t', q', m1, m2, m3, m4⟩ := insertNodeEquiv_spec hs hl hsh x
          refine (insertNodeEquivX_sat may hs hl hsh x e).mono ?_ ?_
          · rintro e1 r ⟨r1, l1⟩
            rw [m1] at r1; cases r1
            have hsz := k2.size
            refine (ih f t' o' e1 m2.inv (by rw [m2.fns]; exact hl) (by rw [m2.fns]; exact m3) k2.inv
              (by simp at hsz; omega) (by omega)).mono ?_ ?_
            · rintro e' s ⟨r1, l2, r3⟩
              refine ⟨?_, l1.trans l2 (by omega) (by dsimp only; omega), r3.trans k2.blocks⟩
              unfold Table.mergeEquivLoop
              rw [if_neg (by omega), h2]; dsimp only
              rw [k1]; dsimp only
              rw [m1]; exact r1
            · rintro e' s ⟨took, y, lost, mc, l2, r3⟩
              obtain ⟨t1, a1, a2, a3⟩ := mc.mid
              refine ⟨x :: took, y, lost, ⟨⟨t1, m2.cons a1, by rw [← m2.fns]; exact a2, a3⟩, mc.safe, ?_⟩,
                l1.trans l2 (by omega) (by dsimp only; omega), r3.trans k2.blocks⟩
              exact k2.trans mc.rem
          · rintro e1 t1 (h | ⟨h, hb⟩)
            · obtain ⟨lost, a1, a2, a3⟩ := h
              refine ⟨_, _, rfl, [], x, lost, ⟨⟨t, AddedAll.nil hs, hsh, Or.inl a1⟩, ?_, k2⟩,
                a2.trans (led_nodes e1 (-1)) (by omega) ?_, k2.blocks⟩
              · intro hh
                have := a1.size
                rw [a3 hh] at this
                exact List.eq_nil_of_length_eq_zero (by omega)
              · dsimp only; rw [a1.blocks]; omega
            · refine ⟨_, _, rfl, [], x, [], ⟨⟨t, AddedAll.nil hs, hsh, Or.inr ⟨h, rfl⟩⟩, fun _ => rfl, k2⟩, ?_, k2.blocks⟩
              refine Led.trans hb (led_nodes e1 (-1)) ?_ ?_
              · rw [h.size]; simp
              · dsimp only; omega

theorem mergeEquivX_sat (may : Call → Bool) {t o : Table K V} (hs : SInv t) (hl : FLawful t.fns) (hsh : Shape false t.fns t.b)
    (hso : SInv o) (hal : t.al = o.al) (e : Env) :
    (t.mergeEquivX may o e).Sat
      (fun e' s => t.mergeEquiv o = some s ∧ Led e e' 0 (s.1.blocks - t.blocks) ∧ s.2.blocks = o.blocks)
      (fun e' s => ∃ took x lost, MergeCut may t o s took x lost ∧
        Led e e' (-(lost.length : Int) - 1) (s.1.blocks - t.blocks) ∧ s.2.blocks = o.blocks) := by
  have hne : ¬ t.al ≠ o.al := by simp [hal]
  unfold Table.mergeEquivX
  rw [if_neg hne]
  refine (mergeEquivLoopX_sat may o.size o.size t o e hs hl hsh hso rfl (Nat.le_refl _)).mono ?_ (fun _ _ h => h)
  rintro e' s ⟨r1, r2⟩
  refine ⟨?_, r2⟩
  unfold Table.mergeEquiv
  rw [if_neg hne]; exact r1

end Fca

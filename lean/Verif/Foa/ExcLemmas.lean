/-
What the throwing executions of `Verif/Foa/Exceptions.lean` leave behind.
-/
import Verif.Foa.Exceptions
import Verif.Foa.Refine

namespace Foa
variable {K V : Type}

/-- The outcome is not UB, satisfies `P` if the function returned and `Q` if it threw. -/
def Out.Sat {α σ : Type} (o : Out α σ) (P : Env → α → Prop) (Q : Env → σ → Prop) : Prop :=
  match o with
  | .done e a => P e a
  | .threw e s => Q e s
  | .bad => False

theorem Out.Sat.imp {α σ : Type} {o : Out α σ} {P P' : Env → α → Prop} {Q Q' : Env → σ → Prop} (h : o.Sat P Q)
    (h1 : ∀ e a, P e a → P' e a) (h2 : ∀ e s, Q e s → Q' e s) : o.Sat P' Q' := by
  cases o with
  | done e a => exact h1 _ _ h
  | threw e s => exact h2 _ _ h
  | bad => exact h

/-- The ledgers moved by `db` blocks and `de` elements. -/
structure Led (e e' : Env) (db de : Int) : Prop where
  blocks : e'.blocks = e.blocks + db
  elems : e'.elems = e.elems + de

theorem Led.refl (e : Env) : Led e e 0 0 := ⟨by simp, by simp⟩

theorem Led.trans {e e' e'' : Env} {a b c d : Int} (h : Led e e' a b) (h' : Led e' e'' c d) :
    Led e e'' (a + c) (b + d) := ⟨by rw [h'.blocks, h.blocks]; ring, by rw [h'.elems, h.elems]; ring⟩

theorem Led.cast {e e' : Env} {a b c d : Int} (h : Led e e' a b) (h1 : a = c) (h2 : b = d) : Led e e' c d := by
  subst h1; subst h2; exact h

theorem Led.add (e : Env) (n : Int) : Led e (e.addElems n) 0 n := ⟨by simp [Env.addElems], rfl⟩
theorem Led.addB (e : Env) (n : Int) : Led e (e.addBlocks n) n 0 := ⟨rfl, by simp [Env.addBlocks]⟩

theorem Env.call_some {may : Call → Bool} {k : Call} {e e' : Env} (h : e.call may k = some e') : Led e e' 0 0 := by
  unfold Env.call at h
  split at h
  · split at h
    · cases h
    · cases h; exact ⟨by simp, by simp⟩
  · cases h; exact Led.refl _

theorem Env.call_none {may : Call → Bool} {k : Call} {e : Env} (h : e.call may k = none) : may k = true := by
  unfold Env.call at h
  split at h
  · assumption
  · cases h

/-- `a'` is `a` with possibly more overflow bits. -/
structure Marked (a a' : Arrays K V) : Prop where
  k : a'.k = a.k
  hasElems : a'.hasElems = a.hasElems
  al : a'.al = a.al
  slot : ∀ g j, a'.slot g j = a.slot g j
  md : ∀ g j, (a'.grp g).md j = (a.grp g).md j
  ofw : ∀ g b, (a.grp g).ofw.testBit b = true → (a'.grp g).ofw.testBit b = true
  dummy : a.hasElems = false → a' = a

theorem Marked.refl (a : Arrays K V) : Marked a a := ⟨rfl, rfl, rfl, fun _ _ => rfl, fun _ _ => rfl, fun _ _ h => h, fun _ => rfl⟩

theorem Marked.trans {a b c : Arrays K V} (h : Marked a b) (h' : Marked b c) : Marked a c where
  k := h'.k.trans h.k
  hasElems := h'.hasElems.trans h.hasElems
  al := h'.al.trans h.al
  slot g j := (h'.slot g j).trans (h.slot g j)
  md g j := (h'.md g j).trans (h.md g j)
  ofw g b hb := h'.ofw g b (h.ofw g b hb)
  dummy hd := by rw [h'.dummy (h.hasElems.trans hd), h.dummy hd]

theorem Marked.step (a : Arrays K V) (g h : Nat) (he : a.hasElems = true) :
    Marked a (a.setGrp g ((a.grp g).markOverflow h)) where
  k := rfl
  hasElems := rfl
  al := rfl
  slot _ _ := rfl
  md i j := by
    simp only [Arrays.setGrp]; split
    · next hi => subst hi; rfl
    · rfl
  ofw i b hb := by
    simp only [Arrays.setGrp]; split
    · next hi => subst hi; simp [Group.markOverflow, hb]
    · exact hb
  dummy hd := by rw [he] at hd; cases hd

theorem Marked.live {f : Fns K} {a a' : Arrays K V} (h : Marked a a') (hl : Live f a) : Live f a' where
  kpos := by rw [h.k]; exact hl.kpos
  sent := by rw [h.k, h.md]; exact hl.sent
  cell g j hv := by
    rw [h.k] at hv; rw [h.md, h.slot]; exact hl.cell g j hv
  inval g j hv := by
    rw [h.k] at hv; rw [h.slot]; exact hl.inval g j hv
  probe g j x hx pre post hp g' hg' := by
    rw [h.slot] at hx
    have hm : a'.mask = a.mask := by unfold Arrays.mask; rw [h.k]
    have hpf : a'.posFor (f.hash x.1) = a.posFor (f.hash x.1) := by unfold Arrays.posFor; rw [h.k]
    rw [hm, hpf] at hp
    exact h.ofw _ _ (hl.probe g j x hx pre post hp g' hg')
  uniq g j x g' j' y h1 h2 h3 := by
    rw [h.slot] at h1 h2; exact hl.uniq g j x g' j' y h1 h2 h3

theorem Marked.inv {f : Fns K} {a a' : Arrays K V} (h : Marked a a') (hi : a.Inv f) : a'.Inv f := by
  rcases hi with ⟨he, hl⟩ | ⟨he, hd⟩
  · exact Or.inl ⟨h.hasElems.trans he, h.live hl⟩
  · rw [h.dummy he]; exact Or.inr ⟨he, hd⟩

theorem Marked.occ {a a' : Arrays K V} (h : Marked a a') : a'.occ = a.occ := by
  unfold Arrays.occ
  rw [h.hasElems, h.k]
  simp only [h.md]

theorem Marked.contents {a a' : Arrays K V} (h : Marked a a') : a'.contents = a.contents := by
  unfold Arrays.contents
  rw [h.occ]
  simp only [h.slot]

theorem Marked.capacity {a a' : Arrays K V} (h : Marked a a') : a'.capacity = a.capacity := by
  unfold Arrays.capacity; rw [h.hasElems, h.k]

/-- A container whose arrays only got more overflow bits. -/
theorem Marked.table {t : Table K V} {a : Arrays K V} (h : Marked t.arr a) (hi : t.Inv) :
    ({ t with arr := a } : Table K V).Inv ∧ ({ t with arr := a } : Table K V).contents = t.contents := by
  refine ⟨⟨hi.law, h.inv hi.arr, ?_, ?_, hi.size_le, ?_⟩, h.contents⟩
  · intro he; exact h.al.trans (hi.al (h.hasElems ▸ he))
  · show t.size = a.contents.length; rw [h.contents]; exact hi.size
  · show t.ml ≤ Table.initMl a; rw [initMl_congr h.capacity]; exact hi.ml_init

/-! ### find -/

theorem scanX_sat (may : Call → Bool) (slot : Nat → Option (K × V)) (p : K → Bool) :
    ∀ (js : List Nat) (r : Option Nat) (e : Env), Arrays.scanSlots slot p js = some r →
    (Arrays.scanX may slot p js e).Sat (fun e' a => a = r ∧ Led e e' 0 0) (fun e' _ => may .eq = true ∧ Led e e' 0 0) := by
  intro js
  induction js with
  | nil => intro r e h; cases h; exact ⟨rfl, Led.refl _⟩
  | cons j js ih =>
    intro r e h
    unfold Arrays.scanSlots at h
    unfold Arrays.scanX
    cases hs : slot j with
    | none => rw [hs] at h; cases h
    | some x =>
      rw [hs] at h
      simp only at h ⊢
      cases hc : e.call may .eq with
      | none => exact ⟨Env.call_none hc, Led.refl _⟩
      | some e1 =>
        simp only
        by_cases hp : p x.1 = true
        · rw [if_pos hp] at h ⊢; cases h; exact ⟨rfl, Env.call_some hc⟩
        · rw [if_neg hp] at h ⊢
          refine (ih r e1 h).imp ?_ ?_
          · rintro e' a ⟨h1, h2⟩; exact ⟨h1, ((Env.call_some hc).trans h2).cast rfl rfl⟩
          · rintro e' a ⟨h1, h2⟩; exact ⟨h1, ((Env.call_some hc).trans h2).cast rfl rfl⟩

theorem findLoopX_sat (may : Call → Bool) (a : Arrays K V) (p : K → Bool) (h : Nat) :
    ∀ (gs : List Nat) (r : Option Pos) (e : Env), Arrays.findLoop a p h gs = some r →
    (Arrays.findLoopX may a p h gs e).Sat (fun e' x => x = r ∧ Led e e' 0 0)
      (fun e' _ => may .eq = true ∧ Led e e' 0 0) := by
  intro gs
  induction gs with
  | nil => intro r e h; cases h; exact ⟨rfl, Led.refl _⟩
  | cons g gs ih =>
    intro r e hr
    unfold Arrays.findLoop at hr
    unfold Arrays.findLoopX
    cases hs : Arrays.scanSlots (a.slot g) p ((a.grp g).matchSlots h) with
    | none => rw [hs] at hr; cases hr
    | some q =>
      have hq := scanX_sat may (a.slot g) p _ q e hs
      rw [hs] at hr
      cases hx : Arrays.scanX may (a.slot g) p ((a.grp g).matchSlots h) e with
      | bad => rw [hx] at hq; exact hq.elim
      | threw e1 u => rw [hx] at hq; exact hq
      | done e1 q1 =>
        rw [hx] at hq
        obtain ⟨rfl, hl⟩ := hq
        cases q1 with
        | some j => simp only at hr ⊢; cases hr; exact ⟨rfl, hl⟩
        | none =>
          simp only at hr ⊢
          by_cases hn : (a.grp g).isNotOverflowed h = true
          · rw [if_pos hn] at hr ⊢; cases hr; exact ⟨rfl, hl⟩
          · rw [if_neg hn] at hr ⊢
            refine (ih r e1 hr).imp ?_ ?_
            · rintro e' a ⟨h1, h2⟩; exact ⟨h1, (hl.trans h2).cast rfl rfl⟩
            · rintro e' a ⟨h1, h2⟩; exact ⟨h1, (hl.trans h2).cast rfl rfl⟩

theorem findX_sat (may : Call → Bool) (t : Table K V) (x : K) (e : Env) {r : Option Pos} (h : t.find x = some r) :
    (t.findX may x e).Sat (fun e' y => y = r ∧ Led e e' 0 0)
      (fun e' _ => (may .hash = true ∨ may .eq = true) ∧ Led e e' 0 0) := by
  unfold Table.findX
  cases hc : e.call may .hash with
  | none => exact ⟨Or.inl (Env.call_none hc), Led.refl _⟩
  | some e1 =>
    simp only
    refine (findLoopX_sat may t.arr _ _ _ r e1 h).imp ?_ ?_
    · rintro e' a ⟨h1, h2⟩; exact ⟨h1, ((Env.call_some hc).trans h2).cast rfl rfl⟩
    · rintro e' a ⟨h1, h2⟩; exact ⟨Or.inr h1, ((Env.call_some hc).trans h2).cast rfl rfl⟩

/-! ### placing an element -/

theorem emplaceLoopX_sat (may : Call → Bool) (kind : Call) (h : Nat) (x : K × V) :
    ∀ (gs : List Nat) (a : Arrays K V) (e : Env) (r : Arrays K V × Pos), Arrays.emplaceLoop h x a gs = some r →
    (Arrays.emplaceLoopX may kind h x a gs e).Sat (fun e' y => y = r ∧ Led e e' 0 1)
      (fun e' a' => may kind = true ∧ Marked a a' ∧ Led e e' 0 0) := by
  intro gs
  induction gs with
  | nil => intro a e r h; cases h
  | cons g gs ih =>
    intro a e r hr
    unfold Arrays.emplaceLoop at hr
    unfold Arrays.emplaceLoopX
    cases hav : (a.grp g).availSlots with
    | cons j js =>
      rw [hav] at hr
      simp only at hr ⊢
      by_cases hc : a.hasElems = true ∧ (a.slot g j).isNone = true
      · rw [if_pos hc] at hr ⊢
        cases hcall : e.call may kind with
        | none => exact ⟨Env.call_none hcall, Marked.refl _, Led.refl _⟩
        | some e1 =>
          cases hr
          exact ⟨rfl, ((Env.call_some hcall).trans (Led.add e1 1)).cast rfl rfl⟩
      · rw [if_neg hc] at hr; cases hr
    | nil =>
      rw [hav] at hr
      simp only at hr ⊢
      by_cases hc : a.hasElems = true
      · rw [if_pos hc] at hr ⊢
        refine (ih _ e r hr).imp (fun _ _ h => h) ?_
        rintro e' a' ⟨h1, h2, h3⟩
        exact ⟨h1, (Marked.step a g h hc).trans h2, h3⟩
      · rw [if_neg hc] at hr; cases hr

theorem emplaceX_sat (may : Call → Bool) (kind : Call) (a : Arrays K V) (h : Nat) (x : K × V) (e : Env)
    {r : Arrays K V × Pos} (hr : a.emplace h x = some r) :
    (a.emplaceX may kind h x e).Sat (fun e' y => y = r ∧ Led e e' 0 1)
      (fun e' a' => may kind = true ∧ Marked a a' ∧ Led e e' 0 0) :=
  emplaceLoopX_sat may kind h x _ a e r hr

/-! ### transfer to new arrays -/

/-- the slots in `q` hold no element any more -/
def clearSlots (q : List Pos) (a : Arrays K V) : Arrays K V :=
  { a with slot := fun g j => if (g, j) ∈ q then none else a.slot g j }

theorem clearSlots_nil (a : Arrays K V) : clearSlots [] a = a := by
  unfold clearSlots; simp

theorem clearSlots_cons (p : Pos) (q : List Pos) (a : Arrays K V) :
    clearSlots q (a.setSlot p.1 p.2 none) = clearSlots (p :: q) a := by
  unfold clearSlots Arrays.setSlot
  congr 1
  funext g j
  simp only [List.mem_cons]
  by_cases h1 : (g, j) ∈ q
  · simp [h1]
  · by_cases h2 : g = p.1 ∧ j = p.2
    · obtain ⟨rfl, rfl⟩ := h2; simp
    · have : ¬ (g, j) = p := by
        rintro rfl; exact h2 ⟨rfl, rfl⟩
      simp [h1, h2, this]

theorem setSlot_other {a : Arrays K V} {p q : Pos} (h : q ≠ p) (v : Option (K × V)) :
    (a.setSlot p.1 p.2 v).slot q.1 q.2 = a.slot q.1 q.2 := by
  unfold Arrays.setSlot
  have : ¬ (q.1 = p.1 ∧ q.2 = p.2) := by
    rintro ⟨h1, h2⟩; exact h (Prod.ext h1 h2)
  simp [this]

theorem transferAll_congr (f : Fns K) (src src' : Arrays K V) : ∀ (ps : List Pos) (dst : Arrays K V),
    (∀ p ∈ ps, src'.slot p.1 p.2 = src.slot p.1 p.2) →
    Arrays.transferAll f src' ps dst = Arrays.transferAll f src ps dst := by
  intro ps
  induction ps with
  | nil => intro dst _; rfl
  | cons p ps ih =>
    intro dst h
    unfold Arrays.transferAll
    rw [h p (by simp)]
    cases src.slot p.1 p.2 with
    | none => rfl
    | some x =>
      simp only
      cases dst.emplace (f.hash x.1) x with
      | none => rfl
      | some r => exact ih _ (fun q hq => h q (by simp [hq]))

/-- the old arrays after the elements at `q` have been transferred -/
def srcAfter (mv : Bool) (q : List Pos) (a : Arrays K V) : Arrays K V := if mv then clearSlots q a else a

theorem transferX_sat (may : Call → Bool) (mv : Bool) {f : Fns K} (hf : f.Lawful) :
    ∀ (ps : List Pos) (src dst : Arrays K V) (num : Nat) (e : Env), ps.Nodup →
    (∀ p ∈ ps, ∃ x, src.slot p.1 p.2 = some x) →
    (ps.filterMap (fun p => src.slot p.1 p.2) ++ dst.contents).Pairwise (Ineq f) → dst.Inv f →
    dst.contents.length + ps.length ≤ dst.capacity →
    (Arrays.transferX may mv f ps (src, dst, num) e).Sat
      (fun e' s => s.1 = srcAfter mv ps src ∧ Arrays.transferAll f src ps dst = some s.2.1 ∧
        s.2.2 = num + (if mv then ps.length else 0) ∧ Led e e' 0 (if mv then 0 else ps.length))
      (fun e' s => ∃ q r, ps = q ++ r ∧ s.1 = srcAfter mv q src ∧ s.2.1.Inv f ∧ s.2.1.k = dst.k ∧
        s.2.1.hasElems = dst.hasElems ∧ s.2.1.al = dst.al ∧ s.2.2 = num + (if mv then q.length else 0) ∧
        (may .hash = true ∨ may .transfer = true) ∧
        Led e e' 0 ((s.2.1.contents.length : Int) - dst.contents.length - (if mv then q.length else 0))) := by
  intro ps
  induction ps with
  | nil =>
    intro src dst num e _ _ _ _ _
    refine ⟨?_, rfl, ?_, ?_⟩
    · cases mv <;> simp [srcAfter, clearSlots_nil]
    · simp
    · cases mv <;> exact Led.refl _
  | cons p ps ih =>
    intro src dst num e hnd hs hpw hd hlen
    obtain ⟨x, hx⟩ := hs p (by simp)
    have hnp : p ∉ ps := (List.nodup_cons.mp hnd).1
    unfold Arrays.transferX Arrays.transferAll
    simp only [hx]
    cases hc : e.call may .hash with
    | none =>
      refine ⟨[], p :: ps, rfl, ?_, hd, rfl, rfl, rfl, by simp, Or.inl (Env.call_none hc), ?_⟩
      · cases mv <;> simp [srcAfter, clearSlots_nil]
      · exact (Led.refl _).cast rfl (by simp)
    | some e1 =>
      simp only
      have hl1 := Env.call_some hc
      rw [List.filterMap_cons_some (f := fun p : Pos => src.slot p.1 p.2) hx] at hpw
      simp only [List.cons_append, List.pairwise_cons] at hpw
      simp only [List.length_cons] at hlen
      obtain ⟨d1, g, j, e2, d1inv, hpl, hdel, hperm⟩ := emplace_inv hf hd x
        (fun y hy => hpw.1 y (by simp [hy])) (by omega)
      have hemp := emplaceX_sat may .transfer dst (f.hash x.1) x e1 e2
      rw [e2]
      cases hex : dst.emplaceX may .transfer (f.hash x.1) x e1 with
      | bad => rw [hex] at hemp; exact hemp.elim
      | threw e2 dst' =>
        rw [hex] at hemp
        obtain ⟨hm, hmk, hl2⟩ := hemp
        simp only
        cases mv with
        | true =>
          refine ⟨[p], ps, rfl, ?_, hmk.inv hd, hmk.k, hmk.hasElems, hmk.al, by simp, Or.inr hm, ?_⟩
          · simp only [srcAfter, if_true]
            rw [← clearSlots_cons, clearSlots_nil]
          · refine ((hl1.trans hl2).trans (Led.add _ _)).cast (by simp) ?_
            simp only [hmk.contents]
            simp
        | false =>
          refine ⟨[p], ps, rfl, ?_, hmk.inv hd, hmk.k, hmk.hasElems, hmk.al, by simp, Or.inr hm, ?_⟩
          · simp [srcAfter]
          · refine (hl1.trans hl2).cast (by simp) ?_
            simp only [hmk.contents]
            simp
      | done e2 r =>
        rw [hex] at hemp
        obtain ⟨rfl, hl2⟩ := hemp
        simp only
        have hlenc : d1.contents.length = dst.contents.length + 1 := by
          rw [hperm.length_eq]; simp
        have hcap := hpl.capacity
        have hk : d1.k = dst.k := hpl.k
        have hh : d1.hasElems = dst.hasElems := hpl.hasElems
        have hal : d1.al = dst.al := hpl.al
        have hpw' : (ps.filterMap (fun p => src.slot p.1 p.2) ++ d1.contents).Pairwise (Ineq f) := by
          refine (List.Perm.pairwise_iff (R := Ineq f) (fun h => h.symm hf) ?_).mp (List.pairwise_cons.mpr hpw)
          exact (List.perm_middle.symm).trans (hperm.symm.append_left _)
        cases mv with
        | true =>
          simp only [if_true]
          have hslot : ∀ q ∈ ps, (src.setSlot p.1 p.2 none).slot q.1 q.2 = src.slot q.1 q.2 := by
            intro q hq
            exact setSlot_other (by rintro rfl; exact hnp hq) _
          have hfm : ps.filterMap (fun q => (src.setSlot p.1 p.2 none).slot q.1 q.2) =
              ps.filterMap (fun q => src.slot q.1 q.2) := List.filterMap_congr hslot
          have := ih (src.setSlot p.1 p.2 none) d1 (num + 1) (e2.addElems (-1)) (List.nodup_cons.mp hnd).2
            (fun q hq => by rw [hslot q hq]; exact hs q (by simp [hq])) (by rw [hfm]; exact hpw') d1inv (by omega)
          refine this.imp ?_ ?_
          · rintro e' s ⟨h1, h2, h3, h4⟩
            refine ⟨?_, ?_, ?_, ?_⟩
            · rw [h1]; simp only [srcAfter, if_true]; rw [clearSlots_cons]
            · rw [← h2]; exact (transferAll_congr f src _ ps d1 hslot).symm
            · rw [h3]; simp; omega
            · exact (((hl1.trans hl2).trans (Led.add _ _)).trans h4).cast (by simp) (by simp)
          · rintro e' s ⟨q, r, h1, h2, h3, h4, h5, h6, h7, h8, h9⟩
            refine ⟨p :: q, r, by rw [h1]; rfl, ?_, h3, h4.trans hk, h5.trans hh, h6.trans hal, ?_, h8, ?_⟩
            · rw [h2]; simp only [srcAfter, if_true]; rw [clearSlots_cons]
            · rw [h7]; simp; omega
            · refine (((hl1.trans hl2).trans (Led.add _ _)).trans h9).cast (by simp) ?_
              simp only [if_true, hlenc, List.length_cons]; push_cast; ring
        | false =>
          simp only [Bool.false_eq_true, if_false]
          have := ih src d1 num e2 (List.nodup_cons.mp hnd).2
            (fun q hq => hs q (by simp [hq])) hpw' d1inv (by omega)
          refine this.imp ?_ ?_
          · rintro e' s ⟨h1, h2, h3, h4⟩
            refine ⟨?_, h2, ?_, ?_⟩
            · rw [h1]; simp [srcAfter]
            · rw [h3]; simp
            · refine ((hl1.trans hl2).trans h4).cast (by simp) ?_
              simp only [Bool.false_eq_true, if_false, List.length_cons]; push_cast; ring
          · rintro e' s ⟨q, r, h1, h2, h3, h4, h5, h6, h7, h8, h9⟩
            refine ⟨p :: q, r, by rw [h1]; rfl, ?_, h3, h4.trans hk, h5.trans hh, h6.trans hal, ?_, h8, ?_⟩
            · rw [h2]; simp [srcAfter]
            · rw [h7]; simp
            · refine ((hl1.trans hl2).trans h9).cast (by simp) ?_
              simp only [Bool.false_eq_true, if_false, hlenc]; push_cast; ring

theorem eraseAt_hasElems {t t' : Table K V} {p : Pos} (h : t.eraseAt p = some t') :
    t'.arr.hasElems = t.arr.hasElems := by
  unfold Table.eraseAt at h
  cases hs : t.arr.slot p.1 p.2 with
  | none => rw [hs] at h; cases h
  | some x =>
    rw [hs] at h
    simp only at h
    generalize (if (t.arr.grp p.1).maybeCausedOverflow p.2 = true then 1 else 0) = d at h
    split at h
    · cases h; rfl
    · cases h

theorem eraseIfLoop_hasElems {pr : K × V → Bool} : ∀ (ps : List Pos) (t t' : Table K V),
    Table.eraseIfLoop pr ps t = some t' → t'.arr.hasElems = t.arr.hasElems := by
  intro ps
  induction ps with
  | nil => intro t t' h; cases h; rfl
  | cons p ps ih =>
    intro t t' h
    unfold Table.eraseIfLoop at h
    cases hs : t.arr.slot p.1 p.2 with
    | none => rw [hs] at h; cases h
    | some x =>
      rw [hs] at h
      simp only at h
      split at h
      · cases he : t.eraseAt p with
        | none => rw [he] at h; cases h
        | some t1 => rw [he] at h; exact (ih _ _ h).trans (eraseAt_hasElems he)
      · exact ih _ _ h

/-! ### clean-up -/

theorem destroyX_eq : ∀ (ps : List Pos) (a : Arrays K V) (e : Env), ps.Nodup →
    (∀ p ∈ ps, ∃ x, a.slot p.1 p.2 = some x) →
    ∃ e', Arrays.destroyX ps a e = some (clearSlots ps a, e') ∧ Led e e' 0 (-(ps.length : Int)) := by
  intro ps
  induction ps with
  | nil => intro a e _ _; exact ⟨e, by rw [clearSlots_nil]; rfl, Led.refl _⟩
  | cons p ps ih =>
    intro a e hnd hs
    obtain ⟨x, hx⟩ := hs p (by simp)
    have hnp := (List.nodup_cons.mp hnd).1
    obtain ⟨e', h1, h2⟩ := ih (a.setSlot p.1 p.2 none) (e.addElems (-1)) (List.nodup_cons.mp hnd).2 (fun q hq => by
      rw [setSlot_other (by rintro rfl; exact hnp hq)]; exact hs q (by simp [hq]))
    refine ⟨e', ?_, ((Led.add _ _).trans h2).cast (by simp) (by simp)⟩
    unfold Arrays.destroyX
    simp only [hx]
    rw [h1, clearSlots_cons]

theorem clearSlots_occ (q : List Pos) (a : Arrays K V) : (clearSlots q a).occ = a.occ := rfl

/-- the number of blocks a container owns -/
def owned (a : Arrays K V) : Int := if a.hasElems then 1 else 0

theorem freeX_eq {a : Arrays K V} {al : Nat} (e : Env) (hal : a.hasElems = true → a.al = al)
    (hs : ∀ g j, a.slot g j = none) : ∃ e', Arrays.freeX al a e = some e' ∧ Led e e' (-owned a) 0 := by
  unfold Arrays.freeX owned
  by_cases h : a.hasElems = true
  · rw [if_pos h, if_pos ⟨hal h, by simp [hs]⟩, if_pos h]
    exact ⟨_, rfl, Led.addB _ _⟩
  · rw [if_neg h, if_neg h]; exact ⟨e, rfl, (Led.refl e).cast (by simp) rfl⟩

theorem clearSlots_all {f : Fns K} {a : Arrays K V} (hi : a.Inv f) (g j : Nat) : (clearSlots a.occ a).slot g j = none := by
  unfold clearSlots
  simp only
  split
  · rfl
  · next h =>
    rcases hi with ⟨he, hl⟩ | ⟨he, hd⟩
    · rw [hl.mem_occ he] at h
      cases hs : a.slot g j with
      | none => rfl
      | some x => exact absurd ⟨x, hs⟩ h
    · exact hd.slot g j

/-- destroying all elements of consistent arrays and freeing them -/
theorem destroy_free {f : Fns K} {a : Arrays K V} (hi : a.Inv f) {al : Nat} (hal : a.hasElems = true → a.al = al) (e : Env) :
    ∃ a' e1 e2, Arrays.destroyX a.occ a e = some (a', e1) ∧ Arrays.freeX al a' e1 = some e2 ∧
      Led e e1 0 (-(a.contents.length : Int)) ∧ Led e e2 (-owned a) (-(a.contents.length : Int)) ∧ a' = clearSlots a.occ a := by
  obtain ⟨e1, h1, h2⟩ := destroyX_eq a.occ a e (nodup_occ a) (slots_of_occ hi)
  obtain ⟨e2, h3, h4⟩ := freeX_eq (a := clearSlots a.occ a) (al := al) e1 hal (clearSlots_all hi)
  refine ⟨_, e1, e2, h1, h3, ?_, ?_, rfl⟩
  · rw [Inv.length_contents hi]; exact h2
  · rw [Inv.length_contents hi]
    exact (h2.trans h4).cast (by rw [Int.zero_add]; rfl) (by simp)

theorem recoverX_eq : ∀ (ps : List Pos) (t : Table K V), ps.Nodup → (∀ p ∈ ps, ∃ x, t.arr.slot p.1 p.2 = some x) →
    t.arr.hasElems = true →
    Table.recoverX ps { t with arr := clearSlots ps t.arr } = Table.eraseIfLoop (fun _ => true) ps t := by
  intro ps
  induction ps with
  | nil => intro t _ _ _; rw [clearSlots_nil]; rfl
  | cons p ps ih =>
    intro t hnd hs he
    obtain ⟨x, hx⟩ := hs p (by simp)
    have hnp := (List.nodup_cons.mp hnd).1
    unfold Table.recoverX Table.eraseIfLoop
    simp only [hx, if_true, Table.eraseAt, he, true_and]
    have hg : (clearSlots (p :: ps) t.arr).grp = t.arr.grp := rfl
    simp only [hg]
    generalize (if (t.arr.grp p.1).maybeCausedOverflow p.2 = true then 1 else 0) = d
    split
    · simp only
      rw [← ih _ (List.nodup_cons.mp hnd).2 ?_ ?_]
      · congr 1
        simp only [Table.mk.injEq, true_and, and_true]
        rw [← clearSlots_cons]; rfl
      · intro q hq
        obtain ⟨y, hy⟩ := hs q (by simp [hq])
        refine ⟨y, ?_⟩
        show ((t.arr.setSlot p.1 p.2 none).setGrp _ _).slot q.1 q.2 = _
        rw [show ((t.arr.setSlot p.1 p.2 none).setGrp p.1 ((t.arr.grp p.1).reset p.2)).slot q.1 q.2 =
          (t.arr.setSlot p.1 p.2 none).slot q.1 q.2 from rfl, setSlot_other (by rintro rfl; exact hnp hq), hy]
      · exact he
    · rfl

/-! ### rehashing -/

theorem contents_take_drop (t : Table K V) {q r : List Pos} (h : t.arr.occ = q ++ r) :
    t.contents = q.filterMap (fun p => t.arr.slot p.1 p.2) ++ r.filterMap (fun p => t.arr.slot p.1 p.2) := by
  show t.arr.contents = _
  unfold Arrays.contents
  rw [h, List.filterMap_append]

/-- What a rehash leaves: on success the effect of the non-throwing model; on a throw a valid container that may have lost
elements (none if elements are copied, not moved), the new arrays being destroyed and freed. -/
theorem uncheckedRehashX_sat (may : Call → Bool) (mv : Bool) {t : Table K V} (hi : t.Inv) (new : Arrays K V)
    (hn : new.Inv t.fns) (hal : new.hasElems = true → new.al = t.al)
    (hpw : (t.contents ++ new.contents).Pairwise (Ineq t.fns))
    (hlen : new.contents.length + t.size ≤ Table.initMl new) (e : Env) :
    (t.uncheckedRehashX may mv new e).Sat
      (fun e' t' => t.uncheckedRehash new = some t' ∧ Led e e' (-owned t.arr) 0)
      (fun e' t' => t'.Inv ∧ t'.fns = t.fns ∧ t'.al = t.al ∧ t'.arr.hasElems = t.arr.hasElems ∧
        (∃ lost, t.contents.Perm (lost ++ t'.contents)) ∧ (mv = false → t' = t) ∧
        (may .hash = true ∨ may .transfer = true) ∧
        Led e e' (-owned new) ((t'.size : Int) - t.size - new.contents.length)) := by
  have hcap := initMl_le new
  have hocc := occ_length hi
  have htr := transferX_sat may mv hi.law t.arr.occ t.arr new 0 e (nodup_occ _) (slots_of_occ hi.arr) hpw hn (by omega)
  have hresult := uncheckedRehash_spec hi new hn hal hpw hlen
  unfold Table.uncheckedRehashX
  cases hx : Arrays.transferX may mv t.fns t.arr.occ (t.arr, new, 0) e with
  | bad => rw [hx] at htr; exact htr.elim
  | threw e1 s =>
    obtain ⟨src, dst, num⟩ := s
    rw [hx] at htr
    obtain ⟨q, r, h1, h2, h3, h4, h5, h6, h7, h8, h9⟩ := htr
    simp only at h2 h3 h4 h5 h6 h7 h9 ⊢
    have hdal : dst.hasElems = true → dst.al = t.al := by rw [h5, h6]; exact hal
    obtain ⟨a', e2, e3, hd1, hd2, _, hd3, _⟩ := destroy_free h3 hdal e1
    have howned : owned dst = owned new := by unfold owned; rw [h5]
    cases mv with
    | false =>
      simp only [srcAfter, Bool.false_eq_true, if_false] at h2 h7 h9
      subst h2
      simp only [Nat.zero_add] at h7
      subst h7
      simp only [List.take_zero, Table.recoverX, hd1, hd2]
      refine ⟨hi, by trivial, by trivial, by trivial, ⟨[], List.Perm.refl _⟩, fun _ => by trivial, h8, ?_⟩
      refine (h9.trans hd3).cast (by rw [howned]; simp) ?_
      push_cast; omega
    | true =>
      simp only [srcAfter, if_true] at h2 h7 h9
      have hq : ∀ p ∈ q, ∃ x, t.arr.slot p.1 p.2 = some x := fun p hp =>
        slots_of_occ hi.arr p (by rw [h1]; simp [hp])
      have hqn : q.Nodup := by
        have := nodup_occ t.arr; rw [h1] at this; exact (List.nodup_append.mp this).1
      have htake : src.occ.take num = q := by
        rw [h2, clearSlots_occ, h1, h7]; simp
      obtain ⟨t', ht1, ht2, ht3, ht4, ht5, ht6⟩ := eraseIfLoop_spec (fun _ => true) q t hi hqn hq
      have hfilt : (q.filterMap (fun p => t.arr.slot p.1 p.2)).filter (fun _ => true) =
        q.filterMap (fun p => t.arr.slot p.1 p.2) := by simp
      rw [hfilt] at ht6
      have hqlen : (q.filterMap (fun p => t.arr.slot p.1 p.2)).length = q.length := length_filterMap_of_some q _ hq
      have hsz : t'.size + q.length = t.size := by
        have := ht6.length_eq
        rw [List.length_append, hqlen, ← ht2.size, ← hi.size] at this; omega
      by_cases he : t.arr.hasElems = true
      · rw [htake, h2, recoverX_eq q t hqn hq he, ht1]
        simp only [hd1, hd2]
        refine ⟨ht2, ht3, ht4, ?_, ⟨_, ht6⟩, by simp, h8, ?_⟩
        · exact eraseIfLoop_hasElems q t t' ht1
        · refine (h9.trans hd3).cast (by rw [howned]; simp) ?_
          push_cast; omega
      · exfalso
        have : t.arr.occ = [] := by unfold Arrays.occ; rw [if_neg he]
        rw [this] at hx; cases hx
  | done e1 s =>
    obtain ⟨src, dst, num⟩ := s
    rw [hx] at htr
    obtain ⟨h1, h2, h3, h4⟩ := htr
    simp only at h1 h2 h3 h4 ⊢
    have hur : t.uncheckedRehash new = some { t with arr := dst, ml := Table.initMl dst } := by
      unfold Table.uncheckedRehash; rw [h2, hi.delete_]
    cases mv with
    | true =>
      simp only [srcAfter, if_true] at h1 h3 h4
      have hnum : num = t.size := by rw [h3, hocc]; simp
      obtain ⟨e2, hf1, hf2⟩ := freeX_eq (a := src) (al := t.al) e1 (by rw [h1]; exact hi.al)
        (by rw [h1]; exact clearSlots_all hi.arr)
      rw [if_pos (Or.inl hnum), if_neg (by omega)]
      simp only [hf1]
      refine ⟨hur, (h4.trans hf2).cast ?_ (by simp)⟩
      rw [h1, Int.zero_add]; rfl
    | false =>
      simp only [srcAfter, Bool.false_eq_true, if_false] at h1 h3 h4
      have hnum : num = 0 := by simp [h3]
      subst h1
      rw [if_pos (Or.inr hnum)]
      obtain ⟨a', e2, e3, hd1, hd2, _, hd3, hd4⟩ := destroy_free hi.arr hi.al e1
      by_cases hz : t.size = 0
      · rw [if_neg (by omega)]
        obtain ⟨e2, hf1, hf2⟩ := freeX_eq (a := t.arr) (al := t.al) e1 hi.al
          (Inv.empty_of_contents hi.arr (List.length_eq_zero_iff.mp (hi.size.symm.trans hz)))
        simp only [hf1]
        exact ⟨hur, (h4.trans hf2).cast (by simp) (by rw [hocc]; simp [hz])⟩
      · rw [if_pos (by omega)]
        simp only [hd1, hd2]
        refine ⟨hur, (h4.trans hd3).cast (by simp) ?_⟩
        rw [hocc]; have := hi.size; simp only [Table.contents] at this; omega

end Foa

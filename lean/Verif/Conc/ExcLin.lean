/-
Exceptions in concurrent containers: what operations that return, and operations left by an exception, do to the contents.
-/
import Verif.Conc.ExcInv

namespace Conc.Exc
open Foa Conc.Tab SpecT
open Conc.Locking (Mode)

variable {K V : Type}

theorem Throw.keys {may : Call → Bool} {m m' : Mem K V} {p p' : Pc K V} (h : Throw may m p m' p') (x : K) :
    KeysFrom m m' x ∨ ∃ md y f2 f1 c pb j, p = .insInc (.insert md y f2 f1) c pb j ∧ m.tab.fns.eq x y.1 = true ∧
      m.cnt (m.pos0 y.1) % 2 ^ 32 = c % 2 ^ 32 := by
  cases h with
  | visit md k f pb j y v _ hy => exact .inl (keys_call hy x)
  | found md z f2 f1 pb j y v _ hy => exact .inl (keys_call hy x)
  | erase k p pb j y v _ hy => exact .inl (keys_call hy x)
  | pass md act g j js r y v _ hy => exact .inl (keys_call hy x)
  | inserted md y f2 f1 c pb j v _ h1 h2 =>
    by_cases he : m.tab.fns.eq x y.1 = true
    · exact .inr ⟨md, y, f2, f1, c, pb, j, rfl, he, h1⟩
    · left
      intro i l y' h he'
      simp only [Mem.setSlot, Mem.incCnt, Mem.slot, Arrays.setSlot] at h
      split at h
      · cases h
        exact absurd he' he
      · exact ⟨y', h, rfl⟩
  | _ => exact .inl fun i l y' h _ => ⟨y', h, rfl⟩

/-- Steps of another thread keep equivalent elements ahead of a search, unless one is inserted where there was none. -/
theorem ahead_other {may : Call → Bool} {mv : Bool} {cfg : Cfg} {x x' : XState K V} (hi : XInv x) (hw : NoWrap x.st) {t u : Nat}
    (h : XStepBy may mv cfg u x x') (hu : t ≠ u) {o : KOp K V} (hk : ∀ z, (x.st.pc t).key? = some z → z = o.key)
    (ha : AheadPc x.st.mem (x.st.pc t)) : AheadPc x'.st.mem (x.st.pc t) ∨ NoKey x.st.mem o.key := by
  cases h with
  | base h _ => exact Tab.ahead_other hi.inv hw h hu hk ha
  | @throw m' p' h =>
    obtain ⟨gx, hfr⟩ := h.frame
    by_cases hx : ∀ z, (x.st.pc t).key? = some z → KeysFrom x.st.mem m' z
    · exact .inl (AheadPc.keep hfr hx ha)
    · right
      push Not at hx
      obtain ⟨z, hz, hnk⟩ := hx
      have := hk z hz
      subst this
      rcases h.keys o.key with h' | ⟨md, y, f2, f1, c, pb, j, hq, he, hc⟩
      · exact absurd h' hnk
      · have h1 := hi.inv.noKey hw hq hc
        intro g j z hz
        by_contra hne
        have hz' : x.st.mem.tab.fns.eq o.key z.1 = true := by simpa using hne
        have h2 := h1 g j z hz
        have h3 := hi.inv.law.trans _ _ _ (hi.inv.law.symm _ _ he) hz'
        change x.st.mem.tab.fns.eq y.1 z.1 = false at h2
        rw [h2] at h3
        cases h3
  | alone ho h =>
    left
    have h1 := ho t
    revert h1
    cases x.st.pc t <;> intro h1 <;> first | trivial | cases h1
  | unwound _ _ => exact .inl ha

theorem ThrowAlone.pending {may : Call → Bool} {mv : Bool} {cfg : Cfg} {m m' : Mem K V} {p p' : Pc K V}
    (h : ThrowAlone may mv cfg m p m' p') (hi : m.tab.Inv) {o : KOp K V} (ho : p.pending = some o) :
    p' = .done 0 ∧ Lost m.elems m'.elems ∧ (¬ Losing may mv → Same m.elems m'.elems) := by
  obtain ⟨h1, h2, h3⟩ := h.kept hi
  refine ⟨h1, fun z hz => ?_, fun hn z => ?_⟩
  · rw [mem_elems h2.inv] at hz
    rw [mem_elems hi]
    obtain ⟨lost, hl⟩ := h2.sub
    exact hl.mem_iff.2 (List.mem_append_right _ hz)
  · rw [mem_elems h2.inv, mem_elems hi, h3 hn]

/-- What a step of an insertion that throws may have done. -/
def XThrew (may : Call → Bool) (mv : Bool) (eq : K → K → Bool) (o : KOp K V) (A A' : Con K V) : Prop :=
  (may .pred = true ∧ Threw eq o A A') ∨ (Losing may mv ∧ o.isInsert = true ∧ Lost A A')

theorem pending_not_resting {p : Pc K V} {o : KOp K V} (h : p.pending = some o) : resting p = false := by
  cases p <;> first | rfl | cases h

/-- The state of one operation of thread `t` along a run: under way; unwinding with nothing done; left by an exception; or
returned, with a point where it took effect. -/
theorem lin_points {may : Call → Bool} {mv : Bool} {cfg : Cfg} {σ : Nat → XState K V} {who : Nat → Nat} {n : Nat}
    (hr : XRun may mv cfg σ who n) (h0 : XInv (σ 0))
    {t : Nat} {o : KOp K V} (hs : (σ 0).st.pc t = .start (.key o)) (hd : ∀ i < n, ∀ r, (σ i).st.pc t ≠ .done r) :
    ∀ i ≤ n,
      (((σ i).st.pc t).pending = some o ∧ (σ i).exc t = false ∧
        (∀ l < i, who l = t → Same (σ l).st.mem.elems (σ (l + 1)).st.mem.elems) ∧
        (AheadPc (σ i).st.mem ((σ i).st.pc t) ∨ ∃ l ≤ i, NoKey (σ l).st.mem o.key)) ∨
      ((σ i).exc t = true ∧ ((σ i).st.pc t).pending = some o ∧
        ∀ l < i, who l = t → Same (σ l).st.mem.elems (σ (l + 1)).st.mem.elems) ∨
      ((σ i).exc t = true ∧ (∃ r, ((σ i).st.pc t).result = some r) ∧
        ((∀ l < i, who l = t → Same (σ l).st.mem.elems (σ (l + 1)).st.mem.elems) ∨
         (∃ l < i, who l = t ∧ XThrew may mv (σ 0).st.mem.tab.fns.eq o (σ l).st.mem.elems (σ (l + 1)).st.mem.elems ∧
            ∀ l' < i, who l' = t → l' ≠ l → Same (σ l').st.mem.elems (σ (l' + 1)).st.mem.elems))) ∨
      ((σ i).exc t = false ∧ ∃ r, ((σ i).st.pc t).result = some r ∧
        ((∃ l < i, who l = t ∧ o.Spec (σ 0).st.mem.tab.fns.eq (σ l).st.mem.elems (σ (l + 1)).st.mem.elems r ∧
            ∀ l' < i, who l' = t → l' ≠ l → Same (σ l').st.mem.elems (σ (l' + 1)).st.mem.elems) ∨
         (o.isInsert = false ∧ r = 0 ∧ (∃ l ≤ i, NoKey (σ l).st.mem o.key) ∧
            ∀ l' < i, who l' = t → Same (σ l').st.mem.elems (σ (l' + 1)).st.mem.elems))) := by
  intro i
  induction i with
  | zero =>
    intro _
    left
    have hex : (σ 0).exc t = false := by
      by_contra h
      have := h0.exc t (by simpa using h)
      rw [hs] at this
      cases this
    rw [hs]
    exact ⟨rfl, hex, fun l hl => absurd hl (Nat.not_lt_zero _), .inl trivial⟩
  | succ i ih =>
    intro hi
    have hin : i < n := by omega
    have hstep := hr.step i hin
    obtain ⟨hinv, hfn⟩ := hr.inv h0 i (by omega)
    have hw := hr.nowrap i hin
    -- extending "all steps of `t` keep the contents"
    have ext : ∀ {P : Nat → Prop}, (∀ l < i, who l = t → P l) → (who i = t → P i) → ∀ l < i + 1, who l = t → P l := by
      intro P h1 h2 l hl hlt
      rcases Nat.lt_succ_iff_lt_or_eq.1 hl with hl | rfl
      · exact h1 l hl hlt
      · exact h2 hlt
    by_cases hu : who i = t
    · rw [hu] at hstep
      rcases ih (by omega) with ⟨h1, hex, h2, h3⟩ | ⟨hex, h1, h2⟩ | ⟨hex, ⟨r, h1⟩, h2⟩ | ⟨hex, r, h1, h2⟩
      · -- under way
        generalize hσ : σ (i + 1) = x' at hstep
        have hrest := pending_not_resting h1
        cases hstep with
        | @base s' h _ =>
          have hex' : (σ (i + 1)).exc t = false := by rw [hσ]; simp [hrest, hex]
          have hst : (σ (i + 1)).st = s' := by rw [hσ]
          rw [← hst] at h
          rcases h.pending_self hinv.inv hw h1 with ⟨e1, e2, e3⟩ | ⟨r, e1, e2⟩ | ⟨e1, e2, e3, e4⟩
          · left
            rw [← hσ]
            exact ⟨e1, hex', ext h2 fun _ => e2, h3.imp e3 fun ⟨l, hl, hl'⟩ => ⟨l, by omega, hl'⟩⟩
          · refine .inr (.inr (.inr ?_))
            rw [← hσ]
            refine ⟨hex', r, e1, .inl ⟨i, by omega, hu, ?_, fun l hl hlt hne => h2 l (by omega) hlt⟩⟩
            rw [← hfn]; exact e2
          · refine .inr (.inr (.inr ?_))
            rw [← hσ]
            refine ⟨hex', 0, e2, .inr ⟨e1, rfl, ?_, ext h2 fun _ => e3⟩⟩
            rcases h3 with h3 | ⟨l, hl, hl'⟩
            · exact ⟨i, by omega, e4 h3⟩
            · exact ⟨l, by omega, hl'⟩
        | @throw m' p' h =>
          have hex' : (σ (i + 1)).exc t = true := by rw [hσ]; simp
          have hpc : (σ (i + 1)).st.pc t = p' := by rw [hσ, State.set_pc, upd_self]
          have hmm : (σ (i + 1)).st.mem = m' := by rw [hσ]; rfl
          rw [← hσ, hpc]
          rcases Throw.pending hinv.inv hw h h1 with ⟨e1, e2⟩ | ⟨⟨r, e1⟩, e2⟩
          · refine .inr (.inl ⟨hex', e1, ext h2 fun _ => ?_⟩)
            rw [hmm]; exact e2
          · refine .inr (.inr (.inl ⟨hex', ⟨r, e1⟩, ?_⟩))
            rcases e2 with e2 | ⟨e2, e3⟩
            · refine .inl (ext h2 fun _ => ?_)
              rw [hmm]; exact e2
            · refine .inr ⟨i, by omega, hu, .inl ⟨e2, ?_⟩, fun l hl hlt hne => h2 l (by omega) hlt⟩
              rw [← hfn, hmm]; exact e3
        | @alone m' p' ho h =>
          have hex' : (σ (i + 1)).exc t = true := by rw [hσ]; simp
          have hpc : (σ (i + 1)).st.pc t = p' := by rw [hσ, State.set_pc, upd_self]
          have hmm : (σ (i + 1)).st.mem = m' := by rw [hσ]; rfl
          have hins : o.isInsert = true := by
            have hp := hinv.inv.pcs t
            generalize (σ i).st.pc t = p at h h1 hp
            cases h with
            | ex _ _ _ _ _ => cases h1
            | exBad _ _ _ => cases h1
            | grow o' _ _ _ _ => cases h1; exact hp
            | growBad o' _ _ => cases h1; exact hp
          obtain ⟨e1, e2, e3⟩ := h.pending (hinv.inv.quiescent ho) h1
          rw [← hσ, hpc]
          refine .inr (.inr (.inl ⟨hex', ⟨0, by rw [e1]; rfl⟩, ?_⟩))
          by_cases hl : Losing may mv
          · refine .inr ⟨i, by omega, hu, .inr ⟨hl, hins, ?_⟩, fun l hl hlt hne => h2 l (by omega) hlt⟩
            rw [hmm]; exact e2
          · refine .inl (ext h2 fun _ => ?_)
            rw [hmm]; exact e3 hl
        | unwound e1 e2 => rw [hex] at e1; cases e1
      · -- unwinding, nothing done
        have huw := hinv.exc t hex
        have hrest := pending_not_resting h1
        generalize hσ : σ (i + 1) = x' at hstep
        cases hstep with
        | @base s' h hc =>
          have hex' : (σ (i + 1)).exc t = true := by rw [hσ]; simp [hrest, hex]
          have hst : (σ (i + 1)).st = s' := by rw [hσ]
          rw [← hst] at h
          obtain ⟨_, e2, e3, _⟩ := unwinding_step hinv.inv hw h huw (hc hex) hrest
          rw [← hσ]
          exact .inr (.inl ⟨hex', e3 o h1, ext h2 fun _ => e2⟩)
        | throw h => rw [h.unwinding.2] at huw; cases huw
        | alone ho h =>
          exfalso
          generalize (σ i).st.pc t = p at h huw
          cases h <;> cases huw
        | unwound e1 e2 =>
          have hpc : (σ (i + 1)).st.pc t = .leave 0 := by rw [hσ, State.set_pc, upd_self]
          have hmm : (σ (i + 1)).st.mem = (σ i).st.mem := by rw [hσ]; rfl
          have hex' : (σ (i + 1)).exc t = true := by rw [hσ]; exact e1
          rw [← hσ]
          refine .inr (.inr (.inl ⟨hex', ⟨0, by rw [hpc]; rfl⟩, .inl (ext h2 fun _ => ?_)⟩))
          rw [hmm]; exact Same.rfl' _
      · -- left by an exception
        have huw := hinv.exc t hex
        have hrest : resting ((σ i).st.pc t) = false := by
          have := hd i hin
          generalize (σ i).st.pc t = p at this huw
          cases p <;> first | rfl | (cases huw; done) | exact absurd rfl (this _)
        have hc : ∀ o, (σ i).st.pc t ≠ .counter o := by intro o' hq; rw [hq] at h1; cases h1
        generalize hσ : σ (i + 1) = x' at hstep
        cases hstep with
        | @base s' h _ =>
          have hex' : (σ (i + 1)).exc t = true := by rw [hσ]; simp [hrest, hex]
          have hst : (σ (i + 1)).st = s' := by rw [hσ]
          rw [← hst] at h
          obtain ⟨_, e2, _, e4⟩ := unwinding_step hinv.inv hw h huw hc hrest
          rw [← hσ]
          refine .inr (.inr (.inl ⟨hex', ⟨r, e4 r h1⟩, ?_⟩))
          rcases h2 with h2 | ⟨l, hl, hlt, hsp, hsame⟩
          · exact .inl (ext h2 fun _ => e2)
          · refine .inr ⟨l, by omega, hlt, hsp, ?_⟩
            intro l' hl' hlt' hne
            rcases Nat.lt_succ_iff_lt_or_eq.1 hl' with hl' | rfl
            · exact hsame l' hl' hlt' hne
            · exact e2
        | throw h => rw [h.not_result] at h1; cases h1
        | alone ho h =>
          exfalso
          generalize (σ i).st.pc t = p at h huw
          cases h <;> cases huw
        | unwound e1 e2 => exact absurd e2 (hc _)
      · -- has taken effect
        have hrest : resting ((σ i).st.pc t) = false := by
          have := hd i hin
          generalize (σ i).st.pc t = p at this h1
          cases p <;> first | rfl | (cases h1; done) | exact absurd rfl (this _)
        generalize hσ : σ (i + 1) = x' at hstep
        cases hstep with
        | @base s' h _ =>
          have hex' : (σ (i + 1)).exc t = false := by rw [hσ]; simp [hrest, hex]
          have hst : (σ (i + 1)).st = s' := by rw [hσ]
          rw [← hst] at h
          obtain ⟨e1, e2⟩ := h.result_self hinv.inv hw h1 (hd i hin)
          rw [← hσ]
          refine .inr (.inr (.inr ⟨hex', r, e1, ?_⟩))
          rcases h2 with ⟨l, hl, hlt, hsp, hsame⟩ | ⟨q1, q2, ⟨l, hl, hl'⟩, q4⟩
          · refine .inl ⟨l, by omega, hlt, hsp, ?_⟩
            intro l' hl' hlt' hne
            rcases Nat.lt_succ_iff_lt_or_eq.1 hl' with hl' | rfl
            · exact hsame l' hl' hlt' hne
            · exact e2
          · exact .inr ⟨q1, q2, ⟨l, by omega, hl'⟩, ext q4 fun _ => e2⟩
        | throw h => rw [h.not_result] at h1; cases h1
        | alone ho h =>
          exfalso
          generalize (σ i).st.pc t = p at h h1
          cases h <;> cases h1
        | unwound e1 e2 => rw [hex] at e1; cases e1
    · obtain ⟨hpc, hexc⟩ := hstep.other (t := t) (fun h => hu h.symm)
      rw [hpc, hexc]
      rcases ih (by omega) with ⟨h1, hex, h2, h3⟩ | ⟨hex, h1, h2⟩ | ⟨hex, h1, h2⟩ | ⟨hex, r, h1, h2⟩
      · left
        refine ⟨h1, hex, ext h2 fun h => absurd h hu, ?_⟩
        rcases h3 with h3 | ⟨l, hl, hl'⟩
        · rcases ahead_other hinv hw hstep (fun h => hu h.symm) (pending_key h1) h3 with h4 | h4
          · exact .inl h4
          · exact .inr ⟨i, by omega, h4⟩
        · exact .inr ⟨l, by omega, hl'⟩
      · exact .inr (.inl ⟨hex, h1, ext h2 fun h => absurd h hu⟩)
      · refine .inr (.inr (.inl ⟨hex, h1, ?_⟩))
        rcases h2 with h2 | ⟨l, hl, hlt, hsp, hsame⟩
        · exact .inl (ext h2 fun h => absurd h hu)
        · refine .inr ⟨l, by omega, hlt, hsp, ?_⟩
          intro l' hl' hlt' hne
          rcases Nat.lt_succ_iff_lt_or_eq.1 hl' with hl' | rfl
          · exact hsame l' hl' hlt' hne
          · exact absurd hlt' hu
      · refine .inr (.inr (.inr ⟨hex, r, h1, ?_⟩))
        rcases h2 with ⟨l, hl, hlt, hsp, hsame⟩ | ⟨q1, q2, ⟨l, hl, hl'⟩, q4⟩
        · refine .inl ⟨l, by omega, hlt, hsp, ?_⟩
          intro l' hl' hlt' hne
          rcases Nat.lt_succ_iff_lt_or_eq.1 hl' with hl' | rfl
          · exact hsame l' hl' hlt' hne
          · exact absurd hlt' hu
        · exact .inr ⟨q1, q2, ⟨l, by omega, hl'⟩, ext q4 fun h => absurd h hu⟩

end Conc.Exc

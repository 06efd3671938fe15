/-
Where calls on node handles take effect. Lemmas only; the model is `Verif.Conc.Nodes`.
-/
import Verif.Conc.NodesRun

namespace Conc.Nodes
open Conc.Tab Foa Node
open SpecT (Con Same Replaced Removed Added Present)
open Spec (upd)
open Conc.Locking (Mode)

variable {K V : Type}

/-- The handle and the node in it have not changed. -/
def Kept (s s' : St K V) (g : Nat) : Prop := s'.hnd g = s.hnd g ∧ ∀ i, (s.hnd g).p = some i → s'.heap.cell i = s.heap.cell i

theorem Kept.rfl {s : St K V} {g : Nat} : Kept s s g := ⟨_root_.rfl, fun _ _ => _root_.rfl⟩
theorem Kept.trans {s s' s'' : St K V} {g : Nat} (h : Kept s s' g) (h' : Kept s' s'' g) : Kept s s'' g :=
  ⟨h'.1.trans h.1, fun i hi => (h'.2 i (by rw [h.1]; exact hi)).trans (h.2 i hi)⟩

theorem kept_keep {al : Nat} {k : Task} {es : List (Elem K V)} {s s' : St K V} {g : Nat}
    (h : apply al k es s.heap s.hnd .keep = some (s'.heap, s'.hnd)) : Kept s s' g := by
  simp only [apply, Option.some.injEq, Prod.mk.injEq] at h
  exact ⟨by rw [h.2], fun i _ => by rw [h.1]⟩

/-- The state of a call of thread `t` after `call`. -/
def Points (al : Nat) (σ : Nat → St K V) (ls : Nat → Lab K V) (t g a : Nat) (o : KOp K (Nat × V)) (k : Task) (i : Nat) : Prop :=
  (σ i).task t = k ∧
  ((((σ i).tab.pc t).pending = some o ∧ Kept (σ a) (σ i) g ∧
      (∀ l, a < l → l < i → ls l = .tab t → Same (σ l).tab.mem.elems (σ (l + 1)).tab.mem.elems) ∧
      (AheadPc (σ i).tab.mem ((σ i).tab.pc t) ∨ ∃ l, a < l ∧ l ≤ i ∧ NoKey (σ l).tab.mem o.key)) ∨
   ∃ r, ((σ i).tab.pc t).result = some r ∧
    ((∃ l, a < l ∧ l < i ∧ ls l = .tab t ∧ o.Spec (σ a).tab.mem.tab.fns.eq (σ l).tab.mem.elems (σ (l + 1)).tab.mem.elems r ∧
        Kept (σ a) (σ l) g ∧ Effect o r (change (σ l).tab.mem ((σ l).tab.pc t)) ∧
        apply al k (σ l).tab.mem.tab.contents (σ l).heap (σ l).hnd (change (σ l).tab.mem ((σ l).tab.pc t)) =
          some ((σ (l + 1)).heap, (σ (l + 1)).hnd) ∧
        Kept (σ (l + 1)) (σ i) g ∧
        ∀ l', a < l' → l' < i → ls l' = .tab t → l' ≠ l → Same (σ l').tab.mem.elems (σ (l' + 1)).tab.mem.elems) ∨
     (o.isInsert = false ∧ r = 0 ∧ Kept (σ a) (σ i) g ∧ (∃ l, a < l ∧ l ≤ i ∧ NoKey (σ l).tab.mem o.key) ∧
        ∀ l', a < l' → l' < i → ls l' = .tab t → Same (σ l').tab.mem.elems (σ (l' + 1)).tab.mem.elems)))

theorem points {cfg : Foa.Cfg} {pocma : Bool} {al : Nat} {σ : Nat → St K V} {ls : Nat → Lab K V} {n : Nat}
    (hr : Run cfg pocma al σ ls n) (h0 : Inv al (σ 0)) {t g a : Nat} {c : Call K V} {o : KOp K (Nat × V)} {k : Task}
    (ha : ls a = .call t c) (ho : c.op (σ a) = some (.key o)) (hk : c.task (σ a) = k) (hu : k.uses = some g) {b : Nat} (hb : b < n)
    (hret : ∀ i, a < i → i < b → ∀ q, ls i ≠ .ret t q) :
    ∀ i, a < i → i ≤ b → Points al σ ls t g a o k i := by
  intro i
  induction i with
  | zero => intro h; exact absurd h (Nat.not_lt_zero _)
  | succ i ih =>
    intro hai hib
    have hin : i < n := by omega
    have hstep := hr.step i hin
    have hinv := hr.inv h0 i (by omega)
    have hw := hr.nowrap i hin
    by_cases hia : i = a
    · subst hia
      rw [ha] at hstep
      generalize hσ : σ (i + 1) = s' at hstep
      cases hstep with
      | call u c' o' hf hp ho' =>
        rw [ho] at ho'
        cases ho'
        refine ⟨?_, .inl ⟨?_, ?_, fun l hl1 hl2 => by omega, .inl ?_⟩⟩
        · rw [hσ]; simp [supd, hk]
        · rw [hσ]; simp [State.set, Pc.pending]
        · rw [hσ]; exact ⟨rfl, fun _ _ => rfl⟩
        · rw [hσ]; simp [State.set, AheadPc]
    · have hlt : a < i := by omega
      obtain ⟨h1, h2⟩ := ih hlt (by omega)
      have hus : ((σ i).task t).uses = some g := by rw [h1]; exact hu
      by_cases hl : ls i = .tab t
      · rw [hl] at hstep
        obtain ⟨e1, hs, hd, happ⟩ := tab_self hinv hw hstep
        rw [h1] at happ
        refine ⟨by rw [e1, h1], ?_⟩
        rcases h2 with ⟨p1, p2, p3, p4⟩ | ⟨r, p1, p2⟩
        · rcases hs.pending_self hinv.tab hw p1 with ⟨q1, q2, q3⟩ | ⟨r, q1, q2⟩ | ⟨q1, q2, q3, q4⟩
          · left
            have hkeep : change (σ i).tab.mem ((σ i).tab.pc t) = .keep := by
              rcases step_own hinv.tab hw hs p1 with ⟨_, e⟩ | ⟨r, e, _⟩
              · exact e
              · rw [result_pending e] at q1; cases q1
            rw [hkeep] at happ
            refine ⟨q1, p2.trans (kept_keep happ), fun l hl1 hl2 hl3 => ?_, ?_⟩
            · rcases Nat.lt_succ_iff_lt_or_eq.1 hl2 with h | rfl
              · exact p3 l hl1 h hl3
              · exact q2
            · exact p4.imp q3 (fun ⟨l, x, y, z⟩ => ⟨l, x, by omega, z⟩)
          · right
            refine ⟨r, q1, .inl ⟨i, hlt, by omega, hl, ?_, p2, ?_, happ, Kept.rfl, fun l' x y z w => p3 l' x (by omega) z⟩⟩
            · rw [show (σ a).tab.mem.tab.fns = (σ i).tab.mem.tab.fns by
                rw [hr.fns h0 a (by omega), hr.fns h0 i (by omega)]]
              exact q2
            · rcases step_own hinv.tab hw hs p1 with ⟨e, _⟩ | ⟨r', e, e'⟩
              · rw [result_pending q1] at e; cases e
              · rw [q1] at e; cases e; exact e'
          · right
            have hkeep : change (σ i).tab.mem ((σ i).tab.pc t) = .keep := by
              rcases step_own hinv.tab hw hs p1 with ⟨_, e⟩ | ⟨r, e, e'⟩
              · exact e
              · rw [q2] at e; cases e
                cases o with
                | visit => exact e'
                | insert => cases q1
                | erase =>
                  rcases e' with ⟨e, _⟩ | ⟨_, e⟩
                  · cases e
                  · exact e
            rw [hkeep] at happ
            refine ⟨0, q2, .inr ⟨q1, rfl, p2.trans (kept_keep happ), ?_, fun l hl1 hl2 hl3 => ?_⟩⟩
            · rcases p4 with h | ⟨l, x, y, z⟩
              · exact ⟨i, hlt, by omega, q4 h⟩
              · exact ⟨l, x, by omega, z⟩
            · rcases Nat.lt_succ_iff_lt_or_eq.1 hl2 with h | rfl
              · exact p3 l hl1 h hl3
              · exact q3
        · obtain ⟨q1, q2⟩ := step_result hinv.tab hw hs p1 hd
          have q3 := (hs.result_self hinv.tab hw p1 hd).2
          rw [q2] at happ
          have hkk : Kept (σ i) (σ (i + 1)) g := kept_keep happ
          right
          refine ⟨r, q1, ?_⟩
          rcases p2 with ⟨l, x1, x2, x3, x4, x5, x6, x7, x8, x9⟩ | ⟨x1, x2, x3, ⟨l, x4, x5, x6⟩, x7⟩
          · refine .inl ⟨l, x1, by omega, x3, x4, x5, x6, x7, x8.trans hkk, fun l' hl1 hl2 hl3 hne => ?_⟩
            rcases Nat.lt_succ_iff_lt_or_eq.1 hl2 with h | rfl
            · exact x9 l' hl1 h hl3 hne
            · exact q3
          · refine .inr ⟨x1, x2, x3.trans hkk, ⟨l, x4, by omega, x6⟩, fun l' hl1 hl2 hl3 => ?_⟩
            rcases Nat.lt_succ_iff_lt_or_eq.1 hl2 with h | rfl
            · exact x7 l' hl1 h hl3
            · exact q3
      · obtain ⟨f1, f2, f3⟩ := hstep.frame hinv hw hus hl (hret i hlt (by omega))
        refine ⟨by rw [f1, h1], ?_⟩
        rw [f2]
        rcases h2 with ⟨p1, p2, p3, p4⟩ | ⟨r, p1, p2⟩
        · left
          refine ⟨p1, p2.trans f3, fun l hl1 hl2 hl3 => ?_, ?_⟩
          · rcases Nat.lt_succ_iff_lt_or_eq.1 hl2 with h | rfl
            · exact p3 l hl1 h hl3
            · exact absurd hl3 hl
          · rcases p4 with h | ⟨l, x, y, z⟩
            · rcases hstep.table hinv hw with ⟨u, hu', hs⟩ | ⟨_, e⟩
              · by_cases hut : t = u
                · subst hut
                  exfalso
                  cases hls : ls i with
                  | call u' c' =>
                    rw [hls] at hu' hstep
                    cases hu'
                    generalize σ (i + 1) = s' at hstep
                    cases hstep with
                    | call _ _ o' hf _ _ => rw [hf.1] at hus; cases hus
                  | tab u' => rw [hls] at hu'; cases hu'; exact hl hls
                  | _ => rw [hls] at hu'; cases hu'
                · rcases ahead_other hinv.tab hw hs hut (pending_key p1) h with h4 | h4
                  · exact .inl h4
                  · exact .inr ⟨i, hlt, by omega, h4⟩
              · rw [e]; exact .inl h
            · exact .inr ⟨l, x, by omega, z⟩
        · right
          refine ⟨r, p1, ?_⟩
          rcases p2 with ⟨l, x1, x2, x3, x4, x5, x6, x7, x8, x9⟩ | ⟨x1, x2, x3, ⟨l, x4, x5, x6⟩, x7⟩
          · refine .inl ⟨l, x1, by omega, x3, x4, x5, x6, x7, x8.trans f3, fun l' hl1 hl2 hl3 hne => ?_⟩
            rcases Nat.lt_succ_iff_lt_or_eq.1 hl2 with h | rfl
            · exact x9 l' hl1 h hl3 hne
            · exact absurd hl3 hl
          · refine .inr ⟨x1, x2, x3.trans f3, ⟨l, x4, by omega, x6⟩, fun l' hl1 hl2 hl3 => ?_⟩
            rcases Nat.lt_succ_iff_lt_or_eq.1 hl2 with h | rfl
            · exact x7 l' hl1 h hl3
            · exact absurd hl3 hl

end Conc.Nodes

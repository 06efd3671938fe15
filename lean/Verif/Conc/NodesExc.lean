/-
Node handles of concurrent node containers (concurrent_node_map, concurrent_node_set) when user code throws: `insert(std::move(nh))`
and its `_or_visit`, `_and_visit` forms.
Sources: /repo/include/boost/unordered/concurrent_node_map.hpp:512-530, 603-620 (likewise concurrent_node_set.hpp),
/repo/include/boost/unordered/detail/foa/node_map_types.hpp:65-70, /repo/include/boost/unordered/detail/foa/concurrent_table.hpp:1682-1724.

The container is that of `Verif.Conc.Exc`; its keys are pairs (key, address of the node), hashed and compared by the first component:
callbacks cannot change either. The handle is followed along the steps of the thread that inserts from it; in `Verif.Conc.Nodes`, where
nothing throws, handles and nodes are part of the state. Simplification: the constructor of a slot from an element being moved
(node_map_types.hpp:65-70) is not allowed to throw in the code; here it is, as for every insertion (more behaviours).
-/
import Verif.Conc.ExcLin
import Verif.Node.Handle

namespace Conc.Exc
open Foa Conc.Tab SpecT
open Conc.Locking (Mode)

variable {K V : Type}

/-- Hash function and equality of the user, for keys with the address of a node. -/
def onKey (f : Fns K) : Fns (K × Nat) := ⟨fun x => f.hash x.1, fun x y => f.eq x.1 y.1⟩

theorem onKey_lawful {f : Fns K} (h : f.Lawful) : (onKey f).Lawful :=
  ⟨fun _ => h.hash_lt _, fun _ => h.refl _, fun _ _ => h.symm _ _, fun _ _ _ => h.trans _ _ _, fun _ _ => h.compat _ _⟩

/-- This step of thread `t` runs `construct_element(p,std::move(x))` in the slot it has reserved (concurrent_table.hpp:1706-1712). -/
def constructs (x x' : XState K V) (t : Nat) : Bool :=
  match x.st.pc t with
  | .insInc _ _ pb j => (x'.st.mem.slot pb.pos j).isSome
  | _ => false

/-- The handle `h` that thread `t` inserts from, `j` steps after step `a`: `construct_element` copies the pointer and nulls the one in
the handle, `access::element(nh)` (node_map_types.hpp:65-70). Nothing else happens to the handle before the insertion returns. -/
def handleAt (σ : Nat → XState K V) (who : Nat → Nat) (t a : Nat) (h : Node.Hnd) : Nat → Node.Hnd
  | 0 => h
  | j + 1 =>
    if who (a + j) = t ∧ constructs (σ (a + j)) (σ (a + j + 1)) t = true then { handleAt σ who t a h j with p := none }
    else handleAt σ who t a h j

/-- `access::reset(nh)` if the insertion answers true; otherwise the handle is returned (concurrent_node_map.hpp:523-528). An exception
skips this. -/
def handleReturned (h : Node.Hnd) (r : Nat) : Option Node.Hnd := if r = 1 then Node.Open.reset h else some h

/-- No key is new. -/
def NoNew (A A' : Con K V) : Prop := ∀ y, A' y → ∃ y', A y' ∧ y'.1 = y.1

theorem NoNew.of_same {A A' : Con K V} (h : Same A A') : NoNew A A' := fun y hy => ⟨y, (h y).1 hy, rfl⟩

theorem NoNew.of_lost {A A' : Con K V} (h : Lost A A') : NoNew A A' := fun y hy => ⟨y, h y hy, rfl⟩

theorem NoNew.of_replaced {A A' : Con K V} {y : K × V} {v : V} (hy : A y) (h : Replaced A A' y (y.1, v)) : NoNew A A' := by
  intro z hz
  rcases (h z).1 hz with h | rfl
  · exact ⟨z, h.1, rfl⟩
  · exact ⟨y, hy, rfl⟩

theorem constructs_false {x x' : XState K V} {t : Nat} (h : ∀ o c pb j, x.st.pc t ≠ .insInc o c pb j) : constructs x x' t = false := by
  unfold constructs
  split
  · rename_i o c pb j e; exact absurd e (h o c pb j)
  · rfl

/-- A step of an insertion that has not taken effect yet. -/
theorem insert_step {may : Call → Bool} {mv : Bool} {cfg : Cfg} {x x' : XState K V} (hi : XInv x) (hw : NoWrap x.st) {t : Nat}
    (h : XStepBy may mv cfg t x x') {md : Mode} {z : K × V} {f2 f1 : K × V → V}
    (ho : (x.st.pc t).pending = some (.insert md z f2 f1)) :
    (constructs x x' t = false ∧ NoNew x.st.mem.elems x'.st.mem.elems) ∨
    (constructs x x' t = true ∧ (∃ r, (x'.st.pc t).result = some r) ∧ ¬ Present x.st.mem.tab.fns.eq x.st.mem.elems z.1 ∧
      ∃ v, Added x.st.mem.elems x'.st.mem.elems (z.1, v)) := by
  have hp := hi.inv.pcs t
  have hput : ∀ {m : Mem K V} {g j : Nat} {y : K × V}, (m.setSlot g j (some y)).slot g j = some y := by
    intro m g j y; simp [Mem.setSlot, Mem.slot, Arrays.setSlot]
  cases h with
  | @base s' hs hx =>
    have hbad := pcOk_not_bad ((hi.inv.step hw hs).pcs t)
    cases hs with
    | @quiet pc' hq =>
      left
      refine ⟨constructs_false fun o c pb j e => ?_, NoNew.of_same (Same.rfl' _)⟩
      rw [e] at hq; cases hq
    | @eff m' pc' hq =>
      rw [State.set_pc, upd_self] at hbad
      have key : ∀ p, x.st.pc t = p → Eff x.st.mem p m' pc' →
          ((∀ o c pb j, p = .insInc o c pb j → m'.slot pb.pos j = none) ∧ NoNew x.st.mem.elems m'.elems) ∨
          ((∃ o c pb j, p = .insInc o c pb j ∧ (m'.slot pb.pos j).isSome = true) ∧ (∃ r, pc'.result = some r) ∧
            ¬ Present x.st.mem.tab.fns.eq x.st.mem.elems z.1 ∧ ∃ v, Added x.st.mem.elems m'.elems (z.1, v)) := by
        intro p hpe hq
        rw [hpe] at ho hp
        cases hq with
        | found md xx f2 f1 pb j y hy =>
          cases ho
          exact .inl ⟨(fun _ _ _ _ e => nomatch e), NoNew.of_replaced ⟨_, _, hy⟩ (elems_call hi.inv.shape hi.inv.law hy)⟩
        | insert md xx f2 f1 c pb j hc hn =>
          cases ho
          refine .inr ⟨⟨_, _, _, _, rfl, by rw [hput]; rfl⟩, ⟨1, rfl⟩, noKey_iff.1 (hi.inv.noKey hw hpe hc), f1 z, ?_⟩
          exact elems_put (m := x.st.mem.incCnt _) hn
        | insertBad => exact absurd rfl hbad
        | startOver o c pb j hc =>
          left
          refine ⟨fun o' c' pb' j' e => ?_, NoNew.of_same (Same.rfl' _)⟩
          cases e
          exact hp.2.1.2.2.1
        | _ => first
          | cases ho; done
          | exact absurd rfl hbad
          | exact .inl ⟨(fun _ _ _ _ e => nomatch e), NoNew.of_same (Same.rfl' _)⟩
      rcases key _ rfl hq with ⟨h1, h2⟩ | ⟨⟨o, c, pb, j, e, h1⟩, ⟨r, h2⟩, h3⟩
      · left
        refine ⟨?_, by simpa only [State.set_mem, State.set_pc, upd_self] using h2⟩
        unfold constructs
        split
        · rename_i o c pb j e; simp [State.set, h1 _ _ _ _ e]
        · rfl
      · right
        refine ⟨?_, ⟨r, by simpa only [State.set_mem, State.set_pc, upd_self] using h2⟩, by simpa only [State.set_mem, State.set_pc, upd_self] using h3⟩
        simp only [constructs, e, State.set_mem, h1]
    | @alone m' pc' hout hq =>
      left
      refine ⟨constructs_false fun o c pb j e => ?_, NoNew.of_same ?_⟩
      · rw [e] at hq; cases hq
      · simpa only [State.set_mem, State.set_pc, upd_self] using (hq.pending (hi.inv.quiescent hout) ho).2
  | @throw m' p' hq =>
    have key : ∀ p, x.st.pc t = p → Throw may x.st.mem p m' p' →
        ((∀ o c pb j, p = .insInc o c pb j → m'.slot pb.pos j = none) ∧ NoNew x.st.mem.elems m'.elems) ∨
        ((∃ o c pb j, p = .insInc o c pb j ∧ (m'.slot pb.pos j).isSome = true) ∧ (∃ r, p'.result = some r) ∧
          ¬ Present x.st.mem.tab.fns.eq x.st.mem.elems z.1 ∧ ∃ v, Added x.st.mem.elems m'.elems (z.1, v)) := by
      intro p hpe hq
      rw [hpe] at ho hp
      cases hq with
      | found md xx f2 f1 pb j y v _ hy =>
        cases ho
        exact .inl ⟨(fun _ _ _ _ e => nomatch e), NoNew.of_replaced ⟨_, _, hy⟩ (elems_call hi.inv.shape hi.inv.law hy)⟩
      | construct o c pb j _ hc hn =>
        left
        refine ⟨fun o' c' pb' j' e => ?_, NoNew.of_same (same_cnt _ _)⟩
        cases e
        exact hn
      | inserted md xx f2 f1 c pb j v _ hc hn =>
        cases ho
        refine .inr ⟨⟨_, _, _, _, rfl, by rw [hput]; rfl⟩, ⟨0, rfl⟩, noKey_iff.1 (hi.inv.noKey hw hpe hc), v, ?_⟩
        exact elems_put (m := x.st.mem.incCnt _) hn
      | _ => first
        | cases ho; done
        | exact .inl ⟨(fun _ _ _ _ e => nomatch e), NoNew.of_same (Same.rfl' _)⟩
    rcases key _ rfl hq with ⟨h1, h2⟩ | ⟨⟨o, c, pb, j, e, h1⟩, ⟨r, h2⟩, h3⟩
    · left
      refine ⟨?_, by simpa only [State.set_mem, State.set_pc, upd_self] using h2⟩
      unfold constructs
      split
      · rename_i o c pb j e; simp [State.set, h1 _ _ _ _ e]
      · rfl
    · right
      refine ⟨?_, ⟨r, by simpa only [State.set_mem, State.set_pc, upd_self] using h2⟩, by simpa only [State.set_mem, State.set_pc, upd_self] using h3⟩
      simp only [constructs, e, State.set_mem, h1]
  | @alone m' p' hout hq =>
    left
    obtain ⟨_, h2, _⟩ := hq.pending (hi.inv.quiescent hout) ho
    refine ⟨constructs_false fun o c pb j e => ?_, NoNew.of_lost (by simpa only [State.set_mem, State.set_pc, upd_self] using h2)⟩
    rw [e] at hq; cases hq
  | @unwound o he hq =>
    left
    refine ⟨constructs_false fun o c pb j e => ?_, NoNew.of_same (by simpa only [State.set_mem, State.set_pc, upd_self] using Same.rfl' _)⟩
    rw [e] at hq; cases hq

/-- A step after the insertion has taken effect or has been left by an exception that has undone it. -/
theorem result_step {may : Call → Bool} {mv : Bool} {cfg : Cfg} {x x' : XState K V} (hi : XInv x) (hw : NoWrap x.st) {t : Nat}
    (h : XStepBy may mv cfg t x x') {r : Nat} (hr : (x.st.pc t).result = some r) (hd : ∀ r', x.st.pc t ≠ .done r') :
    constructs x x' t = false ∧ (x'.st.pc t).result = some r ∧ NoNew x.st.mem.elems x'.st.mem.elems := by
  refine ⟨constructs_false (fun o c pb j e => by rw [e] at hr; cases hr), ?_⟩
  cases h with
  | base hs hx =>
    obtain ⟨h1, h2⟩ := hs.result_self hi.inv hw hr hd
    exact ⟨h1, NoNew.of_same h2⟩
  | throw hq => rw [hq.not_result] at hr; cases hr
  | @alone m' p' hout hq =>
    exfalso
    generalize x.st.pc t = p at hr hq
    cases hq <;> cases hr
  | unwound he hq => rw [hq] at hr; cases hr

/-- The handle along an insertion that is under way: untouched while nothing has been inserted, else without its node. -/
theorem handle_points {may : Call → Bool} {mv : Bool} {cfg : Cfg} {σ : Nat → XState K V} {who : Nat → Nat} {n : Nat}
    (hr : XRun may mv cfg σ who n) (h0 : XInv (σ 0)) {t : Nat} {md : Mode} {z : K × V} {f2 f1 : K × V → V} {a b : Nat} (hab : a ≤ b)
    (hbn : b ≤ n) (hs : (σ a).st.pc t = .start (.key (.insert md z f2 f1))) (hd : ∀ i, a ≤ i → i < b → ∀ r, (σ i).st.pc t ≠ .done r)
    (h : Node.Hnd) :
    ∀ j, a + j ≤ b →
      (((σ (a + j)).st.pc t).pending = some (.insert md z f2 f1) ∧ handleAt σ who t a h j = h ∧
        ∀ l, a ≤ l → l < a + j → who l = t → NoNew (σ l).st.mem.elems (σ (l + 1)).st.mem.elems) ∨
      ((∃ r, ((σ (a + j)).st.pc t).result = some r) ∧
        ((handleAt σ who t a h j = h ∧
          ∀ l, a ≤ l → l < a + j → who l = t → NoNew (σ l).st.mem.elems (σ (l + 1)).st.mem.elems) ∨
         (handleAt σ who t a h j = { h with p := none } ∧ ∃ l, a ≤ l ∧ l < a + j ∧ who l = t ∧
            ¬ Present (σ l).st.mem.tab.fns.eq (σ l).st.mem.elems z.1 ∧
            (∃ v, Added (σ l).st.mem.elems (σ (l + 1)).st.mem.elems (z.1, v)) ∧
            ∀ l', a ≤ l' → l' < a + j → who l' = t → l' ≠ l → NoNew (σ l').st.mem.elems (σ (l' + 1)).st.mem.elems))) := by
  intro j
  induction j with
  | zero =>
    intro _
    exact .inl ⟨by rw [Nat.add_zero, hs]; rfl, rfl, fun l h1 h2 => by omega⟩
  | succ j ih =>
    intro hj
    have hin : a + j < b := by omega
    have hinv := (hr.inv h0 (a + j) (by omega)).1
    have hstep := hr.step (a + j) (by omega)
    have hw := hr.nowrap (a + j) (by omega)
    have hdj := hd (a + j) (by omega) hin
    have snoc : ∀ {P : Nat → Prop}, (∀ l, a ≤ l → l < a + j → who l = t → P l) → (who (a + j) = t → P (a + j)) →
        ∀ l, a ≤ l → l < a + (j + 1) → who l = t → P l := by
      intro P h1 h2 l x1 x2 x3
      by_cases e : l = a + j
      · subst e; exact h2 x3
      · exact h1 l x1 (by omega) x3
    by_cases hwho : who (a + j) = t
    · rw [hwho] at hstep
      rcases ih (by omega) with ⟨p1, p2, p3⟩ | ⟨⟨r, p1⟩, p2⟩
      · have hnext : ((σ (a + j + 1)).st.pc t).pending = some (.insert md z f2 f1) ∨ ∃ r, ((σ (a + j + 1)).st.pc t).result = some r := by
          have hp0 : (σ (a + j)).st.pc t = (σ (a + j)).st.pc t := rfl
          have key := lin_points (σ := fun i => σ (a + i)) (who := fun i => who (a + i)) (n := b - a) (mv := mv) (may := may) (cfg := cfg)
            ⟨fun i hi => hr.step (a + i) (by omega), fun i hi => hr.nowrap (a + i) (by omega)⟩ (hr.inv h0 a (by omega)).1
            (t := t) (o := .insert md z f2 f1) hs (fun i hi r => hd (a + i) (by omega) (by omega) r) (j + 1) (by omega)
          rcases key with ⟨k, _⟩ | ⟨_, k, _⟩ | ⟨_, k, _⟩ | ⟨_, r, k, _⟩
          · exact .inl k
          · exact .inl k
          · exact .inr k
          · exact .inr ⟨r, k⟩
        rcases insert_step hinv hw hstep p1 with ⟨q1, q2⟩ | ⟨q1, q2, q3, q4⟩
        · have hh : handleAt σ who t a h (j + 1) = h := by simp only [handleAt, hwho, q1, Bool.false_eq_true, and_false, if_false, p2]
          rcases hnext with k | k
          · exact .inl ⟨k, hh, snoc p3 fun _ => q2⟩
          · exact .inr ⟨k, .inl ⟨hh, snoc p3 fun _ => q2⟩⟩
        · have hh : handleAt σ who t a h (j + 1) = { h with p := none } := by
            simp only [handleAt, hwho, q1, and_self, if_true, p2]
          refine .inr ⟨q2, .inr ⟨hh, a + j, by omega, by omega, hwho, q3, q4, ?_⟩⟩
          intro l' x1 x2 x3 x4
          exact p3 l' x1 (by omega) x3
      · obtain ⟨q1, q2, q3⟩ := result_step hinv hw hstep p1 hdj
        have hh : handleAt σ who t a h (j + 1) = handleAt σ who t a h j := by
          simp only [handleAt, hwho, q1, Bool.false_eq_true, and_false, if_false]
        refine .inr ⟨⟨r, q2⟩, ?_⟩
        rw [hh]
        rcases p2 with ⟨x1, x2⟩ | ⟨x1, l, x2, x3, x4, x5, x6, x7⟩
        · exact .inl ⟨x1, snoc x2 fun _ => q3⟩
        · refine .inr ⟨x1, l, x2, by omega, x4, x5, x6, fun l' y1 y2 y3 y4 => ?_⟩
          by_cases e : l' = a + j
          · subst e; exact q3
          · exact x7 l' y1 (by omega) y3 y4
    · have hpc : (σ (a + j + 1)).st.pc t = (σ (a + j)).st.pc t := (hstep.other (Ne.symm hwho)).1
      have hh : handleAt σ who t a h (j + 1) = handleAt σ who t a h j := by simp only [handleAt, hwho, false_and, if_false]
      rw [hh, ← Nat.add_assoc, hpc]
      rcases ih (by omega) with ⟨p1, p2, p3⟩ | ⟨p1, p2⟩
      · exact .inl ⟨p1, p2, snoc p3 fun h => absurd h hwho⟩
      · refine .inr ⟨p1, ?_⟩
        rcases p2 with ⟨x1, x2⟩ | ⟨x1, l, x2, x3, x4, x5, x6, x7⟩
        · exact .inl ⟨x1, snoc x2 fun h => absurd h hwho⟩
        · refine .inr ⟨x1, l, x2, by omega, x4, x5, x6, fun l' y1 y2 y3 y4 => ?_⟩
          exact x7 l' y1 (by by_contra hc; exact hwho ((show l' = a + j by omega) ▸ y3)) y3 y4

end Conc.Exc

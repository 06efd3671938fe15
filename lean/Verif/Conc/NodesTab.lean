/-
Steps of the concurrent table seen by the nodes. Lemmas only; the model is `Verif.Conc.Nodes`.
-/
import Verif.Conc.Nodes
import Verif.Conc.TabLin

namespace Conc.Nodes
open Conc.Tab Foa SpecT
open Conc.Locking (Mode)

variable {K V : Type}

/-! ### callbacks do not see the nodes -/

def FPres (f : Elem K V → Nat × V) : Prop := ∀ y, (f y).1 = y.2.1

def KPres : KOp K (Nat × V) → Prop
  | .visit _ _ f => FPres f
  | .insert _ _ f2 f1 => FPres f2 ∧ FPres f1
  | .erase _ p => ∀ y v, p y = some v → v.1 = y.2.1

def APres (act : Elem K V → Verdict (Nat × V)) : Prop :=
  (∀ y v n, act y = .go v n → v.1 = y.2.1) ∧ ∀ y v n, act y = .stop v n → v.1 = y.2.1

/-- The callbacks of the call in progress do not see the nodes, and it is one of the modelled calls. -/
def Fine : Pc K (Nat × V) → Prop
  | .start (.key o) | .full o | .counter o | .scan o _ _ _ _ | .lock o _ _ _ | .check o _ _ _ | .over o _ _ | .hit o _ _
  | .reserve o _ | .test o _ _ | .failSize o | .insLock o _ _ | .insFind o _ _ | .insNext o _ _ | .insInc o _ _ _
  | .rollReset o _ _ | .rollUnlock o _ | .rollSize o => KPres o
  | .start (.sweep _ act) | .swLock _ act _ _ | .swAt _ act _ _ _ => APres act
  | .eraseReset _ _ _ (some c) | .eraseSize _ _ (some c) => APres c.1
  | .start (.ex (.emplace _)) | .start (.ex (.eraseKey _)) => False
  | _ => True

theorem Fine.pending {p : Pc K (Nat × V)} (h : Fine p) {o : KOp K (Nat × V)} (ho : p.pending = some o) : KPres o := by
  cases p with
  | start q => cases q <;> first | (cases ho; exact h) | cases ho
  | _ => simp only [Pc.pending] at ho <;> cases ho <;> exact h

theorem fine_miss {o : KOp K (Nat × V)} (h : KPres o) (c : Nat) : Fine (missPc o c) := by
  unfold missPc; split
  · exact h
  · trivial

theorem quiet_fine {m : Mem K (Nat × V)} {canS canX : Nat → Prop} {p p' : Pc K (Nat × V)} (h : Quiet m canS canX p p')
    (h0 : p ≠ .idle) (h1 : ∀ r, p ≠ .done r) (hf : Fine p) : Fine p' := by
  cases h with
  | call o => exact absurd rfl h0
  | callAgain r o => exact absurd rfl (h1 r)
  | enter o => unfold enterPc; split <;> exact hf
  | overEnd o c pb _ => exact fine_miss hf c
  | overNext o c pb _ =>
    split
    · exact hf
    · exact fine_miss hf c
  | swEnd md act g r => split <;> first | exact hf | trivial
  | _ => first | exact hf | trivial

theorem eff_fine {m m' : Mem K (Nat × V)} {p p' : Pc K (Nat × V)} (h : Eff m p m' p') (hf : Fine p) : Fine p' := by
  cases h with
  | eraseReset g j d cont => cases cont <;> exact hf
  | _ => first | exact hf | trivial

theorem alone_fine {cfg : Foa.Cfg} {m m' : Mem K (Nat × V)} {p p' : Pc K (Nat × V)} (h : Alone cfg m p m' p') (hf : Fine p) :
    Fine p' := by
  cases h with
  | grow o t' cnt' _ _ => exact hf
  | _ => trivial

/-! ### the contents -/

/-- The change of the contents. -/
inductive Moved : Con K (Nat × V) → Con K (Nat × V) → Change K V → Prop
  | same {A A'} : Same A A' → Moved A A' .keep
  | repl {A A'} (y z) : A y → z.2.1 = y.2.1 → Replaced A A' y z → Moved A A' .keep
  | put {A A'} (x z) : z.2.1 = x.2.1 → Added A A' z → Moved A A' (.put x)
  | take {A A'} (y) : A y → Removed A A' y → Moved A A' (.take y)
  | all {A A'} : (∀ x, ¬ A' x) → Moved A A' .all

theorem call_node {md : Mode} {y : Elem K V} {v : Nat × V} (h : v.1 = y.2.1) : (if Mode.wr md then v else y.2).1 = y.2.1 := by
  split <;> simp [h]

theorem eff_moved {m m' : Mem K (Nat × V)} {p p' : Pc K (Nat × V)} (h : Eff m p m' p') (hbad : p' ≠ .bad)
    {own : Nat → Nat → Prop} (hs : Shape m own) (hf : m.tab.fns.Lawful) (hfine : Fine p) :
    Moved m.elems m'.elems (change m p) := by
  cases h with
  | visit md k f pb j y hy => exact .repl y _ ⟨_, _, hy⟩ (call_node (hfine y)) (elems_call hs hf hy)
  | found md x f2 f1 pb j y hy => exact .repl y _ ⟨_, _, hy⟩ (call_node (hfine.1 y)) (elems_call hs hf hy)
  | eraseNot k p pb j y v hy hv =>
    simp only [change, hy, hv]
    exact .repl y _ ⟨_, _, hy⟩ (hfine y v hv) (elems_call (md := .excl) hs hf hy)
  | erase k p pb j y hy hv hd =>
    simp only [change, hy, hv]
    exact .take y ⟨_, _, hy⟩ (elems_take hs hf hy)
  | insert md x f2 f1 c pb j h1 h2 =>
    simp only [change, h1, if_true]
    exact .put x _ (hfine.2 x) (elems_put (m := m) h2)
  | insertBad o c pb j _ _ => exact absurd rfl hbad
  | startOver o c pb j h1 =>
    cases o with
    | insert md x f2 f1 =>
      have h1' : ¬ (m.cnt (m.pos0 x.1) % 2 ^ 32 = c % 2 ^ 32) := h1
      simp only [change, h1', if_false]
      exact .same (Same.rfl' _)
    | visit => exact .same (Same.rfl' _)
    | erase => exact .same (Same.rfl' _)
  | swGo md act g j js r y v add hy ha =>
    simp only [change, hy, ha]
    exact .repl y _ ⟨_, _, hy⟩ (call_node (hfine.1 y v add ha)) (elems_call hs hf hy)
  | swStop md act g j js r y v add hy ha =>
    simp only [change, hy, ha]
    exact .repl y _ ⟨_, _, hy⟩ (call_node (hfine.2 y v add ha)) (elems_call hs hf hy)
  | swErase act g j js r y hy ha hd =>
    simp only [change, hy, ha]
    exact .take y ⟨_, _, hy⟩ (elems_take hs hf hy)
  | swEraseWrap => exact absurd rfl hbad
  | eraseWrap => exact absurd rfl hbad
  | _ => exact .same (Same.rfl' _)

theorem quiet_keep {m : Mem K (Nat × V)} {canS canX : Nat → Prop} {p p' : Pc K (Nat × V)} (h : Quiet m canS canX p p')
    (hbad : p' ≠ .bad) : change m p = .keep := by
  cases h with
  | hitBad o pb j hn => exact absurd rfl hbad
  | swBad => exact absurd rfl hbad
  | enter o => cases o <;> rfl
  | sweepNone => rfl
  | sweep => rfl
  | _ => rfl

theorem alone_moved {cfg : Foa.Cfg} {m m' : Mem K (Nat × V)} {p p' : Pc K (Nat × V)} (h : Alone cfg m p m' p')
    (hi : m.tab.Inv) (hf : Fine p) (hbad : p' ≠ .bad) : Moved m.elems m'.elems (change m p) := by
  cases h with
  | ex e t' r cnt' h1 h2 =>
    have hc := ExOp.correct cfg hi e h1 m.cnt cnt'
    cases e with
    | rehash n => exact .same hc.1
    | reserve n => exact .same hc.1
    | clear => exact .all hc.1
    | emplace x => exact hf.elim
    | eraseKey k => exact hf.elim
  | exBad => exact absurd rfl hbad
  | grow o t' cnt' h1 h2 =>
    exact .same ((Alone.grow (cfg := cfg) o t' cnt' h1 h2).pending hi rfl).2
  | growBad => exact absurd rfl hbad

theorem change_all {m : Mem K (Nat × V)} {p : Pc K (Nat × V)} (h : change m p = .all) : p = .start (.ex .clear) := by
  unfold change at h
  repeat' split at h
  all_goals first | rfl | cases h

/-- All elements, each once, when nobody is inside. -/
def Listed (s : State K (Nat × V)) : Prop :=
  s.mem.tab.contents.Pairwise (fun x y => x ≠ y) ∧ ∀ x, s.mem.elems x ↔ x ∈ s.mem.tab.contents

theorem step_moved {cfg : Foa.Cfg} {s s' : State K (Nat × V)} (hi : SInv s) (hw : NoWrap s) {t : Nat} (h : StepBy cfg t s s')
    (h0 : s.pc t ≠ .idle) (h1 : ∀ r, s.pc t ≠ .done r) (hf : Fine (s.pc t)) :
    Moved s.mem.elems s'.mem.elems (change s.mem (s.pc t)) ∧ Fine (s'.pc t) ∧
    (change s.mem (s.pc t) = .all → Listed s) := by
  have hi' := hi.step hw h
  have hb := pcOk_not_bad (hi'.pcs t)
  cases h with
  | @quiet pc' h =>
    rw [State.set_pc, upd_self] at hb ⊢
    rw [State.set_mem]
    rw [quiet_keep h hb]
    exact ⟨.same (Same.rfl' _), quiet_fine h h0 h1 hf, fun h => nomatch h⟩
  | @eff m' pc' h =>
    rw [State.set_pc, upd_self] at hb ⊢
    rw [State.set_mem]
    refine ⟨eff_moved h hb hi.shape hi.law hf, eff_fine h hf, fun ha => ?_⟩
    rw [change_all ha] at h
    cases h
  | @alone m' pc' hout h =>
    have hinv := hi.quiescent hout
    rw [State.set_pc, upd_self] at hb ⊢
    rw [State.set_mem]
    refine ⟨alone_moved h hinv hf hb, alone_fine h hf, fun _ => ⟨?_, fun x => mem_elems hinv⟩⟩
    refine (contents_pairwise hinv).imp fun hne => ?_
    rintro rfl
    rw [Ineq, hinv.law.refl] at hne
    cases hne

/-- The thread's own operation with a key: pending, or it takes effect. -/
def Effect : KOp K (Nat × V) → Nat → Change K V → Prop
  | .insert _ x _ _, r, c => (r = 1 ∧ c = .put x) ∨ (r = 0 ∧ c = .keep)
  | .erase _ _, r, c => (r = 1 ∧ ∃ y, c = .take y) ∨ (r = 0 ∧ c = .keep)
  | .visit _ _ _, _, c => c = .keep

theorem eff_own {m m' : Mem K (Nat × V)} {p p' : Pc K (Nat × V)} (h : Eff m p m' p') (hbad : p' ≠ .bad)
    {o : KOp K (Nat × V)} (ho : p.pending = some o) :
    (p'.pending = some o ∧ change m p = .keep) ∨ ∃ r, p'.result = some r ∧ Effect o r (change m p) := by
  cases h with
  | visit md k f pb j y hy => cases ho; exact .inr ⟨1, rfl, rfl⟩
  | found md x f2 f1 pb j y hy => cases ho; exact .inr ⟨0, rfl, .inr ⟨rfl, rfl⟩⟩
  | eraseNot k p pb j y v hy hv =>
    cases ho
    refine .inr ⟨0, rfl, .inr ⟨rfl, ?_⟩⟩
    simp only [change, hy, hv]
  | erase k p pb j y hy hv hd =>
    cases ho
    refine .inr ⟨1, rfl, .inl ⟨rfl, y, ?_⟩⟩
    simp only [change, hy, hv]
  | insert md x f2 f1 c pb j h1 h2 =>
    cases ho
    refine .inr ⟨1, rfl, .inl ⟨rfl, ?_⟩⟩
    simp only [change, h1, if_true]
  | startOver o c pb j h1 =>
    refine .inl ⟨ho, ?_⟩
    cases o with
    | insert md x f2 f1 =>
      have h1' : ¬ (m.cnt (m.pos0 x.1) % 2 ^ 32 = c % 2 ^ 32) := h1
      simp only [change, h1', if_false]
    | _ => rfl
  | reserve o c => exact .inl ⟨ho, rfl⟩
  | failSize o _ => exact .inl ⟨ho, rfl⟩
  | insSet o c pb j js h1 h2 h3 => exact .inl ⟨ho, rfl⟩
  | insFull o c pb h1 h2 => exact .inl ⟨ho, rfl⟩
  | rollReset o pb j => exact .inl ⟨ho, rfl⟩
  | rollSize o _ => exact .inl ⟨ho, rfl⟩
  | eraseWrap => exact absurd rfl hbad
  | failSizeWrap => exact absurd rfl hbad
  | insertBad => exact absurd rfl hbad
  | rollSizeWrap => exact absurd rfl hbad
  | _ => cases ho

theorem step_own {cfg : Foa.Cfg} {s s' : State K (Nat × V)} (hi : SInv s) (hw : NoWrap s) {t : Nat} (h : StepBy cfg t s s')
    {o : KOp K (Nat × V)} (ho : (s.pc t).pending = some o) :
    ((s'.pc t).pending = some o ∧ change s.mem (s.pc t) = .keep) ∨
    ∃ r, (s'.pc t).result = some r ∧ Effect o r (change s.mem (s.pc t)) := by
  have hi' := hi.step hw h
  have hb := pcOk_not_bad (hi'.pcs t)
  cases h with
  | @quiet pc' h =>
    rw [State.set_pc, upd_self] at hb ⊢
    have hk := quiet_keep h hb
    rcases h.pending hb hi.shape hi.law (hi.pcs t) ho with h1 | ⟨h1, h2, h3⟩
    · exact .inl ⟨h1, hk⟩
    · refine .inr ⟨0, by rw [h2]; rfl, ?_⟩
      cases o with
      | insert => cases h1
      | erase => exact .inr ⟨rfl, hk⟩
      | visit => exact hk
  | @eff m' pc' h =>
    rw [State.set_pc, upd_self] at hb ⊢
    exact eff_own h hb ho
  | @alone m' pc' hout h =>
    rw [State.set_pc, upd_self] at hb ⊢
    refine .inl ⟨(h.pending (hi.quiescent hout) ho).1, ?_⟩
    generalize s.pc t = p at h ho
    cases h with
    | grow => rfl
    | growBad => rfl
    | ex => cases ho
    | exBad => cases ho

theorem step_result {cfg : Foa.Cfg} {s s' : State K (Nat × V)} (hi : SInv s) (hw : NoWrap s) {t : Nat} (h : StepBy cfg t s s')
    {r : Nat} (hr : (s.pc t).result = some r) (hd : ∀ r', s.pc t ≠ .done r') :
    (s'.pc t).result = some r ∧ change s.mem (s.pc t) = .keep := by
  refine ⟨(h.result_self hi hw hr hd).1, ?_⟩
  generalize s.pc t = p at hr
  cases p <;> simp only [Pc.result] at hr <;> first | rfl | cases hr

end Conc.Nodes

/-
Node handles of concurrent node containers when user code throws (C71): what has become of the node and of the handle after
`insert(std::move(nh))`, `insert_or_visit(std::move(nh),f2)`, `insert_and_visit(std::move(nh),f1,f2)`, whatever the other threads do and
whatever throws, in them and elsewhere. The elements of the container are ((key, address of the node), mapped value).
-/
import Verif.Conc.NodesExc
import Verif.Props.ConcExc

namespace Props.ConcNodesExc
open Conc.Tab Conc.Exc Foa SpecT
open Conc.Locking (Mode)
open Node (Hnd)
open Props.ConcTable (Elems exF exF_lawful)
open Props.ConcExc (Executes Returned Left)

variable {K V : Type}

/-! ### vocabulary -/

/-- The handle has node `i` and a copy `al` of the allocator; it has no node; it is as if newly constructed. -/
def HasNode (h : Hnd) (i al : Nat) : Prop := h = ⟨some i, some al⟩
def IsEmpty (h : Hnd) : Prop := h.p = none
def LikeNew (h : Hnd) : Prop := h = ⟨none, none⟩

/-- Thread `t`, in step `a`, calls one of the insertions for a handle with node `i`, of key `k` and mapped value `v`, and the allocator
`al`; in state `b` the call is over. -/
def Inserts (σ : Nat → XState (K × Nat) V) (t : Nat) (md : Mode) (k : K) (i : Nat) (v : V) (f2 f1 : (K × Nat) × V → V) (a b : Nat) : Prop :=
  Executes σ t (.key (.insert md ((k, i), v) f2 f1)) a b

/-- The handle in state `b`, when the call has been left by an exception. -/
def Thrown (σ : Nat → XState (K × Nat) V) (who : Nat → Nat) (t i al a b : Nat) : Hnd := handleAt σ who t a ⟨some i, some al⟩ (b - a)

/-- The handle when the call has answered `r`: `none` is undefined behaviour. -/
def Answered (σ : Nat → XState (K × Nat) V) (who : Nat → Nat) (t i al a b r : Nat) : Option Hnd :=
  handleReturned (Thrown σ who t i al a b) r

/-- No step of the thread's call adds an element. -/
def AddsNothing (σ : Nat → XState (K × Nat) V) (who : Nat → Nat) (t a b : Nat) : Prop :=
  ∀ l, a ≤ l → l < b → who l = t → ∀ y, Elems (σ (l + 1)).st y → ∃ y', Elems (σ l).st y' ∧ y'.1 = y.1

/-- One step of the thread's call adds the element with node `i`, an equivalent key being absent; no other step of it adds any. -/
def AddsNode (eq : K → K → Bool) (σ : Nat → XState (K × Nat) V) (who : Nat → Nat) (t : Nat) (k : K) (i a b : Nat) : Prop :=
  ∃ l, a ≤ l ∧ l < b ∧ who l = t ∧ (∀ y, Elems (σ l).st y → eq k y.1.1 = false) ∧
    (∃ v, ∀ y, Elems (σ (l + 1)).st y ↔ Elems (σ l).st y ∨ y = ((k, i), v)) ∧
    ∀ l', a ≤ l' → l' < b → who l' = t → l' ≠ l → ∀ y, Elems (σ (l' + 1)).st y → ∃ y', Elems (σ l').st y' ∧ y'.1 = y.1

/-! ### an example: the callback for a new element throws -/

def exPred : Foa.Call → Bool := fun c => c == .pred
def ex0 : XSys (Nat × Nat) Nat := XSys.init {} (onKey exF) 0 20 2
/-- `insert_and_visit` of a handle with node 7 -/
def exIns : KOp (Nat × Nat) Nat := .insert .excl ((1, 7), 10) (·.2) (·.2)
def exS : XSys (Nat × Nat) Nat := ⟨⟨ex0.sys.mem, [.start (.key exIns), .start (.key exIns)]⟩, [false, false]⟩
def exGo (t n : Nat) : List (XEv (Nat × Nat) Nat) := List.replicate n (.go t)
def exEs : List (XEv (Nat × Nat) Nat) := exGo 0 23 ++ [.throw 0 false 11] ++ exGo 0 2
def exRun (i : Nat) : XState (Nat × Nat) Nat := exS.trace exPred false {} exEs i

theorem ex_reach : XReach exPred false {} (onKey exF) 0 20 (exRun 0) := by
  refine XSys.run_reach (S := ex0) (es := [.op 0 (.key exIns), .op 1 (.key exIns)]) ?_ rfl
  rw [ex0, XSys.init_state]
  exact .init

set_option maxRecDepth 100000 in
theorem ex_run : XRun exPred false {} exRun (xwho exEs) 26 := Props.ConcExc.run_of (by decide +kernel)
set_option maxRecDepth 100000 in
theorem ex_thrown : Inserts exRun 0 .excl 1 7 10 (·.2) (·.2) 0 26 ∧ Left (exRun 26) 0 :=
  ⟨Props.ConcExc.executes_of rfl (by decide) (q := (0, true)) (by decide +kernel) (by decide +kernel),
    Props.ConcExc.left_of (r := 0) (by decide +kernel)⟩

/-- Nothing throws. -/
def exEs' : List (XEv (Nat × Nat) Nat) := exGo 0 26
def exRun' (i : Nat) : XState (Nat × Nat) Nat := exS.trace exPred false {} exEs' i
theorem ex_reach' : XReach exPred false {} (onKey exF) 0 20 (exRun' 0) := ex_reach
set_option maxRecDepth 100000 in
theorem ex_run' : XRun exPred false {} exRun' (xwho exEs') 26 := Props.ConcExc.run_of (by decide +kernel)
set_option maxRecDepth 100000 in
theorem ex_answered : Inserts exRun' 0 .excl 1 7 10 (·.2) (·.2) 0 26 ∧ Returned (exRun' 26) 0 1 :=
  ⟨Props.ConcExc.executes_of rfl (by decide) (q := (1, false)) (by decide +kernel) (by decide +kernel),
    Props.ConcExc.returned_of (by decide +kernel)⟩

/-- The hash function throws. -/
def exHash : Foa.Call → Bool := fun c => c == .hash
def exEs2 : List (XEv (Nat × Nat) Nat) := .throw 0 false 0 :: exGo 0 1
def exRun2 (i : Nat) : XState (Nat × Nat) Nat := exS.trace exHash false {} exEs2 i
theorem ex_reach2 : XReach exHash false {} (onKey exF) 0 20 (exRun2 0) := by
  refine XSys.run_reach (S := ex0) (es := [.op 0 (.key exIns), .op 1 (.key exIns)]) ?_ rfl
  rw [ex0, XSys.init_state]
  exact .init
set_option maxRecDepth 100000 in
theorem ex_run2 : XRun exHash false {} exRun2 (xwho exEs2) 2 := Props.ConcExc.run_of (by decide +kernel)
set_option maxRecDepth 100000 in
theorem ex_thrown2 : Inserts exRun2 0 .excl 1 7 10 (·.2) (·.2) 0 2 ∧ Left (exRun2 2) 0 :=
  ⟨Props.ConcExc.executes_of rfl (by decide) (q := (0, true)) (by decide +kernel) (by decide +kernel),
    Props.ConcExc.left_of (r := 0) (by decide +kernel)⟩

/-! ### C71 -/

section
variable {may : Foa.Call → Bool} {mv : Bool} {cfg : Cfg} {f : Fns K} (hf : f.Lawful) {al c : Nat}
include hf

/-- The handle and the container when the call is over, one way or the other. -/
theorem outcome {σ : Nat → XState (K × Nat) V} {who : Nat → Nat} {n : Nat} (h0 : XReach may mv cfg (onKey f) al c (σ 0))
    (hr : XRun may mv cfg σ who n) {t : Nat} {md : Mode} {k : K} {i : Nat} {v : V} {f2 f1 : (K × Nat) × V → V} {a b : Nat}
    (he : Inserts σ t md k i v f2 f1 a b) (hb : b ≤ n) :
    (HasNode (Thrown σ who t i al a b) i al ∧ AddsNothing σ who t a b) ∨
    (Thrown σ who t i al a b = ⟨none, some al⟩ ∧ AddsNode f.eq σ who t k i a b) := by
  have hi0 := h0.inv (onKey_lawful hf)
  have hle := he.le
  have hfn : ∀ l ≤ n, (σ l).st.mem.tab.fns = onKey f := fun l hl => ((hr.inv hi0.1 l hl).2).trans hi0.2
  have key := handle_points hr hi0.1 hle hb he.called (fun i h1 h2 r => Props.ConcExc.not_done he h1 h2 r) ⟨some i, some al⟩ (b - a)
    (by omega)
  rw [Nat.add_sub_cancel' hle] at key
  rcases key with ⟨_, h1, h2⟩ | ⟨_, ⟨h1, h2⟩ | ⟨h1, l, x1, x2, x3, x4, x5, x6⟩⟩
  · exact .inl ⟨h1, h2⟩
  · exact .inl ⟨h1, h2⟩
  · refine .inr ⟨h1, l, x1, x2, x3, fun y hy => ?_, x5, x6⟩
    rw [hfn l (by omega)] at x4
    by_contra hc
    exact x4 ⟨y, hy, by simpa [onKey] using hc⟩

/-- Whatever throws, the node is neither lost nor owned twice: a call left by an exception has not inserted anything and the handle has
its node; or it has inserted the element, a callback has thrown, and the handle is empty. -/
theorem C71_thrown {σ : Nat → XState (K × Nat) V} {who : Nat → Nat} {n : Nat} (h0 : XReach may mv cfg (onKey f) al c (σ 0))
    (hr : XRun may mv cfg σ who n) {t : Nat} {md : Mode} {k : K} {i : Nat} {v : V} {f2 f1 : (K × Nat) × V → V} {a b : Nat}
    (he : Inserts σ t md k i v f2 f1 a b) (hl : Left (σ b) t) (hb : b ≤ n) :
    (HasNode (Thrown σ who t i al a b) i al ∧ AddsNothing σ who t a b) ∨
    (IsEmpty (Thrown σ who t i al a b) ∧ AddsNode f.eq σ who t k i a b ∧ may .pred = true) := by
  rcases outcome hf h0 hr he hb with h | ⟨h1, h2⟩
  · exact .inl h
  · refine .inr ⟨by rw [IsEmpty, h1], h2, ?_⟩
    obtain ⟨l, x1, x2, x3, x4, ⟨w, x5⟩, _⟩ := h2
    have hnew : ¬ ∃ y, Elems (σ l).st y ∧ y.1 = (k, i) := by
      rintro ⟨y, hy, e⟩
      have := x4 y hy
      rw [e] at this
      rw [hf.refl] at this; cases this
    have hin : Elems (σ (l + 1)).st ((k, i), w) := (x5 _).2 (.inr rfl)
    rcases Props.ConcExc.C50_left (onKey_lawful hf) h0 hr he hl hb with h | ⟨l', y1, y2, y3, y4, y5⟩
    · exact absurd ⟨_, (h l x1 x2 x3 _).1 hin, rfl⟩ hnew
    · by_cases e : l' = l
      · subst e
        rcases y4 with h | ⟨_, _, h⟩
        · exact h.1
        · exact absurd ⟨_, h _ hin, rfl⟩ hnew
      · exact absurd ⟨_, (y5 l x1 x2 x3 (Ne.symm e) _).1 hin, rfl⟩ hnew

omit hf in
/-- The callback for a new element throws; the hash function throws. -/
example : (exF.Lawful ∧ XReach exPred false {} (onKey exF) 0 20 (exRun 0) ∧ XRun exPred false {} exRun (xwho exEs) 26 ∧
      Inserts exRun 0 .excl 1 7 10 (·.2) (·.2) 0 26 ∧ Left (exRun 26) 0) ∧
    (XReach exHash false {} (onKey exF) 0 20 (exRun2 0) ∧ XRun exHash false {} exRun2 (xwho exEs2) 2 ∧
      Inserts exRun2 0 .excl 1 7 10 (·.2) (·.2) 0 2 ∧ Left (exRun2 2) 0) :=
  ⟨⟨exF_lawful, ex_reach, ex_run, ex_thrown⟩, ex_reach2, ex_run2, ex_thrown2⟩

/-- A call that answers, while whatever throws elsewhere: `true` if it has inserted the element, and then the handle is like new;
`false` if it has not, and then the handle has its node. -/
theorem C71_answered {σ : Nat → XState (K × Nat) V} {who : Nat → Nat} {n : Nat} (h0 : XReach may mv cfg (onKey f) al c (σ 0))
    (hr : XRun may mv cfg σ who n) {t : Nat} {md : Mode} {k : K} {i : Nat} {v : V} {f2 f1 : (K × Nat) × V → V} {a b r : Nat}
    (he : Inserts σ t md k i v f2 f1 a b) (hret : Returned (σ b) t r) (hb : b ≤ n) :
    (r = 1 ∧ AddsNode f.eq σ who t k i a b ∧ ∃ h, Answered σ who t i al a b r = some h ∧ LikeNew h) ∨
    (r = 0 ∧ AddsNothing σ who t a b ∧ ∃ h, Answered σ who t i al a b r = some h ∧ HasNode h i al) := by
  have hno : ∀ l, (∀ y, Elems (σ l).st y → f.eq k y.1.1 = false) → ¬ ∃ y, Elems (σ l).st y ∧ y.1 = (k, i) := by
    rintro l h ⟨y, hy, e⟩
    have := h y hy
    rw [e] at this
    rw [hf.refl] at this; cases this
  have hspec : ∀ (A A' : Con (K × Nat) V), Props.ConcTable.Does (onKey f).eq (.insert md ((k, i), v) f2 f1) A A' r →
      (r = 0 ∧ ∃ y w, A y ∧ Replaced A A' y (y.1, w)) ∨ (r = 1 ∧ ¬ Present (onKey f).eq A (k, i) ∧ ∃ w, Added A A' ((k, i), w)) := by
    intro A A' h
    cases md
    · rcases h with ⟨y, h1, h2, h3, h4⟩ | ⟨h1, h2, h3⟩
      · exact .inl ⟨h4, y, _, h1, h3⟩
      · exact .inr ⟨h3, h1, _, h2⟩
    · rcases h with ⟨y, h1, h2, h3, h4⟩ | ⟨h1, h2, h3⟩
      · exact .inl ⟨h4, y, _, h1, h3⟩
      · exact .inr ⟨h3, h1, _, h2⟩
  -- the answer tells whether the element was added
  have hiff : (r = 0 ∧ ∀ l, a ≤ l → l < b → who l = t → NoNew (Elems (σ l).st) (Elems (σ (l + 1)).st)) ∨
      (r = 1 ∧ ∃ l, a ≤ l ∧ l < b ∧ who l = t ∧ ¬ NoNew (Elems (σ l).st) (Elems (σ (l + 1)).st)) := by
    have hle := he.le
    rcases Props.ConcExc.C50_linearizable (onKey_lawful hf) h0 hr he hret hb with ⟨l, x1, x2, x3, x4, x5⟩ | ⟨l, x1, x2, x4, x5⟩
    · rcases hspec _ _ x4 with ⟨e, y, w, z1, z2⟩ | ⟨e, z1, w, z2⟩
      · refine .inl ⟨e, fun l' y1 y2 y3 => ?_⟩
        by_cases hl : l' = l
        · subst hl; exact NoNew.of_replaced z1 z2
        · exact NoNew.of_same (x5 l' y1 y2 y3 hl)
      · refine .inr ⟨e, l, x1, x2, x3, fun hn => ?_⟩
        obtain ⟨y', q1, q2⟩ := hn ((k, i), w) ((z2 _).2 (.inr rfl))
        exact z1 ⟨y', q1, by rw [q2]; exact (onKey_lawful hf).refl _⟩
    · rcases hspec _ _ x4 with ⟨e, y, w, z1, z2⟩ | ⟨e, z1, w, z2⟩
      · exact .inl ⟨e, fun l' y1 y2 y3 => NoNew.of_same (x5 l' y1 y2 y3)⟩
      · exact absurd ⟨_, (z2 ((k, i), w)).2 (.inr rfl), (onKey_lawful hf).refl _⟩ z1
  rcases outcome hf h0 hr he hb with ⟨h1, h2⟩ | ⟨h1, h2⟩
  · right
    rcases hiff with ⟨e, _⟩ | ⟨_, l, x1, x2, x3, x4⟩
    · refine ⟨e, h2, _, ?_, h1⟩
      simp [Answered, handleReturned, e]
    · exact absurd (h2 l x1 x2 x3) x4
  · left
    rcases hiff with ⟨_, h⟩ | ⟨e, _⟩
    · obtain ⟨l, x1, x2, x3, x4, ⟨w, x5⟩, _⟩ := h2
      obtain ⟨y', q1, q2⟩ := h l x1 x2 x3 ((k, i), w) ((x5 _).2 (.inr rfl))
      exact absurd ⟨y', q1, q2⟩ (hno l x4)
    · refine ⟨e, h2, ⟨none, none⟩, ?_, rfl⟩
      simp [Answered, handleReturned, e, h1, Node.Open.reset]

omit hf in
example : exF.Lawful ∧ XReach exPred false {} (onKey exF) 0 20 (exRun' 0) ∧ XRun exPred false {} exRun' (xwho exEs') 26 ∧
    Inserts exRun' 0 .excl 1 7 10 (·.2) (·.2) 0 26 ∧ Returned (exRun' 26) 0 1 :=
  ⟨exF_lawful, ex_reach', ex_run', ex_answered⟩

/-- Full statement: a call left by an exception leaves the handle either with its node or like new. Proved: if callbacks do not throw,
the handle has its node (so that the call can be repeated) and the call has added nothing. Missing: callbacks that throw; then it is
false (`C71_handle_left_half_empty`). -/
theorem C71_handle_usable_partial {σ : Nat → XState (K × Nat) V} {who : Nat → Nat} {n : Nat}
    (h0 : XReach may mv cfg (onKey f) al c (σ 0)) (hr : XRun may mv cfg σ who n) {t : Nat} {md : Mode} {k : K} {i : Nat} {v : V}
    {f2 f1 : (K × Nat) × V → V} {a b : Nat} (he : Inserts σ t md k i v f2 f1 a b) (hl : Left (σ b) t) (hb : b ≤ n)
    (hp : may .pred = false) : HasNode (Thrown σ who t i al a b) i al ∧ AddsNothing σ who t a b := by
  rcases C71_thrown hf h0 hr he hl hb with h | ⟨_, _, h⟩
  · exact h
  · rw [hp] at h; cases h

omit hf in
example : exF.Lawful ∧ XReach exHash false {} (onKey exF) 0 20 (exRun2 0) ∧ XRun exHash false {} exRun2 (xwho exEs2) 2 ∧
    Inserts exRun2 0 .excl 1 7 10 (·.2) (·.2) 0 2 ∧ Left (exRun2 2) 0 ∧ exHash .pred = false :=
  ⟨exF_lawful, ex_reach2, ex_run2, ex_thrown2.1, ex_thrown2.2, rfl⟩

end

set_option maxRecDepth 100000 in
/-- The full statement is false: when the callback for a new element throws, `insert_and_visit` leaves an empty handle in which the copy
of the allocator is still alive. Neither the destructor of the handle nor an assignment to it destroys that object. -/
theorem C71_handle_left_half_empty : ¬ ∀ (may : Foa.Call → Bool) (mv : Bool) (cfg : Cfg) (f : Fns Nat) (al c : Nat)
    (σ : Nat → XState (Nat × Nat) Nat) (who : Nat → Nat) (n t : Nat) (md : Mode) (k i v : Nat) (f2 f1 : (Nat × Nat) × Nat → Nat) (a b : Nat),
    f.Lawful → XReach may mv cfg (onKey f) al c (σ 0) → XRun may mv cfg σ who n → Inserts σ t md k i v f2 f1 a b → Left (σ b) t → b ≤ n →
    HasNode (Thrown σ who t i al a b) i al ∨ LikeNew (Thrown σ who t i al a b) := by
  intro h
  have key : Thrown exRun (xwho exEs) 0 7 0 0 26 = ⟨none, some 0⟩ := by decide +kernel
  rcases h exPred false {} exF 0 20 exRun (xwho exEs) 26 0 .excl 1 7 10 _ _ 0 26 exF_lawful ex_reach ex_run ex_thrown.1 ex_thrown.2 le_rfl
    with h | h
  · rw [HasNode, key] at h; cases h
  · rw [LikeNew, key] at h; cases h

/-- What happens to that object: the destructor and assignments of the handle (`Verif.Node.Handle`) leave an empty handle alone; only
a handle with a node destroys its allocator. -/
theorem C71_half_empty_not_destroyed (m : Node.Heap K V) (pocma : Bool) (al : Nat) (y : Hnd) (hy : y.p = none) :
    Node.Open.destroy m ⟨none, some al⟩ = some m ∧ Node.Open.assignSelf m ⟨none, some al⟩ = some (m, ⟨none, some al⟩) ∧
    Node.Open.assign pocma m ⟨none, some al⟩ y = some (m, ⟨none, some al⟩, y) := by
  simp [Node.Open.destroy, Node.Open.assignSelf, Node.Open.assign, hy]

end Props.ConcNodesExc

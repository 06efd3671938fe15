/-
Exceptions in concurrent containers (C50). `XReach may mv cfg f al n x` ranges over every state any number of threads can reach,
in any interleaving and with any of the calls allowed by `may` (hash function, equality, allocation, construction, moving or
copying elements, callbacks) throwing at any time; `XRun` over every continuation. `mv`: the container moves elements when it
rehashes (it copies them otherwise). The specification is in `Verif.SpecT` and `Verif.SpecTExc`.
-/
import Verif.Conc.ExcSweep
import Verif.Conc.ExcRun
import Verif.Props.ConcTable

namespace Props.ConcExc
open Conc.Tab Conc.Exc Foa SpecT
open Conc.Locking (Mode)
open Props.ConcTable (Elems Does Touches Busy sizeAnswer exF exF_lawful exInsert DoesEx)

variable {K V : Type}

/-! ### vocabulary -/

/-- Thread `t` has called `o`; the operation it has called last returned `r`; it was left by an exception. -/
def Called (x : XState K V) (t : Nat) (o : Op K V) : Prop := x.st.pc t = .start o
def Returned (x : XState K V) (t r : Nat) : Prop := x.st.pc t = .done r ∧ x.exc t = false
def Left (x : XState K V) (t : Nat) : Prop := (∃ r, x.st.pc t = .done r) ∧ x.exc t = true

/-- Thread `t` calls `o` in state `a`; in state `b` the operation is over, one way or the other. -/
structure Executes (σ : Nat → XState K V) (t : Nat) (o : Op K V) (a b : Nat) : Prop where
  le : a ≤ b
  called : Called (σ a) t o
  over : (∃ r, Returned (σ b) t r) ∨ Left (σ b) t
  running : ∀ i, a ≤ i → i < b → (∀ r, ¬ Returned (σ i) t r) ∧ ¬ Left (σ i) t

/-- What an operation with a key may have done when a callback of its threw. -/
def CallbackLeft (eq : K → K → Bool) : KOp K V → Con K V → Con K V → Prop
  | .visit .shared k _ => CallbackThrew eq false k
  | .visit .excl k _ => CallbackThrew eq true k
  | .insert .shared x _ _ => fun A A' => CallbackThrew eq false x.1 A A' ∨ InsertedThrew eq x.1 A A'
  | .insert .excl x _ _ => fun A A' => CallbackThrew eq true x.1 A A' ∨ InsertedThrew eq x.1 A A'
  | .erase k _ => CallbackThrew eq true k

/-- Rehashing moves the elements and the hash function or the move may throw: an exception may then cost elements. -/
def MayLose (may : Call → Bool) (mv : Bool) : Prop := mv = true ∧ (may .hash = true ∨ may .transfer = true)

/-- What an operation that was left by an exception may have done, in one of its steps. -/
def LeftBehind (may : Call → Bool) (mv : Bool) (eq : K → K → Bool) (o : KOp K V) (A A' : Con K V) : Prop :=
  (may .pred = true ∧ CallbackLeft eq o A A') ∨ (MayLose may mv ∧ (∃ md x f2 f1, o = .insert md x f2 f1) ∧ Lost A A')

theorem leftBehind_of {may : Call → Bool} {mv : Bool} {eq : K → K → Bool} {o : KOp K V} {A A' : Con K V}
    (h : XThrew may mv eq o A A') : LeftBehind may mv eq o A A' := by
  rcases h with ⟨h1, h2⟩ | ⟨h1, h2, h3⟩
  · refine .inl ⟨h1, ?_⟩
    cases o with
    | visit m k f => cases m <;> exact h2
    | insert m x f2 f1 => cases m <;> exact h2
    | erase k p => exact h2
  · refine .inr ⟨h1, ?_, h3⟩
    cases o with
    | insert m x f2 f1 => exact ⟨_, _, _, _, rfl⟩
    | visit m k f => cases h2
    | erase k p => cases h2

/-! ### examples: concrete runs -/

def xgo (t n : Nat) : List (XEv Nat Nat) := List.replicate n (.go t)
/-- Only constructors throw; only callbacks throw. -/
def exMay : Call → Bool := fun k => k == .construct
def exPred : Call → Bool := fun k => k == .pred
def ex0 : XSys Nat Nat := XSys.init {} exF 0 20 2

theorem run_of {may : Call → Bool} {mv : Bool} {S : XSys K V} {es : List (XEv K V)} (h : (S.run may mv {} es).isSome = true) :
    XRun may mv {} (S.trace may mv {} es) (xwho es) es.length := by
  obtain ⟨S', hS⟩ := Option.isSome_iff_exists.1 h
  exact XSys.trace_run hS

/-- How the operation of a thread ended, if it has: the answer, and whether it was left by an exception. -/
def ending (x : XState K V) (t : Nat) : Option (Nat × Bool) := (x.st.pc t).answer.map fun r => (r, x.exc t)

theorem returned_of {x : XState K V} {t r : Nat} (h : ending x t = some (r, false)) : Returned x t r := by
  simp only [ending, Option.map_eq_some_iff, Prod.mk.injEq] at h
  obtain ⟨r', h1, rfl, h2⟩ := h
  exact ⟨Pc.answer_eq h1, h2⟩

theorem left_of {x : XState K V} {t r : Nat} (h : ending x t = some (r, true)) : Left x t := by
  simp only [ending, Option.map_eq_some_iff, Prod.mk.injEq] at h
  obtain ⟨r', h1, rfl, h2⟩ := h
  exact ⟨⟨_, Pc.answer_eq h1⟩, h2⟩

theorem running_of {x : XState K V} {t : Nat} (h : ending x t = none) : (∀ r, ¬ Returned x t r) ∧ ¬ Left x t := by
  have : ∀ r, x.st.pc t ≠ .done r := by
    intro r hr
    simp [ending, hr, Pc.answer] at h
  exact ⟨fun r hr => this r hr.1, fun hl => by obtain ⟨⟨r, hr⟩, _⟩ := hl; exact this r hr⟩

theorem executes_of {may : Call → Bool} {mv : Bool} {S : XSys K V} {es : List (XEv K V)} {t a b : Nat} {q : Nat × Bool} {o : Op K V}
    (h0 : Called (S.trace may mv {} es a) t o) (hab : a ≤ b) (h1 : ending (S.trace may mv {} es b) t = some q)
    (h2 : ∀ i < b, ending (S.trace may mv {} es i) t = none) : Executes (S.trace may mv {} es) t o a b := by
  refine ⟨hab, h0, ?_, fun i _ hi => running_of (h2 i hi)⟩
  obtain ⟨r, b'⟩ := q
  cases b' with
  | false => exact .inl ⟨r, returned_of h1⟩
  | true => exact .inr (left_of h1)

/-- Two threads have called operations. -/
def exTwo (o o' : Op Nat Nat) : XSys Nat Nat := ⟨⟨ex0.sys.mem, [.start o, .start o']⟩, [false, false]⟩
theorem exTwo_reach (may : Call → Bool) (mv : Bool) (o o' : Op Nat Nat) : XReach may mv {} exF 0 20 (exTwo o o').state := by
  refine XSys.run_reach (S := ex0) (es := [.op 0 o, .op 1 o']) ?_ rfl
  rw [ex0, XSys.init_state]
  exact .init

/-- Both insert key 1. The constructor of the first throws; the second, which finds the insertion counter changed, starts over and
inserts. -/
def ex1 : XSys Nat Nat := exTwo (.key (exInsert 1 10)) (.key (exInsert 1 20))
def ev1 : List (XEv Nat Nat) := xgo 0 18 ++ xgo 1 18 ++ xgo 0 5 ++ XEv.throw 0 true 0 :: xgo 1 3 ++ xgo 0 5 ++ xgo 1 31

set_option maxRecDepth 100000 in
theorem ex1_run : XRun exMay false {} (ex1.trace exMay false {} ev1) (xwho ev1) 81 := run_of (by decide +kernel)
set_option maxRecDepth 100000 in
theorem ex1_first : Executes (ex1.trace exMay false {} ev1) 0 (.key (exInsert 1 10)) 0 50 ∧ Left (ex1.trace exMay false {} ev1 50) 0 :=
  ⟨executes_of rfl (by decide) (q := (0, true)) (by decide +kernel) (by decide +kernel), left_of (r := 0) (by decide +kernel)⟩
set_option maxRecDepth 100000 in
theorem ex1_second : Executes (ex1.trace exMay false {} ev1) 1 (.key (exInsert 1 20)) 0 81 ∧ Returned (ex1.trace exMay false {} ev1 81) 1 1 :=
  ⟨executes_of rfl (by decide) (q := (1, false)) (by decide +kernel) (by decide +kernel), returned_of (by decide +kernel)⟩

/-- One inserts key 1, then the callback of the other's visit changes the element and throws. -/
def exVisit : KOp Nat Nat := .visit .excl 1 (·.2)
def ex2 : XSys Nat Nat := exTwo (.key (exInsert 1 10)) (.key exVisit)
def ev2 : List (XEv Nat Nat) := xgo 0 26 ++ xgo 1 19 ++ XEv.throw 1 true 99 :: xgo 1 2

set_option maxRecDepth 100000 in
theorem ex2_run : XRun exPred false {} (ex2.trace exPred false {} ev2) (xwho ev2) 48 := run_of (by decide +kernel)
set_option maxRecDepth 100000 in
theorem ex2_visit : Executes (ex2.trace exPred false {} ev2) 1 (.key exVisit) 0 48 ∧ Left (ex2.trace exPred false {} ev2 48) 1 :=
  ⟨executes_of rfl (by decide) (q := (0, true)) (by decide +kernel) (by decide +kernel), left_of (r := 0) (by decide +kernel)⟩

/-- Key 1 is there. One looks it up while the constructor of the other's element 2 throws. -/
def exLook : KOp Nat Nat := .visit .shared 1 (·.2)
def ev3 : List (XEv Nat Nat) := .op 0 (.key (exInsert 1 10)) :: xgo 0 26 ++ [.op 1 (.key exLook), .op 0 (.key (exInsert 2 20))] ++
  xgo 1 10 ++ xgo 0 23 ++ [.throw 0 true 0] ++ xgo 0 5 ++ xgo 1 12
/-- Key 1 is there. One passes over the whole table; its callback throws. -/
def exAll : Op Nat Nat := .sweep .excl fun y => .go y.2 1
def ev4 : List (XEv Nat Nat) := .op 0 (.key (exInsert 1 10)) :: xgo 0 26 ++ [.op 1 exAll] ++ xgo 1 2 ++ [.throw 1 true 5] ++ xgo 1 2
/-- Key 1 is there. One passes over the whole table; the callback of the other's visit throws. -/
def ev5 : List (XEv Nat Nat) := .op 0 (.key (exInsert 1 10)) :: xgo 0 26 ++ [.op 1 exAll, .op 0 (.key exVisit)] ++ xgo 1 1 ++
  xgo 0 19 ++ [.throw 0 true 5] ++ xgo 0 2 ++ xgo 1 6
/-- Key 1 is there. `reserve(1000)` fails to allocate. -/
def exAlloc : Call → Bool := fun k => k == .alloc
def ev6 : List (XEv Nat Nat) := .op 0 (.key (exInsert 1 10)) :: xgo 0 26 ++ [.op 1 (.ex (.reserve 1000))]

theorem ex0_reach (may : Call → Bool) (es : List (XEv Nat Nat)) : XReach may false {} exF 0 20 (ex0.trace may false {} es 0) := by
  show XReach may false {} exF 0 20 ex0.state
  rw [ex0, XSys.init_state]
  exact .init

/-- Thread `t` is at the beginning of `o`. -/
theorem called_step {may : Call → Bool} {S T : XSys Nat Nat} {t : Nat} {o : Op Nat Nat}
    (h : S.step may false {} (.op t o) = some T) : Called T.state t o := by
  by_cases hc : t < S.sys.pcs.length ∧ t < S.excs.length ∧ S.sys.nowrap = true
  · simp only [XSys.step, XEv.op, hc, and_self, if_true, Option.map_eq_some_iff] at h
    obtain ⟨T', h1, rfl⟩ := h
    simp only [Sys.step, hc.1, hc.2.2, and_self, if_true] at h1
    split at h1 <;> cases h1 <;> simp [Called, XSys.state, Sys.state, Sys.pc, hc.1, List.getD_eq_getElem?_getD]
  · simp only [XSys.step, XEv.op, hc, if_false] at h
    cases h

theorem called_trace {may : Call → Bool} {S : XSys Nat Nat} {pre post : List (XEv Nat Nat)} {t : Nat} {o : Op Nat Nat}
    (h : (S.run may false {} (pre ++ [.op t o])).isSome = true) :
    Called (S.trace may false {} (pre ++ .op t o :: post) (pre.length + 1)) t o := by
  obtain ⟨T, hT⟩ := Option.isSome_iff_exists.1 h
  have h1 : (pre ++ XEv.op t o :: post).take (pre.length + 1) = pre ++ [.op t o] := by
    rw [List.take_length_add_append]; rfl
  rw [XSys.trace, h1, hT, Option.getD_some]
  rw [XSys.run_append, Option.bind_eq_some_iff] at hT
  obtain ⟨S1, _, h3⟩ := hT
  simp only [XSys.run, List.foldlM_cons, List.foldlM_nil, Option.bind_eq_bind, Option.bind_eq_some_iff] at h3
  obtain ⟨S2, h4, h5⟩ := h3
  cases h5
  exact called_step h4

theorem present_of {x : XState Nat Nat} {g j k : Nat} (h : (x.st.mem.slot g j).map Prod.fst = some k) :
    Present exF.eq (Elems x.st) k := by
  obtain ⟨y, h1, rfl⟩ := Option.map_eq_some_iff.1 h
  exact ⟨y, ⟨g, j, h1⟩, by simp [exF]⟩

set_option maxRecDepth 100000 in
theorem ev3_ok : XRun exMay false {} (ex0.trace exMay false {} ev3) (xwho ev3) 80 ∧
    Executes (ex0.trace exMay false {} ev3) 1 (.key exLook) 28 80 ∧ Returned (ex0.trace exMay false {} ev3 80) 1 1 ∧
    ∀ i, 28 ≤ i → i ≤ 80 → Present exF.eq (Elems (ex0.trace exMay false {} ev3 i).st) 1 := by
  refine ⟨run_of (by decide +kernel), executes_of (q := (1, false)) ?_ (by decide) (by decide +kernel) (by decide +kernel),
    returned_of (by decide +kernel), fun i h1 h2 => ?_⟩
  · exact called_trace (pre := .op 0 (.key (exInsert 1 10)) :: xgo 0 26) (by decide +kernel)
  · have : ∀ i < 81, 28 ≤ i → ((ex0.trace exMay false {} ev3 i).st.mem.slot 0 0).map Prod.fst = some 1 := by decide +kernel
    exact present_of (this i (by omega) h1)

set_option maxRecDepth 100000 in
theorem ev4_ok : XRun exPred false {} (ex0.trace exPred false {} ev4) (xwho ev4) 33 ∧
    Executes (ex0.trace exPred false {} ev4) 1 exAll 28 33 ∧ Left (ex0.trace exPred false {} ev4 33) 1 ∧
    ∀ i, 28 ≤ i → i ≤ 33 → Present exF.eq (Elems (ex0.trace exPred false {} ev4 i).st) 1 := by
  refine ⟨run_of (by decide +kernel), executes_of (q := (0, true)) ?_ (by decide) (by decide +kernel) (by decide +kernel),
    left_of (r := 0) (by decide +kernel), fun i h1 h2 => ?_⟩
  · exact called_trace (pre := .op 0 (.key (exInsert 1 10)) :: xgo 0 26) (by decide +kernel)
  · have : ∀ i < 34, 28 ≤ i → ((ex0.trace exPred false {} ev4 i).st.mem.slot 0 0).map Prod.fst = some 1 := by decide +kernel
    exact present_of (this i (by omega) h1)

set_option maxRecDepth 100000 in
theorem ev5_ok : XRun exPred false {} (ex0.trace exPred false {} ev5) (xwho ev5) 58 ∧
    Executes (ex0.trace exPred false {} ev5) 1 exAll 28 58 ∧ Returned (ex0.trace exPred false {} ev5 58) 1 1 ∧
    ∀ i, 28 ≤ i → i ≤ 58 → Present exF.eq (Elems (ex0.trace exPred false {} ev5 i).st) 1 := by
  refine ⟨run_of (by decide +kernel), executes_of (q := (1, false)) ?_ (by decide) (by decide +kernel) (by decide +kernel),
    returned_of (by decide +kernel), fun i h1 h2 => ?_⟩
  · exact called_trace (pre := .op 0 (.key (exInsert 1 10)) :: xgo 0 26) (by decide +kernel)
  · have : ∀ i < 59, 28 ≤ i → ((ex0.trace exPred false {} ev5 i).st.mem.slot 0 0).map Prod.fst = some 1 := by decide +kernel
    exact present_of (this i (by omega) h1)

/-- The container after the first example. -/
def exEnd : XSys Nat Nat := (ex1.run exMay false {} ev1).getD ex1
set_option maxRecDepth 100000 in
theorem exEnd_reach : XReach exMay false {} exF 0 20 exEnd.state := by
  have h : (ex1.run exMay false {} ev1).isSome = true := by decide +kernel
  obtain ⟨S, hS⟩ := Option.isSome_iff_exists.1 h
  rw [exEnd, hS]
  exact XSys.run_reach (exTwo_reach exMay false _ _) hS

/-! ### every state -/

section
variable {may : Call → Bool} {mv : Bool} {cfg : Cfg} {f : Fns K} (hf : f.Lawful) {al c : Nat}
include hf

/-- Whatever throws, no thread ever comes to undefined behaviour. -/
theorem C50_no_undefined_behaviour {x : XState K V} (h : XReach may mv cfg f al c x) (t : Nat) : x.st.pc t ≠ .bad :=
  pcOk_not_bad ((h.inv hf).1.inv.pcs t)

omit hf in
/-- Here the constructor of the first thread's element has thrown. -/
example : exF.Lawful ∧ XReach exMay false {} exF 0 20 exEnd.state := ⟨exF_lawful, exEnd_reach⟩

/-- Whatever throws, equivalent elements are one element in one slot. Full statement: without the assumption, part of `XReach`,
that no insertion counter wraps around during a single insertion (see C29). -/
theorem C50_no_duplicates_partial {x : XState K V} (h : XReach may mv cfg f al c x) {g j g' j' : Nat} {y z : K × V}
    (hy : x.st.mem.slot g j = some y) (hz : x.st.mem.slot g' j' = some z) (he : f.eq y.1 z.1 = true) : g = g' ∧ j = j' := by
  have hi := h.inv hf
  exact (hi.1.inv.shape.live hy).2.uniq _ _ _ _ _ _ hy hz (by rw [hi.2]; exact he)

set_option maxRecDepth 100000 in
omit hf in
example : exF.Lawful ∧ XReach exMay false {} exF 0 20 exEnd.state ∧ exEnd.state.st.mem.slot 0 0 = some (1, 20) :=
  ⟨exF_lawful, exEnd_reach, by decide +kernel⟩

/-- Whatever throws, two threads about to access the same element only read it. -/
theorem C50_no_conflicting_access {x : XState K V} (h : XReach may mv cfg f al c x) {t u g j : Nat} {w w' : Bool} (htu : t ≠ u)
    (ht : Touches x.st t g j w) (hu : Touches x.st u g j w') : w = false ∧ w' = false :=
  Props.ConcTable.no_conflict (h.inv hf).1.inv htu ht hu

set_option maxRecDepth 100000 in
omit hf in
/-- While thread 0 is being unwound, thread 1 is about to access the slot thread 0 had reserved. -/
example : ∃ x : XState Nat Nat, XReach exMay false {} exF 0 20 x ∧ x.exc 0 = true ∧ Touches x.st 1 0 0 true := by
  have h : (ex1.run exMay false {} (ev1.take 52)).isSome = true := by decide +kernel
  have h0 : (((ex1.run exMay false {} (ev1.take 52)).getD ex1).excs.getD 0 false) = true := by decide +kernel
  have h1 : (match ((ex1.run exMay false {} (ev1.take 52)).getD ex1).sys.pc 1 with
    | .insInc _ _ pb i => pb.pos == 0 && i == 0
    | _ => false) = true := by decide +kernel
  obtain ⟨S, hS⟩ := Option.isSome_iff_exists.1 h
  rw [hS, Option.getD_some] at h0 h1
  refine ⟨S.state, XSys.run_reach (exTwo_reach exMay false _ _) hS, h0, ?_⟩
  unfold Touches
  change (match S.state.st.pc 1 with
    | .insInc _ _ pb i => pb.pos == 0 && i == 0
    | _ => false) = true at h1
  generalize S.state.st.pc 1 = p at h1
  cases p <;> simp at h1
  exact ⟨h1.1, h1.2, rfl⟩

/-- Whatever throws, elements and granted reservations together never exceed `ml`. -/
theorem C50_no_overcommitment {x : XState K V} (h : XReach may mv cfg f al c x)
    {P : List (Nat × Nat)} (hP : P.Nodup) (hp : ∀ p ∈ P, ∃ y, x.st.mem.slot p.1 p.2 = some y) {T : List Nat} (hT : T.Nodup)
    (ht : ∀ t ∈ T, ∃ o c pb, x.st.pc t = .insLock o c pb ∨ x.st.pc t = .insFind o c pb ∨ ∃ j, x.st.pc t = .insInc o c pb j) :
    P.length + T.length ≤ x.st.mem.tab.ml ∧ P.length ≤ sizeAnswer x.st ∧ sizeAnswer x.st ≤ x.st.mem.tab.ml ∧
    x.st.mem.tab.ml ≤ x.st.mem.tab.capacity :=
  Props.ConcTable.overcommit (h.inv hf).1.inv hP hp hT ht

set_option maxRecDepth 100000 in
omit hf in
example : XReach exMay false {} exF 0 20 exEnd.state ∧ (∃ x, exEnd.state.st.mem.slot 0 0 = some x) ∧ sizeAnswer exEnd.state.st = 1 :=
  ⟨exEnd_reach, ⟨(1, 20), by decide +kernel⟩, by decide +kernel⟩

/-- Exceptions leak nothing: when no operation is in flight, however many have been left by exceptions, `size()` is the number of
elements (no reservation is left), and every slot of the allocated arrays whose metadata says it is occupied has an element (no slot is left reserved). -/
theorem C50_nothing_leaked {x : XState K V} (h : XReach may mv cfg f al c x) (hq : ∀ t, ¬ Busy x.st t) :
    (∃ L : List (K × V), L.Nodup ∧ (∀ y, y ∈ L ↔ Elems x.st y) ∧ sizeAnswer x.st = L.length ∧ L.length ≤ x.st.mem.tab.ml) ∧
    (x.st.mem.tab.arr.hasElems = true → ∀ g j, g < 2 ^ x.st.mem.tab.arr.k → j < N → ¬ (g = x.st.mem.tab.arr.mask ∧ j = N - 1) → (x.st.mem.grp g).md j ≠ 0 →
      ∃ y, x.st.mem.slot g j = some y) := by
  have hi := (h.inv hf).1.inv
  constructor
  · obtain ⟨L, h1, h2, h3, _, h4⟩ := Props.ConcTable.size_quiet hi hq
    exact ⟨L, h1, h2, h3, h4⟩
  · intro he g j hg hj hs hm
    have hv : Valid x.st.mem.tab.arr.k g j := ⟨hg, hj, hs⟩
    rcases (hi.quiescent (fun u => by simpa [Busy] using hq u)).arr with ⟨_, hl⟩ | ⟨hd', _⟩
    · rcases hl.cell g j hv with ⟨h1, _⟩ | ⟨y, h1, _⟩
      · exact absurd h1 hm
      · exact ⟨y, h1⟩
    · rw [hd'] at he; cases he

set_option maxRecDepth 100000 in
omit hf in
/-- After the example in which a constructor threw; the container has allocated storage. -/
example : XReach exMay false {} exF 0 20 exEnd.state ∧ (∀ t, ¬ Busy exEnd.state.st t) ∧
    exEnd.state.st.mem.tab.arr.hasElems = true := by
  refine ⟨exEnd_reach, fun t ht => ?_, by decide +kernel⟩
  have h : exEnd.sys.pcs.all (fun p => !p.inside) = true := by decide +kernel
  have := all_outside h t
  unfold Busy at ht
  change (exEnd.sys.state.pc t).inside = true at ht
  rw [this] at ht; cases ht

/-! ### operations with a key -/

omit hf in
theorem sub_run {σ : Nat → XState K V} {who : Nat → Nat} {n : Nat} (h : XRun may mv cfg σ who n) {a b : Nat}
    (hab : a ≤ b) (hb : b ≤ n) : XRun may mv cfg (fun i => σ (a + i)) (fun i => who (a + i)) (b - a) :=
  ⟨fun i hi => h.step (a + i) (by omega), fun i hi => h.nowrap (a + i) (by omega)⟩

omit hf in
theorem not_done {σ : Nat → XState K V} {t : Nat} {o : Op K V} {a b : Nat} (he : Executes σ t o a b) {i : Nat} (h1 : a ≤ i)
    (h2 : i < b) (r : Nat) : (σ i).st.pc t ≠ .done r := by
  intro hq
  have := he.running i h1 h2
  cases h : (σ i).exc t with
  | false => exact this.1 r ⟨hq, h⟩
  | true => exact this.2 ⟨⟨r, hq⟩, h⟩

/-- An operation that returns takes effect at one instant between its call and its return, as if nothing had thrown anywhere
(C42), although operations of other threads throw. -/
theorem C50_linearizable {σ : Nat → XState K V} {who : Nat → Nat} {n : Nat}
    (h0 : XReach may mv cfg f al c (σ 0)) (hr : XRun may mv cfg σ who n) {t : Nat} {o : KOp K V} {a b r : Nat}
    (he : Executes σ t (.key o) a b) (hret : Returned (σ b) t r) (hb : b ≤ n) :
    (∃ l, a ≤ l ∧ l < b ∧ who l = t ∧ Does f.eq o (Elems (σ l).st) (Elems (σ (l + 1)).st) r ∧
      ∀ l', a ≤ l' → l' < b → who l' = t → l' ≠ l → Same (Elems (σ l').st) (Elems (σ (l' + 1)).st)) ∨
    (∃ l, a ≤ l ∧ l ≤ b ∧ Does f.eq o (Elems (σ l).st) (Elems (σ l).st) r ∧
      ∀ l', a ≤ l' → l' < b → who l' = t → Same (Elems (σ l').st) (Elems (σ (l' + 1)).st)) := by
  have hi0 := h0.inv hf
  have hle := he.le
  have hinv := hr.inv hi0.1
  have hfa : (σ a).st.mem.tab.fns = f := ((hinv a (by omega)).2).trans hi0.2
  have key := Conc.Exc.lin_points (sub_run hr he.le hb) (t := t) (o := o) (hinv a (by omega)).1 he.called
    (fun i hi r' hq => not_done he (i := a + i) (by omega) (by omega) r' hq) (b - a) le_rfl
  simp only [Nat.add_sub_cancel' he.le, Nat.add_zero] at key
  rw [hret.1, hret.2, hfa] at key
  rcases key with ⟨h1, _⟩ | ⟨h1, _⟩ | ⟨h1, _⟩ | ⟨_, r', h1, h2⟩
  · cases h1
  · cases h1
  · cases h1
  · cases h1
    rw [Props.ConcTable.does_eq]
    rcases h2 with ⟨l, hl, hw, hs, hsame⟩ | ⟨h3, h4, ⟨l, hl, hno⟩, hsame⟩
    · left
      refine ⟨a + l, by omega, by omega, hw, hs, fun l' h1 h2 h3 h4 => ?_⟩
      have := hsame (l' - a) (by omega) (by rw [Nat.add_sub_cancel' h1]; exact h3) (by omega)
      rw [Nat.add_sub_cancel' h1, show a + (l' - a + 1) = l' + 1 by omega] at this
      exact this
    · right
      refine ⟨a + l, by omega, by omega, ?_, fun l' h1 h2 h3 => ?_⟩
      · have hno' := noKey_iff.1 hno
        rw [((hinv (a + l) (by omega)).2).trans hi0.2] at hno'
        subst h4
        cases o with
        | visit m k g => exact .inr ⟨hno', Same.rfl' _, rfl⟩
        | insert m x f2 f1 => cases h3
        | erase k p => exact .inr ⟨hno', Same.rfl' _, rfl⟩
      · have := hsame (l' - a) (by omega) (by rw [Nat.add_sub_cancel' h1]; exact h3)
        rw [Nat.add_sub_cancel' h1, show a + (l' - a + 1) = l' + 1 by omega] at this
        exact this

omit hf in
example : exF.Lawful ∧ XReach exMay false {} exF 0 20 (ex1.trace exMay false {} ev1 0) ∧
    XRun exMay false {} (ex1.trace exMay false {} ev1) (xwho ev1) 81 ∧
    Executes (ex1.trace exMay false {} ev1) 1 (.key (exInsert 1 20)) 0 81 ∧ Returned (ex1.trace exMay false {} ev1 81) 1 1 :=
  ⟨exF_lawful, exTwo_reach exMay false _ _, ex1_run, ex1_second⟩

/-- An operation that is left by an exception has changed nothing, or, in one of its steps only, what `LeftBehind` allows: its
callback was called (once) and threw, or elements were lost in a rehash. -/
theorem C50_left {σ : Nat → XState K V} {who : Nat → Nat} {n : Nat}
    (h0 : XReach may mv cfg f al c (σ 0)) (hr : XRun may mv cfg σ who n) {t : Nat} {o : KOp K V} {a b : Nat}
    (he : Executes σ t (.key o) a b) (hl : Left (σ b) t) (hb : b ≤ n) :
    (∀ l, a ≤ l → l < b → who l = t → Same (Elems (σ l).st) (Elems (σ (l + 1)).st)) ∨
    (∃ l, a ≤ l ∧ l < b ∧ who l = t ∧ LeftBehind may mv f.eq o (Elems (σ l).st) (Elems (σ (l + 1)).st) ∧
      ∀ l', a ≤ l' → l' < b → who l' = t → l' ≠ l → Same (Elems (σ l').st) (Elems (σ (l' + 1)).st)) := by
  have hi0 := h0.inv hf
  have hle := he.le
  have hinv := hr.inv hi0.1
  have hfa : (σ a).st.mem.tab.fns = f := ((hinv a (by omega)).2).trans hi0.2
  have key := Conc.Exc.lin_points (sub_run hr he.le hb) (t := t) (o := o) (hinv a (by omega)).1 he.called
    (fun i hi r' hq => not_done he (i := a + i) (by omega) (by omega) r' hq) (b - a) le_rfl
  simp only [Nat.add_sub_cancel' he.le, Nat.add_zero] at key
  obtain ⟨⟨r, hl1⟩, hl2⟩ := hl
  rw [hl1, hl2, hfa] at key
  rcases key with ⟨h1, _⟩ | ⟨_, h1, _⟩ | ⟨_, _, h⟩ | ⟨h1, _⟩
  · cases h1
  · cases h1
  · rcases h with h | ⟨l, hl, hw, hx, hsame⟩
    · left
      intro l h1 h2 h3
      have := h (l - a) (by omega) (by rw [Nat.add_sub_cancel' h1]; exact h3)
      rw [Nat.add_sub_cancel' h1, show a + (l - a + 1) = l + 1 by omega] at this
      exact this
    · right
      refine ⟨a + l, by omega, by omega, hw, leftBehind_of hx, fun l' h1 h2 h3 h4 => ?_⟩
      have := hsame (l' - a) (by omega) (by rw [Nat.add_sub_cancel' h1]; exact h3) (by omega)
      rw [Nat.add_sub_cancel' h1, show a + (l' - a + 1) = l' + 1 by omega] at this
      exact this
  · cases h1

omit hf in
/-- A constructor throws; a callback throws, after changing the element. -/
example : (exF.Lawful ∧ XReach exMay false {} exF 0 20 (ex1.trace exMay false {} ev1 0) ∧
      XRun exMay false {} (ex1.trace exMay false {} ev1) (xwho ev1) 81 ∧
      Executes (ex1.trace exMay false {} ev1) 0 (.key (exInsert 1 10)) 0 50 ∧ Left (ex1.trace exMay false {} ev1 50) 0) ∧
    (XReach exPred false {} exF 0 20 (ex2.trace exPred false {} ev2 0) ∧ XRun exPred false {} (ex2.trace exPred false {} ev2) (xwho ev2) 48 ∧
      Executes (ex2.trace exPred false {} ev2) 1 (.key exVisit) 0 48 ∧ Left (ex2.trace exPred false {} ev2 48) 1) :=
  ⟨⟨exF_lawful, exTwo_reach exMay false _ _, ex1_run, ex1_first⟩, exTwo_reach exPred false _ _, ex2_run, ex2_visit⟩

/-- Strong guarantee: if callbacks do not throw, and rehashing copies or neither the hash function nor the move throws, an
operation left by an exception has not changed the contents in any of its steps. -/
theorem C50_strong_guarantee {σ : Nat → XState K V} {who : Nat → Nat} {n : Nat}
    (h0 : XReach may mv cfg f al c (σ 0)) (hr : XRun may mv cfg σ who n) {t : Nat} {o : KOp K V} {a b : Nat}
    (he : Executes σ t (.key o) a b) (hl : Left (σ b) t) (hb : b ≤ n) (hp : may .pred = false) (hm : ¬ MayLose may mv)
    {l : Nat} (h1 : a ≤ l) (h2 : l < b) (h3 : who l = t) : Same (Elems (σ l).st) (Elems (σ (l + 1)).st) := by
  rcases C50_left hf h0 hr he hl hb with h | ⟨l', _, _, _, ⟨h, _⟩ | ⟨h, _⟩, _⟩
  · exact h l h1 h2 h3
  · rw [hp] at h; cases h
  · exact absurd h hm

omit hf in
example : exF.Lawful ∧ XReach exMay false {} exF 0 20 (ex1.trace exMay false {} ev1 0) ∧
    XRun exMay false {} (ex1.trace exMay false {} ev1) (xwho ev1) 81 ∧
    Executes (ex1.trace exMay false {} ev1) 0 (.key (exInsert 1 10)) 0 50 ∧ Left (ex1.trace exMay false {} ev1 50) 0 ∧
    exMay .pred = false ∧ ¬ MayLose exMay false ∧ xwho ev1 41 = 0 :=
  ⟨exF_lawful, exTwo_reach exMay false _ _, ex1_run, ex1_first.1, ex1_first.2, rfl, fun h => (by cases h.1), by decide⟩

/-- A lookup that returns finds a key present all the time and does not find one absent exMay the time. -/
theorem C50_lookup {σ : Nat → XState K V} {who : Nat → Nat} {n : Nat}
    (h0 : XReach may mv cfg f al c (σ 0)) (hr : XRun may mv cfg σ who n) {t : Nat} {m : Mode} {k : K} {g : K × V → V} {a b r : Nat}
    (he : Executes σ t (.key (.visit m k g)) a b) (hret : Returned (σ b) t r) (hb : b ≤ n) :
    ((∀ i, a ≤ i → i ≤ b → Present f.eq (Elems (σ i).st) k) → r = 1) ∧
    ((∀ i, a ≤ i → i ≤ b → ¬ Present f.eq (Elems (σ i).st) k) → r = 0) := by
  have hv : ∀ {A A' : Con K V}, Does f.eq (.visit m k g) A A' r → (Present f.eq A k ∧ r = 1) ∨ (¬ Present f.eq A k ∧ r = 0) := by
    intro A A' hd
    have : ∃ w, Visit f.eq w k g A A' r := by cases m <;> exact ⟨_, hd⟩
    obtain ⟨w, ⟨y, h1, h2, _, h⟩ | ⟨h1, h2, h3⟩⟩ := this
    · exact .inl ⟨⟨y, h1, h2⟩, h⟩
    · exact .inr ⟨h1, h3⟩
  have : ∃ l, a ≤ l ∧ l ≤ b ∧ ((Present f.eq (Elems (σ l).st) k ∧ r = 1) ∨ (¬ Present f.eq (Elems (σ l).st) k ∧ r = 0)) := by
    rcases C50_linearizable hf h0 hr he hret hb with ⟨l, h1, h2, h3, h4, _⟩ | ⟨l, h1, h2, h4, _⟩
    · exact ⟨l, h1, h2.le, hv h4⟩
    · exact ⟨l, h1, h2, hv h4⟩
  obtain ⟨l, h1, h2, h | h⟩ := this
  · exact ⟨fun _ => h.2, fun hno => absurd h.1 (hno l h1 h2)⟩
  · exact ⟨fun hp => absurd (hp l h1 h2) h.1, fun _ => h.2⟩

omit hf in
example : exF.Lawful ∧ XReach exMay false {} exF 0 20 (ex0.trace exMay false {} ev3 0) ∧
    XRun exMay false {} (ex0.trace exMay false {} ev3) (xwho ev3) 80 ∧
    Executes (ex0.trace exMay false {} ev3) 1 (.key exLook) 28 80 ∧ Returned (ex0.trace exMay false {} ev3 80) 1 1 ∧
    ∀ i, 28 ≤ i → i ≤ 80 → Present exF.eq (Elems (ex0.trace exMay false {} ev3 i).st) 1 :=
  ⟨exF_lawful, ex0_reach _ _, ev3_ok⟩

/-! ### operations on the whole container -/

/-- A step of a thread that has called an operation on the whole container completes it: as specified, or by an exception. Then no
element is new, and none is lost unless rehashing moves elements and the hash function or the move may throw. -/
theorem C50_container_operations {x x' : XState K V} (h : XReach may mv cfg f al c x) {t : Nat} {e : ExOp K V}
    (hc : Called x t (.ex e)) (hs : XStepBy may mv cfg t x x') :
    (∀ u, ¬ Busy x.st u) ∧ ((∃ r, Returned x' t r ∧ DoesEx f.eq e (Elems x.st) (Elems x'.st) r) ∨
      (Left x' t ∧ Lost (Elems x.st) (Elems x'.st) ∧ (¬ MayLose may mv → Same (Elems x.st) (Elems x'.st)))) := by
  have hi := h.inv hf
  unfold Called at hc
  have hx0 := start_no_exc hi.1 hc
  cases hs with
  | throw h => rw [hc] at h; cases h
  | unwound h1 h2 => rw [hc] at h2; cases h2
  | base h _ =>
    cases h with
    | quiet h => rw [hc] at h; cases h
    | eff h => rw [hc] at h; cases h
    | @alone m' pc' hout h =>
      refine ⟨(fun u hu => by rw [Busy, hout u] at hu; cases hu), .inl ?_⟩
      have hinv := hi.1.inv.quiescent hout
      rw [hc] at h
      cases h with
      | ex e t' r cnt' h1 h2 =>
        refine ⟨r, ⟨by simp [State.set], by simp [hx0]⟩, ?_⟩
        have := ExOp.correct cfg hinv e h1 x.st.mem.cnt cnt'
        rw [hi.2] at this
        cases e <;> exact this
      | exBad e h1 =>
        obtain ⟨t', r, h2, _⟩ := ExOp.run_spec cfg hinv e
        rw [h1] at h2; cases h2
  | @alone m' p' hout h =>
    refine ⟨(fun u hu => by rw [Busy, hout u] at hu; cases hu), .inr ?_⟩
    have hinv := hi.1.inv.quiescent hout
    obtain ⟨h1, h2, h3⟩ := h.kept hinv
    have hm' : ∀ y : K × V, y ∈ m'.tab.contents ↔ m'.elems y := fun y => h2.inv.mem
    have hm : ∀ y : K × V, y ∈ x.st.mem.tab.contents ↔ x.st.mem.elems y := fun y => hinv.mem
    subst h1
    refine ⟨⟨⟨0, by simp [State.set]⟩, by simp⟩, ?_, fun hl y => ?_⟩
    · intro y hy
      obtain ⟨lost, hp⟩ := h2.sub
      exact (hm y).1 (hp.mem_iff.2 (List.mem_append_right _ ((hm' y).2 hy)))
    · have := h3 hl
      show m'.elems y ↔ x.st.mem.elems y
      rw [← hm', ← hm, this]

set_option maxRecDepth 100000 in
omit hf in
example : ∃ x x' : XState Nat Nat, XReach exAlloc false {} exF 0 20 x ∧ Called x 1 (.ex (.reserve 1000)) ∧
    XStepBy exAlloc false {} 1 x x' ∧ Left x' 1 := by
  have h : (ex0.run exAlloc false {} ev6).isSome = true := by decide +kernel
  have h2 : (((ex0.run exAlloc false {} ev6).getD ex0).step exAlloc false {} (.throwAlone 1 ⟨0, 0, 0⟩)).isSome = true := by
    decide +kernel
  have h3 : ending ((((ex0.run exAlloc false {} ev6).getD ex0).step exAlloc false {} (.throwAlone 1 ⟨0, 0, 0⟩)).getD ex0).state 1 =
    some (0, true) := by decide +kernel
  have hc := called_trace (may := exAlloc) (S := ex0) (pre := .op 0 (.key (exInsert 1 10)) :: xgo 0 26) (t := 1)
    (o := .ex (.reserve 1000)) (post := []) (by decide +kernel)
  obtain ⟨S, hS⟩ := Option.isSome_iff_exists.1 h
  rw [hS, Option.getD_some] at h2 h3
  obtain ⟨T, hT⟩ := Option.isSome_iff_exists.1 h2
  rw [hT, Option.getD_some] at h3
  refine ⟨S.state, T.state, XSys.run_reach (ex0_reach _ []) hS, ?_, (XSys.step_sound hT).2, left_of h3⟩
  change Called (ex0.trace exAlloc false {} ev6 28) 1 _ at hc
  rw [XSys.trace, show ev6.take 28 = ev6 from List.take_of_length_le (by decide), hS, Option.getD_some] at hc
  exact hc

omit hf in
theorem grow_throws {n : Nat} (hn : 0 < n) (ha : may .alloc = true) (tab : Table K V) :
    growX may mv cfg n tab ⟨0, 0, 0⟩ = .threw ⟨0, 0, 0⟩ tab := by
  have h1 : (Arrays.new_ cfg tab.al n : Arrays K V).hasElems = true := by
    simp only [Arrays.new_]
    split
    · omega
    · rfl
  simp only [growX, Arrays.newX, h1, if_true, Env.call, ha, Option.map_none]

/-- An insertion that has found no room and has got the container for itself: a failing allocation is possible exactly if the
container is full, and then the insertion is left by the exception and the contents stay. -/
theorem C50_growth_throws {x : XState K V} (h : XReach may mv cfg f al c x) {t : Nat} {o : KOp K V} (hq : x.st.pc t = .full o)
    (hout : ∀ u, ¬ Busy x.st u) (ha : may .alloc = true) :
    (∃ x', XStepBy may mv cfg t x x' ∧ Left x' t ∧ Same (Elems x.st) (Elems x'.st)) ↔ x.st.mem.tab.size = x.st.mem.tab.ml := by
  have hx0 : x.exc t = false := by
    by_contra hx
    have := (h.inv hf).1.exc t (by simpa using hx)
    rw [hq] at this; cases this
  constructor
  · rintro ⟨x', hs, ⟨⟨r, hl1⟩, hl2⟩, _⟩
    by_contra hne
    cases hs with
    | unwound h1 h2 => rw [hx0] at h1; cases h1
    | throw h => rw [hq] at h; cases h
    | base h _ => simp only [hx0, ite_self] at hl2; cases hl2
    | alone ho h =>
      rw [hq] at h
      cases h with
      | grow o t' env env' h1 => simp only [rehashIfFullX, hne, if_false] at h1; cases h1
      | growBad o env h1 => simp only [rehashIfFullX, hne, if_false] at h1; cases h1
  · intro he
    refine ⟨_, .alone (fun u => by simpa [Busy] using hout u) (m' := x.st.mem) (p' := .done 0) ?_, ⟨⟨0, by simp [State.set]⟩, by simp⟩,
      Same.rfl' _⟩
    rw [hq]
    refine .grow o x.st.mem.tab ⟨0, 0, 0⟩ ⟨0, 0, 0⟩ ?_
    have hg : 0 < growthRequest x.st.mem.tab.size := slotsFor_pos (by omega)
    rw [rehashIfFullX, if_pos he]
    generalize growthRequest x.st.mem.tab.size = n at hg
    exact grow_throws hg ha _

set_option maxRecDepth 100000 in
omit hf in
/-- The first insertion into a container without storage. -/
example : ∃ (x : XState Nat Nat) (o : KOp Nat Nat), XReach exAlloc false {} exF 0 0 x ∧ x.st.pc 0 = .full o ∧
    (∀ u, ¬ Busy x.st u) ∧ x.st.mem.tab.size = x.st.mem.tab.ml := by
  let S : XSys Nat Nat := XSys.init {} exF 0 0 1
  let es : List (XEv Nat Nat) := .op 0 (.key (exInsert 1 10)) :: xgo 0 22
  have h : (S.run exAlloc false {} es).isSome = true := by decide +kernel
  have h1 : (match ((S.run exAlloc false {} es).getD S).sys.pc 0 with | .full _ => true | _ => false) = true := by decide +kernel
  have h2 : ((S.run exAlloc false {} es).getD S).sys.pcs.all (fun p => !p.inside) = true := by decide +kernel
  have h3 : ((S.run exAlloc false {} es).getD S).sys.mem.tab.size = ((S.run exAlloc false {} es).getD S).sys.mem.tab.ml := by
    decide +kernel
  obtain ⟨T, hT⟩ := Option.isSome_iff_exists.1 h
  rw [hT, Option.getD_some] at h1 h2 h3
  have hr : XReach exAlloc false {} exF 0 0 T.state := by
    refine XSys.run_reach (S := S) ?_ hT
    rw [XSys.init_state]
    exact .init
  change (match T.state.st.pc 0 with | .full _ => true | _ => false) = true at h1
  generalize hq : T.state.st.pc 0 = p at h1
  cases p <;> first | (cases h1; done) | skip
  rename_i o
  refine ⟨T.state, o, hr, hq, fun u hu => ?_, h3⟩
  have := all_outside h2 u
  rw [Busy, show T.state.st.pc u = T.sys.state.pc u from rfl, this] at hu
  cases hu

/-! ### whole-table passes -/

/-- In step `l` thread `t` passes an element with a key equivalent to `k` to the callback of its pass. -/
def PassesKey (eq : K → K → Bool) (σ : Nat → XState K V) (who : Nat → Nat) (t : Nat) (k : K) (l : Nat) : Prop :=
  who l = t ∧ ∃ y, Passes (σ l).st t y ∧ eq k y.1 = true

/-- A pass that returns (and is not stopped by its callback) passes every key present all the time exactly once, although
operations of other threads throw; one that is left by an exception does so at most once. -/
theorem C50_pass_once {σ : Nat → XState K V} {who : Nat → Nat} {n : Nat} (h0 : XReach may mv cfg f al c (σ 0))
    (hr : XRun may mv cfg σ who n) {t : Nat} {m : Mode} {act : K × V → Verdict V} {a b : Nat}
    (he : Executes σ t (.sweep m act) a b) (hb : b ≤ n)
    (hns : ∀ l, a ≤ l → l < b → who l = t → ∀ y v d, Passes (σ l).st t y → act y ≠ .stop v d) {k : K}
    (hp : ∀ i, a ≤ i → i ≤ b → Present f.eq (Elems (σ i).st) k) :
    ((∃ r, Returned (σ b) t r) → ∃ l, a ≤ l ∧ l < b ∧ PassesKey f.eq σ who t k l) ∧
    ∀ l l', a ≤ l → l < b → a ≤ l' → l' < b → PassesKey f.eq σ who t k l → PassesKey f.eq σ who t k l' → l = l' := by
  have hi0 := h0.inv hf
  have hle := he.le
  have hinv := hr.inv hi0.1
  have hfa : (σ a).st.mem.tab.fns = f := ((hinv a (by omega)).2).trans hi0.2
  have hsub := sub_run hr he.le hb
  have hv : ∀ l, Vis (fun i => (σ (a + i)).st) (fun i => who (a + i)) t k l ↔ PassesKey f.eq σ who t k (a + l) := by
    intro l
    simp only [Vis, PassesKey, Nat.add_zero, hfa]
  have hpres : ∀ i ≤ b - a, Present (σ (a + 0)).st.mem.tab.fns.eq (σ (a + i)).st.mem.elems k := by
    intro i hi
    rw [Nat.add_zero, hfa]
    exact hp (a + i) (by omega) (by omega)
  have hnd : ∀ i < b - a, ∀ r, (σ (a + i)).st.pc t ≠ .done r := fun i hi r => not_done he (by omega) (by omega) r
  constructor
  · rintro ⟨r, hret⟩
    have key := sweep_runX hsub (t := t) (md := m) (act := act) (hinv a (by omega)).1
      (fun i hi => hns (a + i) (by omega) (by omega)) he.called hnd
      (by rw [Nat.add_sub_cancel' he.le]; exact hret.2) (k := k) hpres (b - a) le_rfl
    simp only [Nat.add_sub_cancel' he.le] at key
    rw [hret.1] at key
    rcases key with ⟨h1, _⟩ | ⟨_, g0, j0, y, v, h1, h2, h3, h4, h5⟩
    · cases h1
    · obtain ⟨l, hl, hvl, hun⟩ := h5 h3
      exact ⟨a + l, by omega, by omega, (hv l).1 hvl⟩
  · intro l l' h1 h2 h3 h4 h5 h6
    have := sweep_once hsub (t := t) (md := m) (act := act) (hinv a (by omega)).1
      (fun i hi => hns (a + i) (by omega) (by omega)) he.called hnd (k := k) hpres
      (l := l - a) (l' := l' - a) (by omega) (by omega) ((hv _).2 (by rw [Nat.add_sub_cancel' h1]; exact h5))
      ((hv _).2 (by rw [Nat.add_sub_cancel' h3]; exact h6))
    omega

omit hf in
/-- One returns, one is left by an exception. -/
example : (exF.Lawful ∧ XReach exPred false {} exF 0 20 (ex0.trace exPred false {} ev5 0) ∧
      XRun exPred false {} (ex0.trace exPred false {} ev5) (xwho ev5) 58 ∧
      Executes (ex0.trace exPred false {} ev5) 1 exAll 28 58 ∧ Returned (ex0.trace exPred false {} ev5 58) 1 1 ∧
      ∀ i, 28 ≤ i → i ≤ 58 → Present exF.eq (Elems (ex0.trace exPred false {} ev5 i).st) 1) ∧
    (XReach exPred false {} exF 0 20 (ex0.trace exPred false {} ev4 0) ∧
      XRun exPred false {} (ex0.trace exPred false {} ev4) (xwho ev4) 33 ∧
      Executes (ex0.trace exPred false {} ev4) 1 exAll 28 33 ∧ Left (ex0.trace exPred false {} ev4 33) 1 ∧
      ∀ i, 28 ≤ i → i ≤ 33 → Present exF.eq (Elems (ex0.trace exPred false {} ev4 i).st) 1) ∧
    ∀ (y : Nat × Nat) v d, Verdict.go y.2 1 ≠ .stop v d :=
  ⟨⟨exF_lawful, ex0_reach _ _, ev5_ok⟩, ⟨ex0_reach _ _, ev4_ok⟩, fun y v d h => by cases h⟩

/-- What one step of a pass does to the contents: nothing, or what the callback says to the element passed, or the callback throws
after changing at most the mapped value of this element; then the pass is left by the exception. -/
theorem C50_pass_effect {σ : Nat → XState K V} {who : Nat → Nat} {n : Nat} (h0 : XReach may mv cfg f al c (σ 0))
    (hr : XRun may mv cfg σ who n) {t : Nat} {m : Mode} {act : K × V → Verdict V} {a b : Nat}
    (he : Executes σ t (.sweep m act) a b) (hb : b ≤ n) {l : Nat} (hl : a ≤ l) (hlb : l < b) (hw : who l = t) :
    (Same (Elems (σ l).st) (Elems (σ (l + 1)).st) ∧ ∀ y, ¬ Passes (σ l).st t y) ∨
    ∃ y, Passes (σ l).st t y ∧ ((match act y with
      | .go v _ | .stop v _ =>
          Replaced (Elems (σ l).st) (Elems (σ (l + 1)).st) y (y.1, match m with | .excl => v | .shared => y.2)
      | .erase => Removed (Elems (σ l).st) (Elems (σ (l + 1)).st) y) ∨
     (may .pred = true ∧ Left (σ b) t ∧
       ∃ v, Replaced (Elems (σ l).st) (Elems (σ (l + 1)).st) y (y.1, match m with | .excl => v | .shared => y.2))) := by
  have hi0 := h0.inv hf
  have hle := he.le
  have hinv := hr.inv hi0.1
  have hsub := sub_run hr he.le hb
  have hnd : ∀ i < b - a, ∀ r, (σ (a + i)).st.pc t ≠ .done r := fun i hi r => not_done he (by omega) (by omega) r
  have hs := Conc.Exc.XRun.sweeping hsub (t := t) (md := m) (act := act) (hinv a (by omega)).1 he.called hnd (l - a) (by omega)
  simp only [Nat.add_sub_cancel' hl] at hs
  have hstep := hr.step l (by omega)
  rw [hw] at hstep
  have := (hstep.sweeping (hinv l (by omega)).1 (hr.nowrap l (by omega)) (not_done he hl hlb) hs).2
  rcases this with h1 | ⟨y, h1, h2⟩
  · exact .inl h1
  · refine .inr ⟨y, h1, ?_⟩
    rcases h2 with ⟨v, d, h2, h3⟩ | ⟨v, d, h2, h3⟩ | ⟨h2, h3⟩ | ⟨h2, h3, h4, v, h5⟩
    · left; rw [h2]; cases m <;> exact h3
    · left; rw [h2]; cases m <;> exact h3
    · left; rw [h2]; exact h3
    · right
      refine ⟨h2, ?_, v, by cases m <;> exact h5⟩
      have hx := Conc.Exc.XRun.exc_mono hsub (t := t) (hinv a (by omega)).1 hnd (i := l + 1 - a)
        (by rw [show a + (l + 1 - a) = l + 1 by omega]; exact h4) (l := b - a) (by omega) le_rfl
      rw [Nat.add_sub_cancel' he.le] at hx
      rcases he.over with ⟨r, h⟩ | h
      · rw [h.2] at hx; cases hx
      · exact h

omit hf in
/-- In step 30 the callback throws. -/
example : exF.Lawful ∧ XReach exPred false {} exF 0 20 (ex0.trace exPred false {} ev4 0) ∧
    XRun exPred false {} (ex0.trace exPred false {} ev4) (xwho ev4) 33 ∧
    Executes (ex0.trace exPred false {} ev4) 1 exAll 28 33 ∧ 28 ≤ 30 ∧ 30 < 33 ∧ xwho ev4 30 = 1 :=
  ⟨exF_lawful, ex0_reach _ _, ev4_ok.1, ev4_ok.2.1, by decide⟩

/-! ### progress of the unwinding -/

/-- How many steps a thread being unwound has yet to make. -/
def togo : Pc K V → Nat
  | .rollReset _ _ _ => 5
  | .rollUnlock _ _ => 4
  | .rollSize _ => 3
  | .counter _ => 2
  | .unlock _ _ _ => 2
  | .leave _ => 1
  | _ => 0

omit hf in
theorem togo_le (p : Pc K V) : togo p ≤ 5 := by cases p <;> simp [togo]

omit hf in
theorem togo_step {x x' : XState K V} (hi : XInv x) (hw : NoWrap x.st) {t : Nat} (h : XStepBy may mv cfg t x x')
    (he : x.exc t = true) (hd : ∀ r, x.st.pc t ≠ .done r) : togo (x'.st.pc t) + 1 = togo (x.st.pc t) := by
  have hu := hi.exc t he
  have hi' := hi.step hw h
  have hb := pcOk_not_bad (hi'.inv.pcs t)
  cases h with
  | unwound h1 h2 => simp only [State.set_pc, upd_self, h2]; rfl
  | @throw m' p' h => rw [h.unwinding.2] at hu; cases hu
  | @alone m' p' ho h =>
    generalize hq : x.st.pc t = p at h hu
    cases h <;> cases hu
  | base h hc =>
    cases h with
    | @quiet p' h =>
      simp only [State.set_pc, upd_self] at hb ⊢
      have hcc := hc he
      generalize hq : x.st.pc t = p at h hu hd hcc
      cases h with
      | counter o => exact absurd rfl (hcc o)
      | callAgain r o => exact absurd rfl (hd r)
      | rollUnlock o pb => rfl
      | unlock g md r => rfl
      | leave r => rfl
      | _ => first | exact absurd rfl hb | cases hu
    | @eff m' p' h =>
      simp only [State.set_pc, upd_self] at hb ⊢
      generalize hq : x.st.pc t = p at h hu hd
      cases h with
      | rollReset o pb j => rfl
      | rollSize o h1 => rfl
      | _ => first | exact absurd rfl hb | cases hu
    | @alone m' p' ho h =>
      generalize hq : x.st.pc t = p at h hu
      cases h <;> cases hu

/-- A thread being unwound can always make its next step: it waits for no lock and for no other thread. -/
theorem C50_unwinding_never_blocks {x : XState K V} (h : XReach may mv cfg f al c x) {t : Nat} (he : x.exc t = true)
    (hl : ¬ Left x t) : ∃ x', XStepBy may mv cfg t x x' := by
  have hi := (h.inv hf).1
  have hu := hi.exc t he
  have hd : ∀ r, x.st.pc t ≠ .done r := fun r hq => hl ⟨⟨r, hq⟩, he⟩
  generalize hq : x.st.pc t = p at hu hd
  cases p with
  | rollReset o pb j => exact ⟨_, .base (.eff (by rw [hq]; exact .rollReset o pb j)) (fun _ o h => by rw [hq] at h; cases h)⟩
  | rollUnlock o pb => exact ⟨_, .base (.quiet (by rw [hq]; exact .rollUnlock o pb)) (fun _ o h => by rw [hq] at h; cases h)⟩
  | rollSize o =>
    by_cases h1 : 1 ≤ x.st.mem.tab.size
    · exact ⟨_, .base (.eff (by rw [hq]; exact .rollSize o h1)) (fun _ o h => by rw [hq] at h; cases h)⟩
    · exact ⟨_, .base (.eff (by rw [hq]; exact .rollSizeWrap o (by omega))) (fun _ o h => by rw [hq] at h; cases h)⟩
  | counter o => exact ⟨_, .unwound he hq⟩
  | unlock g md r => exact ⟨_, .base (.quiet (by rw [hq]; exact .unlock g md r)) (fun _ o h => by rw [hq] at h; cases h)⟩
  | leave r => exact ⟨_, .base (.quiet (by rw [hq]; exact .leave r)) (fun _ o h => by rw [hq] at h; cases h)⟩
  | done r => exact absurd rfl (hd r)
  | _ => cases hu

set_option maxRecDepth 100000 in
omit hf in
example : ∃ x : XState Nat Nat, XReach exMay false {} exF 0 20 x ∧ x.exc 0 = true ∧ ¬ Left x 0 := by
  have h : (ex1.run exMay false {} (ev1.take 45)).isSome = true := by decide +kernel
  have h0 : ((ex1.run exMay false {} (ev1.take 45)).getD ex1).excs.getD 0 false = true := by decide +kernel
  have h1 : ending ((ex1.run exMay false {} (ev1.take 45)).getD ex1).state 0 = none := by decide +kernel
  obtain ⟨S, hS⟩ := Option.isSome_iff_exists.1 h
  rw [hS, Option.getD_some] at h0 h1
  exact ⟨S.state, XSys.run_reach (exTwo_reach exMay false _ _) hS, h0, (running_of h1).2⟩

/-- Unwinding ends: after an exception is thrown in an operation, the thread makes at most five more steps before the operation
is over, whatever other threads do. -/
theorem C50_unwinding_ends {σ : Nat → XState K V} {who : Nat → Nat} {n : Nat} (h0 : XReach may mv cfg f al c (σ 0))
    (hr : XRun may mv cfg σ who n) {t : Nat} (he : (σ 0).exc t = true) (hl : ∀ i < n, ¬ Left (σ i) t) :
    ((List.range n).filter fun i => decide (who i = t)).length ≤ 5 := by
  have hi0 := (h0.inv hf).1
  have key : ∀ i ≤ n, (σ i).exc t = true ∧
      ((List.range i).filter fun i => decide (who i = t)).length + togo ((σ i).st.pc t) ≤ togo ((σ 0).st.pc t) := by
    intro i
    induction i with
    | zero => intro _; exact ⟨he, by simp⟩
    | succ i ih =>
      intro hi
      obtain ⟨h1, h2⟩ := ih (by omega)
      have hinv := (hr.inv hi0 i (by omega)).1
      have hd : ∀ r, (σ i).st.pc t ≠ .done r := fun r hq => hl i (by omega) ⟨⟨r, hq⟩, h1⟩
      have hrest := resting_false (unwinding_not_idle (hinv.exc t h1)) hd
      refine ⟨(hr.step i (by omega)).exc_mono h1 hrest, ?_⟩
      rw [List.range_succ, List.filter_append, List.length_append]
      by_cases hu : who i = t
      · have hs := hr.step i (by omega)
        rw [hu] at hs
        have := togo_step hinv (hr.nowrap i (by omega)) hs h1 hd
        simp only [hu, decide_true, List.filter_cons_of_pos, List.filter_nil, List.length_singleton]
        omega
      · rw [((hr.step i (by omega)).other (fun h => hu h.symm)).1]
        simpa [hu] using h2
  have := (key n le_rfl).2
  have := togo_le ((σ 0).st.pc t)
  omega

/-- The first example from the throw of the constructor (state 42) to the end of the unwinding (state 50). -/
def exThrown : XSys Nat Nat := (ex1.run exMay false {} (ev1.take 42)).getD ex1
set_option maxRecDepth 100000 in
omit hf in
example : exF.Lawful ∧ XReach exMay false {} exF 0 20 (exThrown.trace exMay false {} (ev1.drop 42) 0) ∧
    XRun exMay false {} (exThrown.trace exMay false {} (ev1.drop 42)) (xwho (ev1.drop 42)) 39 ∧
    (exThrown.trace exMay false {} (ev1.drop 42) 0).exc 0 = true ∧
    ∀ i < 8, ¬ Left (exThrown.trace exMay false {} (ev1.drop 42) i) 0 := by
  refine ⟨exF_lawful, ?_, run_of (by decide +kernel), by decide +kernel, fun i hi => (running_of ?_).2⟩
  · have h : (ex1.run exMay false {} (ev1.take 42)).isSome = true := by decide +kernel
    obtain ⟨S, hS⟩ := Option.isSome_iff_exists.1 h
    show XReach exMay false {} exF 0 20 exThrown.state
    rw [exThrown, hS, Option.getD_some]
    exact XSys.run_reach (exTwo_reach exMay false _ _) hS
  · have : ∀ i < 8, ending (exThrown.trace exMay false {} (ev1.drop 42) i) 0 = none := by decide +kernel
    exact this i hi

end

/-! ### the model without exceptions is part of this one -/

theorem C50_includes_nonthrowing {may : Call → Bool} {mv : Bool} {cfg : Cfg} {f : Fns K} {al c : Nat} {s : State K V}
    (h : Reach cfg f al c s) : XReach may mv cfg f al c ⟨s, fun _ => false⟩ := by
  induction h with
  | init => exact .init
  | step h hw hs ih =>
    obtain ⟨t, hs⟩ := hs
    have := XReach.step ih hw (XStepBy.base (may := may) (mv := mv) (x := ⟨_, fun _ => false⟩) hs (fun h => by cases h))
    simpa using this

example : Reach {} exF 0 20 Props.ConcTable.exEnd.state := Props.ConcTable.exEnd_reach

end Props.ConcExc

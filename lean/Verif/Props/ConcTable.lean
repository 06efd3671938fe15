/-
Properties of concurrent containers (C29-C31, C42-C44). `Reach cfg f al n s` ranges over every state that any number of
threads can reach, in any interleaving of their accesses to shared memory, from a new container with hash function and
equality `f`; `Run cfg σ who n` over every continuation `σ 0, ..., σ n` in which thread `who i` makes step `i`.
The specification of single operations is in `Verif.SpecT`.
-/
import Verif.Conc.TabLin
import Verif.Conc.TabCount
import Verif.Conc.TabSweep
import Verif.Conc.TabRun

namespace Props.ConcTable
open Conc.Tab Foa SpecT
open Conc.Locking (Mode)

variable {K V : Type}

/-! ### vocabulary -/

/-- The elements of the container. -/
def Elems (s : State K V) : Con K V := fun x => ∃ g j, s.mem.slot g j = some x

/-- Thread `t` has called an operation and not begun to execute it; it has returned from it with the answer `r`. -/
def Called (s : State K V) (t : Nat) (o : Op K V) : Prop := s.pc t = .start o
def Returned (s : State K V) (t r : Nat) : Prop := s.pc t = .done r

/-- What operations with a key have to do (`SpecT`). -/
def Does (eq : K → K → Bool) : KOp K V → Con K V → Con K V → Nat → Prop
  | .visit .shared k f => Visit eq false k f
  | .visit .excl k f => Visit eq true k f
  | .insert .shared x f2 f1 => Insert eq false x f2 f1
  | .insert .excl x f2 f1 => Insert eq true x f2 f1
  | .erase k p => Erase eq k p

theorem does_eq (eq : K → K → Bool) (o : KOp K V) : Does eq o = o.Spec eq := by
  cases o with
  | visit m k f => cases m <;> rfl
  | insert m x f2 f1 => cases m <;> rfl
  | erase k p => rfl

/-- Thread `t` is about to access the element in slot `j` of group `g`: to compare it, pass it to a callback, move it out,
destroy or construct it; `w` if the access is not only a read. -/
def Touches (s : State K V) (t g j : Nat) (w : Bool) : Prop :=
  match s.pc t with
  | .check _ _ pb (i :: _) => pb.pos = g ∧ i = j ∧ w = false
  | .hit (.visit m _ _) pb i | .hit (.insert m _ _ _) pb i => pb.pos = g ∧ i = j ∧ (w = true ↔ m = .excl)
  | .hit (.erase _ _) pb i => pb.pos = g ∧ i = j ∧ w = true
  | .insInc _ _ pb i => pb.pos = g ∧ i = j ∧ w = true
  | .swAt m _ g' (i :: _) _ => g' = g ∧ i = j ∧ (w = true ↔ m = .excl)
  | _ => False

/-- Thread `t` is inside an operation that needs the container in shared mode. -/
def Busy (s : State K V) (t : Nat) : Prop := (s.pc t).inside = true

/-- Thread `t` calls `o` (state `a`) and returns from it with the answer `r` (state `b`). -/
structure Executes (σ : Nat → State K V) (t : Nat) (o : Op K V) (a b r : Nat) : Prop where
  le : a ≤ b
  called : Called (σ a) t o
  returned : Returned (σ b) t r
  running : ∀ i, a ≤ i → i < b → ∀ r', ¬ Returned (σ i) t r'

/-- The answer of `size()`: `min(size_ctrl.size,size_ctrl.ml)` (concurrent_table.hpp:1424-1429). -/
def sizeAnswer (s : State K V) : Nat := min s.mem.tab.size s.mem.tab.ml

/-! ### examples: concrete runs -/

def exF : Fns Nat := ⟨fun k => k % 2 ^ 64, fun a b => a == b⟩
theorem exF_lawful : exF.Lawful := by
  constructor <;> intros <;> simp_all [exF]
  exact Nat.mod_lt _ (by decide)

def exInsert (k v : Nat) : KOp Nat Nat := .insert .shared (k, v) (·.2) (·.2)
def go (t n : Nat) : List (Ev Nat Nat) := List.replicate n (.go t)

def ex0 : Sys Nat Nat := Sys.init {} exF 0 20 2
/-- Two threads have called insert with the same key. -/
def ex1 : Sys Nat Nat := ⟨ex0.mem, [.start (.key (exInsert 1 10)), .start (.key (exInsert 1 20))]⟩
theorem ex1_reach : Reach {} exF 0 20 ex1.state := by
  refine Sys.run_reach (S := ex0) (es := [.op 0 (.key (exInsert 1 10)), .op 1 (.key (exInsert 1 20))]) ?_ rfl
  rw [ex0, Sys.init_state]
  exact .init

/-- The first searches and finds nothing; the second inserts; the first starts over and finds the element. -/
def exRace : List (Ev Nat Nat) := go 0 18 ++ go 1 26 ++ go 0 31
def exRun (i : Nat) : State Nat Nat := ex1.trace {} exRace i

/-- The threads `0` and `1` answer as given after the events. -/
theorem answers {S : Sys K V} {es : List (Ev K V)} {i t : Nat} {r : Option Nat}
    (h : ((S.trace {} es i).pc t).answer = r) : (∀ q, r = some q → Returned (S.trace {} es i) t q) ∧
      (r = none → ∀ q, ¬ Returned (S.trace {} es i) t q) := by
  subst h
  refine ⟨fun q hq => Pc.answer_eq hq, fun hn q hq => ?_⟩
  rw [show (S.trace {} es i).pc t = _ from hq] at hn
  cases hn

theorem ran {S : Sys K V} {es : List (Ev K V)} (h : (S.run {} es).isSome = true) :
    Run {} (S.trace {} es) (who es) es.length := by
  obtain ⟨S', hS⟩ := Option.isSome_iff_exists.1 h
  exact Sys.trace_run hS

set_option maxRecDepth 100000 in
theorem exRace_run : Run {} exRun (who exRace) 75 := ran (by decide +kernel)

theorem executes {S : Sys K V} {es : List (Ev K V)} {t b r : Nat} {o : Op K V} (h0 : Called S.state t o)
    (h1 : ((S.trace {} es b).pc t).answer = some r) (h2 : ∀ i < b, ((S.trace {} es i).pc t).answer = none) :
    Executes (S.trace {} es) t o 0 b r :=
  ⟨Nat.zero_le _, h0, (answers h1).1 r rfl, fun i _ hi => (answers (h2 i hi)).2 rfl⟩

set_option maxRecDepth 100000 in
theorem exRace_first : Executes exRun 0 (.key (exInsert 1 10)) 0 75 0 :=
  executes rfl (by decide +kernel) (by decide +kernel)
set_option maxRecDepth 100000 in
theorem exRace_second : Executes exRun 1 (.key (exInsert 1 20)) 0 44 1 :=
  executes rfl (by decide +kernel) (by decide +kernel)

/-! ### C42: linearizability -/

theorem Run.sub {cfg : Cfg} {σ : Nat → State K V} {who : Nat → Nat} {n : Nat} (h : Run cfg σ who n) {a b : Nat}
    (hab : a ≤ b) (hb : b ≤ n) : Run cfg (fun i => σ (a + i)) (fun i => who (a + i)) (b - a) :=
  ⟨fun i hi => h.step (a + i) (by omega), fun i hi => h.nowrap (a + i) (by omega)⟩

/-- The statement of `C42_linearizable` for a run from any state that satisfies the invariant; insertions always take effect at
one of their own steps. -/
theorem linearizable_absent {cfg : Cfg} {f : Fns K} {σ : Nat → State K V} {who : Nat → Nat} {n : Nat}
    (hi0 : SInv (σ 0)) (hfn0 : (σ 0).mem.tab.fns = f) (hr : Run cfg σ who n) {t : Nat} {o : KOp K V} {a b r : Nat}
    (he : Executes σ t (.key o) a b r) (hb : b ≤ n) :
    (∃ l, a ≤ l ∧ l < b ∧ who l = t ∧ Does f.eq o (Elems (σ l)) (Elems (σ (l + 1))) r ∧
      ∀ l', a ≤ l' → l' < b → who l' = t → l' ≠ l → Same (Elems (σ l')) (Elems (σ (l' + 1)))) ∨
    ((∀ m x f2 f1, o ≠ .insert m x f2 f1) ∧ ∃ l, a ≤ l ∧ l ≤ b ∧ (r = 0 ∧ ¬ Present f.eq (Elems (σ l)) o.key) ∧
      ∀ l', a ≤ l' → l' < b → who l' = t → Same (Elems (σ l')) (Elems (σ (l' + 1)))) := by
  have hle := he.le
  have hia := hr.inv hi0 a (by omega)
  have hfa : (σ a).mem.tab.fns = f := (hr.fns hi0 a (by omega)).trans hfn0
  have hsub := Run.sub hr he.le hb
  have hfb : (σ b).mem.tab.fns = f := (hr.fns hi0 b hb).trans hfn0
  have key := lin_points hsub (t := t) (o := o) hia he.called
    (fun i hi r' hq => he.running (a + i) (by omega) (by omega) r' hq) (b - a) le_rfl
  simp only [Nat.add_sub_cancel' he.le, Nat.add_zero] at key
  rw [he.returned, hfa] at key
  rcases key with ⟨h1, _⟩ | ⟨r', h1, h2⟩
  · cases h1
  · cases h1
    rw [does_eq]
    rcases h2 with ⟨l, hl, hw, hs, hsame⟩ | ⟨h3, h4, ⟨l, hl, hno⟩, hsame⟩
    · left
      refine ⟨a + l, by omega, by omega, hw, hs, fun l' h1 h2 h3 h4 => ?_⟩
      have := hsame (l' - a) (by omega) (by rw [Nat.add_sub_cancel' h1]; exact h3) (by omega)
      rw [Nat.add_sub_cancel' h1, show a + (l' - a + 1) = l' + 1 by omega] at this
      exact this
    · right
      refine ⟨?_, a + l, by omega, by omega, ?_, fun l' h1 h2 h3 => ?_⟩
      · rintro m x f2 f1 rfl; cases h3
      · have hno' := noKey_iff.1 hno
        rw [(hr.fns hi0 (a + l) (by omega)).trans hfn0] at hno'
        exact ⟨h4, hno'⟩
      · have := hsame (l' - a) (by omega) (by rw [Nat.add_sub_cancel' h1]; exact h3)
        rw [Nat.add_sub_cancel' h1, show a + (l' - a + 1) = l' + 1 by omega] at this
        exact this

theorem linearizable_of_inv {cfg : Cfg} {f : Fns K} {σ : Nat → State K V} {who : Nat → Nat} {n : Nat}
    (hi0 : SInv (σ 0)) (hfn0 : (σ 0).mem.tab.fns = f) (hr : Run cfg σ who n) {t : Nat} {o : KOp K V} {a b r : Nat}
    (he : Executes σ t (.key o) a b r) (hb : b ≤ n) :
    (∃ l, a ≤ l ∧ l < b ∧ who l = t ∧ Does f.eq o (Elems (σ l)) (Elems (σ (l + 1))) r ∧
      ∀ l', a ≤ l' → l' < b → who l' = t → l' ≠ l → Same (Elems (σ l')) (Elems (σ (l' + 1)))) ∨
    ((∀ m x f2 f1, o ≠ .insert m x f2 f1) ∧ ∃ l, a ≤ l ∧ l ≤ b ∧ Does f.eq o (Elems (σ l)) (Elems (σ l)) r ∧
      ∀ l', a ≤ l' → l' < b → who l' = t → Same (Elems (σ l')) (Elems (σ (l' + 1)))) := by
  rcases linearizable_absent hi0 hfn0 hr he hb with h | ⟨h1, l, h2, h3, ⟨rfl, h4⟩, h5⟩
  · exact .inl h
  · refine .inr ⟨h1, l, h2, h3, ?_, h5⟩
    cases o with
    | visit m k g => cases m <;> exact .inr ⟨h4, Same.rfl' _, rfl⟩
    | insert m x f2 f1 => exact absurd rfl (h1 _ _ _ _)
    | erase k p => exact .inr ⟨h4, Same.rfl' _, rfl⟩

/-- Every operation with a key (visit, insert, erase and their variants) takes effect at one instant between its call and its
return: either one of its own steps does to the contents exactly what the specification says, or its answer is right for the
contents it did not change at some instant; and none of its other steps changes the contents. -/
theorem C42_linearizable {cfg : Cfg} {f : Fns K} (hf : f.Lawful) {al c : Nat} {σ : Nat → State K V} {who : Nat → Nat} {n : Nat}
    (h0 : Reach cfg f al c (σ 0)) (hr : Run cfg σ who n) {t : Nat} {o : KOp K V} {a b r : Nat}
    (he : Executes σ t (.key o) a b r) (hb : b ≤ n) :
    (∃ l, a ≤ l ∧ l < b ∧ who l = t ∧ Does f.eq o (Elems (σ l)) (Elems (σ (l + 1))) r ∧
      ∀ l', a ≤ l' → l' < b → who l' = t → l' ≠ l → Same (Elems (σ l')) (Elems (σ (l' + 1)))) ∨
    (∃ l, a ≤ l ∧ l ≤ b ∧ Does f.eq o (Elems (σ l)) (Elems (σ l)) r ∧
      ∀ l', a ≤ l' → l' < b → who l' = t → Same (Elems (σ l')) (Elems (σ (l' + 1)))) :=
  (linearizable_of_inv (h0.inv hf) (h0.fns hf) hr he hb).imp_right And.right

example : exF.Lawful ∧ Reach {} exF 0 20 (exRun 0) ∧ Run {} exRun (who exRace) 75 ∧
    Executes exRun 0 (.key (exInsert 1 10)) 0 75 0 ∧ Executes exRun 1 (.key (exInsert 1 20)) 0 44 1 :=
  ⟨exF_lawful, ex1_reach, exRace_run, exRace_first, exRace_second⟩

/-- What operations under the exclusive lock have to do. -/
def DoesEx (eq : K → K → Bool) : ExOp K V → Con K V → Con K V → Nat → Prop
  | .rehash _ | .reserve _ => Keep
  | .clear => fun _ => Clear
  | .emplace x => Insert eq false x (·.2) (·.2)
  | .eraseKey k => Erase eq k fun _ => none

/-- A step of a thread that has called an operation on the whole container, while no other thread is inside, does what the
specification says and completes it. -/
theorem C42_container_operations {cfg : Cfg} {f : Fns K} (hf : f.Lawful) {al c : Nat} {s s' : State K V}
    (h : Reach cfg f al c s) {t : Nat} {e : ExOp K V} (hc : Called s t (.ex e)) (hs : StepBy cfg t s s') :
    (∀ u, ¬ Busy s u) ∧ ∃ r, Returned s' t r ∧ DoesEx f.eq e (Elems s) (Elems s') r := by
  have hi := h.inv hf
  have hfn := h.fns hf
  unfold Called at hc
  cases hs with
  | quiet h => rw [hc] at h; cases h
  | eff h => rw [hc] at h; cases h
  | @alone m' pc' hout h =>
    refine ⟨(fun u hu => by rw [Busy, hout u] at hu; cases hu), ?_⟩
    have hinv := hi.quiescent hout
    rw [hc] at h
    cases h with
    | ex e t' r cnt' h1 h2 =>
      refine ⟨r, by simp [Returned, State.set], ?_⟩
      have := ExOp.correct cfg hinv e h1 s.mem.cnt cnt'
      rw [hfn] at this
      cases e <;> exact this
    | exBad e h1 =>
      obtain ⟨t', r, h2, _⟩ := ExOp.run_spec cfg hinv e
      rw [h1] at h2; cases h2

/-- The container after the race. -/
def exEnd : Sys Nat Nat := (ex1.run {} exRace).getD ex1
set_option maxRecDepth 100000 in
theorem exEnd_reach : Reach {} exF 0 20 exEnd.state := by
  have h : (ex1.run {} exRace).isSome = true := by decide +kernel
  obtain ⟨S, hS⟩ := Option.isSome_iff_exists.1 h
  rw [exEnd, hS]
  exact Sys.run_reach ex1_reach hS

set_option maxRecDepth 100000 in
theorem exEnd_call (o : Op Nat Nat) : Reach {} exF 0 20 (exEnd.call 0 o).state ∧ Called (exEnd.call 0 o).state 0 o := by
  have h := Sys.call_step (cfg := {}) (S := exEnd) (t := 0) (r := 0) (o := o) (by decide +kernel) (by decide +kernel)
  exact ⟨.step exEnd_reach (Sys.nowrap_sound (by decide +kernel)) ⟨0, h.1⟩, h.2⟩

set_option maxRecDepth 100000 in
/-- A thread that has called `clear()` on it. -/
example : ∃ s s' : State Nat Nat, Reach {} exF 0 20 s ∧ Called s 0 (.ex .clear) ∧ StepBy {} 0 s s' := by
  have h2 : ((exEnd.call 0 (.ex .clear)).step {} (.go 0)).isSome = true := by decide +kernel
  obtain ⟨S2, hS2⟩ := Option.isSome_iff_exists.1 h2
  exact ⟨_, _, (exEnd_call _).1, (exEnd_call _).2, (Sys.step_sound hS2).2⟩

/-! ### C29: no duplicates

Full statement: in every state any interleaving can reach there are no two equivalent elements. Proved here for `Reach`, that is,
as long as no insertion is overtaken by 2^32 others through the same group between recording the insertion counter and comparing
it (`NoWrap`): the counter has 32 bits. -/

/-- Whatever the interleaving, no thread ever comes to undefined behaviour (reading a slot without element, constructing in an
occupied slot, writing to the shared dummy arrays, wrapping the size or `ml`). -/
theorem C29_no_undefined_behaviour {cfg : Cfg} {f : Fns K} (hf : f.Lawful) {al c : Nat} {s : State K V}
    (h : Reach cfg f al c s) (t : Nat) : s.pc t ≠ .bad := pcOk_not_bad ((h.inv hf).pcs t)

/-- Whatever the interleaving, equivalent elements are one element in one slot. -/
theorem C29_no_duplicates_partial {cfg : Cfg} {f : Fns K} (hf : f.Lawful) {al c : Nat} {s : State K V} (h : Reach cfg f al c s)
    {g j g' j' : Nat} {x y : K × V} (hx : s.mem.slot g j = some x) (hy : s.mem.slot g' j' = some y)
    (he : f.eq x.1 y.1 = true) : g = g' ∧ j = j' := by
  have hi := h.inv hf
  exact (hi.shape.live hx).2.uniq _ _ _ _ _ _ hx hy (by rw [h.fns hf]; exact he)

/-- Of the insertions of one key at most one succeeds while the element stays: two insertions of equivalent keys, by different
threads or one after the other, do not both answer true unless the element was taken out in between. -/
theorem C29_one_insertion_succeeds_partial {cfg : Cfg} {f : Fns K} (hf : f.Lawful) {al c : Nat} {σ : Nat → State K V} {who : Nat → Nat}
    {n : Nat} (h0 : Reach cfg f al c (σ 0)) (hr : Run cfg σ who n) {t u : Nat} {m m' : Mode} {x y : K × V}
    {f2 f1 f2' f1' : K × V → V} {a b a' b' : Nat} (he : Executes σ t (.key (.insert m x f2 f1)) a b 1)
    (he' : Executes σ u (.key (.insert m' y f2' f1')) a' b' 1) (hb : b ≤ n) (hb' : b' ≤ n) (hk : f.eq x.1 y.1 = true)
    (hd : t ≠ u ∨ b ≤ a')
    (hstay : ∀ i i', min a a' ≤ i → i ≤ i' → i' ≤ max b b' → Present f.eq (Elems (σ i)) x.1 → Present f.eq (Elems (σ i')) x.1) :
    False := by
  have key : ∀ {m : Mode} {x : K × V} {f2 f1 : K × V → V} {t a b : Nat}, Executes σ t (.key (.insert m x f2 f1)) a b 1 → b ≤ n →
      ∃ l, a ≤ l ∧ l < b ∧ who l = t ∧ ¬ Present f.eq (Elems (σ l)) x.1 ∧ Present f.eq (Elems (σ (l + 1))) x.1 := by
    intro m x f2 f1 t a b he hb
    have hins : ∀ {A A' : Con K V}, Does f.eq (.insert m x f2 f1) A A' 1 → ¬ Present f.eq A x.1 ∧ Present f.eq A' x.1 := by
      intro A A' hd
      have : ∃ w, Insert f.eq w x f2 f1 A A' 1 := by cases m <;> exact ⟨_, hd⟩
      obtain ⟨w, ⟨y, _, _, _, h⟩ | ⟨h1, h2, _⟩⟩ := this
      · cases h
      · exact ⟨h1, _, (h2 _).2 (.inr rfl), hf.refl _⟩
    rcases C42_linearizable hf h0 hr he hb with ⟨l, h1, h2, h3, h4, _⟩ | ⟨l, h1, h2, h4, _⟩
    · exact ⟨l, h1, h2, h3, hins h4⟩
    · exact absurd (hins h4).2 (hins h4).1
  have hpe : ∀ A : Con K V, Present f.eq A x.1 ↔ Present f.eq A y.1 := by
    intro A
    constructor
    · rintro ⟨z, hz, hzz⟩; exact ⟨z, hz, hf.trans _ _ _ (hf.symm _ _ hk) hzz⟩
    · rintro ⟨z, hz, hzz⟩; exact ⟨z, hz, hf.trans _ _ _ hk hzz⟩
  obtain ⟨l, h1, h2, h3, h4, h5⟩ := key he hb
  obtain ⟨l', h1', h2', h3', h4', h5'⟩ := key he' hb'
  rw [← hpe] at h4' h5'
  rcases Nat.lt_trichotomy l l' with hl | hl | hl
  · exact h4' (hstay (l + 1) l' (by omega) (by omega) (by omega) h5)
  · rcases hd with hd | hd
    · exact hd (by rw [← h3, ← h3', hl])
    · omega
  · exact h4 (hstay (l' + 1) l (by omega) (by omega) (by omega) h5')

/-- The hypotheses but one are met by the race of the example, and there one of the answers is false. -/
example : exF.Lawful ∧ Reach {} exF 0 20 (exRun 0) ∧ Run {} exRun (who exRace) 75 ∧ (0 : Nat) ≠ 1 ∧ exF.eq 1 1 = true ∧
    Executes exRun 0 (.key (exInsert 1 10)) 0 75 0 ∧ Executes exRun 1 (.key (exInsert 1 20)) 0 44 1 :=
  ⟨exF_lawful, ex1_reach, exRace_run, by decide, rfl, exRace_first, exRace_second⟩

/-! ### C30: lookup -/

/-- A visit (or lookup) of a key that is present from its call to its return finds it; of one that is absent all the time, does
not. -/
theorem C30_lookup {cfg : Cfg} {f : Fns K} (hf : f.Lawful) {al c : Nat} {σ : Nat → State K V} {who : Nat → Nat} {n : Nat}
    (h0 : Reach cfg f al c (σ 0)) (hr : Run cfg σ who n) {t : Nat} {m : Mode} {k : K} {g : K × V → V} {a b r : Nat}
    (he : Executes σ t (.key (.visit m k g)) a b r) (hb : b ≤ n) :
    ((∀ i, a ≤ i → i ≤ b → Present f.eq (Elems (σ i)) k) → r = 1) ∧
    ((∀ i, a ≤ i → i ≤ b → ¬ Present f.eq (Elems (σ i)) k) → r = 0) := by
  have hv : ∀ {A A' : Con K V}, Does f.eq (.visit m k g) A A' r → (Present f.eq A k ∧ r = 1) ∨ (¬ Present f.eq A k ∧ r = 0) := by
    intro A A' hd
    have : ∃ w, Visit f.eq w k g A A' r := by cases m <;> exact ⟨_, hd⟩
    obtain ⟨w, ⟨y, h1, h2, _, h⟩ | ⟨h1, h2, h3⟩⟩ := this
    · exact .inl ⟨⟨y, h1, h2⟩, h⟩
    · exact .inr ⟨h1, h3⟩
  have : ∃ l, a ≤ l ∧ l ≤ b ∧ ((Present f.eq (Elems (σ l)) k ∧ r = 1) ∨ (¬ Present f.eq (Elems (σ l)) k ∧ r = 0)) := by
    rcases C42_linearizable hf h0 hr he hb with ⟨l, h1, h2, h3, h4, _⟩ | ⟨l, h1, h2, h4, _⟩
    · exact ⟨l, h1, h2.le, hv h4⟩
    · exact ⟨l, h1, h2, hv h4⟩
  obtain ⟨l, h1, h2, h | h⟩ := this
  · exact ⟨fun _ => h.2, fun hno => absurd h.1 (hno l h1 h2)⟩
  · exact ⟨fun hp => absurd (hp l h1 h2) h.1, fun _ => h.2⟩

/-- Two elements; thread 0 has called `o`, thread 1 erasure of key 2. -/
def ex2 : Sys Nat Nat :=
  (ex0.run {} (.op 0 (.key (exInsert 1 10)) :: go 0 26 ++ .op 1 (.key (exInsert 2 20)) :: go 1 26)).getD ex0
def ex3 (o : Op Nat Nat) : Sys Nat Nat := (ex2.call 0 o).call 1 (.key (.erase 2 fun _ => none))

set_option maxRecDepth 100000 in
theorem ex3_reach (o : Op Nat Nat) : Reach {} exF 0 20 (ex3 o).state ∧ Called (ex3 o).state 0 o := by
  have h2 : Reach {} exF 0 20 ex2.state := by
    have h : (ex0.run {} (.op 0 (.key (exInsert 1 10)) :: go 0 26 ++ .op 1 (.key (exInsert 2 20)) :: go 1 26)).isSome = true := by
      decide +kernel
    obtain ⟨S, hS⟩ := Option.isSome_iff_exists.1 h
    rw [ex2, hS]
    refine Sys.run_reach (S := ex0) ?_ hS
    rw [ex0, Sys.init_state]
    exact .init
  have h3 := Sys.call_step (cfg := {}) (S := ex2) (t := 0) (r := 1) (o := o) (by decide +kernel) (by decide +kernel)
  have h4 : Reach {} exF 0 20 (ex2.call 0 o).state := .step h2 (Sys.nowrap_sound (by decide +kernel)) ⟨0, h3.1⟩
  have hl : (ex2.call 0 o).pcs.length = 2 := by
    simp only [Sys.call, List.length_set]
    decide +kernel
  have h1 : ((ex2.call 0 o).pc 1).answer = some 1 := by
    have : (ex2.call 0 o).pc 1 = ex2.pc 1 := by
      simp [Sys.call, Sys.pc, List.getD_eq_getElem?_getD]
    rw [this]
    decide +kernel
  have hw : NoWrap (ex2.call 0 o).state := by
    have hw2 : NoWrap ex2.state := Sys.nowrap_sound (by decide +kernel)
    intro t o' c pb j hq
    by_cases ht : t = 0
    · subst ht
      rw [h3.2] at hq; cases hq
    · have : (ex2.call 0 o).state.pc t = ex2.state.pc t := by
        have hlen : 0 < ex2.pcs.length := by decide +kernel
        rw [Sys.call, Sys.set_state hlen]
        simp [State.set, ht]
      rw [this] at hq
      exact hw2 t o' c pb j hq
  have h5 := Sys.call_step (cfg := {}) (S := ex2.call 0 o) (t := 1) (r := 1) (o := .key (.erase 2 fun _ => none))
    (by rw [hl]; decide) h1
  refine ⟨.step h4 hw ⟨1, h5.1⟩, ?_⟩
  rw [Called, ex3, Sys.call, Sys.set_state (by rw [hl]; decide)]
  exact h3.2

def exLook : KOp Nat Nat := .visit .shared 1 (·.2)
/-- Thread 0 looks key 1 up while thread 1 erases key 2. -/
def exLookRun : List (Ev Nat Nat) := go 0 10 ++ go 1 24 ++ go 0 12

theorem present_of {S : Sys Nat Nat} {es : List (Ev Nat Nat)} {i g j k v : Nat}
    (h : (S.trace {} es i).mem.slot g j = some (k, v)) : Present exF.eq (Elems (S.trace {} es i)) k :=
  ⟨(k, v), ⟨g, j, h⟩, by simp [exF]⟩

set_option maxRecDepth 100000 in
example : exF.Lawful ∧ Reach {} exF 0 20 ((ex3 (.key exLook)).trace {} exLookRun 0) ∧
    Run {} ((ex3 (.key exLook)).trace {} exLookRun) (who exLookRun) 46 ∧
    Executes ((ex3 (.key exLook)).trace {} exLookRun) 0 (.key exLook) 0 46 1 ∧
    ∀ i, 0 ≤ i → i ≤ 46 → Present exF.eq (Elems ((ex3 (.key exLook)).trace {} exLookRun i)) 1 := by
  refine ⟨exF_lawful, (ex3_reach _).1, ran (by decide +kernel), executes (ex3_reach _).2 (by decide +kernel) (by decide +kernel),
    fun i _ hi => present_of (g := 0) (j := 0) (v := 10) ?_⟩
  have : ∀ i < 47, ((ex3 (.key exLook)).trace {} exLookRun i).mem.slot 0 0 = some (1, 10) := by decide +kernel
  exact this i (by omega)

/-! ### C31: size control -/

theorem overcommit {s : State K V} (hi : SInv s)
    {P : List (Nat × Nat)} (hP : P.Nodup) (hp : ∀ p ∈ P, ∃ x, s.mem.slot p.1 p.2 = some x) {T : List Nat} (hT : T.Nodup)
    (ht : ∀ t ∈ T, ∃ o c pb, s.pc t = .insLock o c pb ∨ s.pc t = .insFind o c pb ∨ ∃ j, s.pc t = .insInc o c pb j) :
    P.length + T.length ≤ s.mem.tab.ml ∧ P.length ≤ sizeAnswer s ∧ sizeAnswer s ≤ s.mem.tab.ml ∧
    s.mem.tab.ml ≤ s.mem.tab.capacity := by
  have h1 := hi.count_le hP hT hp (by
    intro t htT
    obtain ⟨o, c, pb, h | h | ⟨j, h⟩⟩ := ht t htT <;> rw [h] <;> rfl)
  obtain ⟨L, hL⟩ := hi.acct
  have h2 : P.length ≤ L.length := by
    have : (P.map fun p => Item.elem p.1 p.2).length ≤ L.length := by
      refine (List.subperm_of_subset ?_ ?_).length_le
      · refine (List.nodup_map_iff_inj_on hP).2 ?_
        rintro ⟨a, b⟩ _ ⟨c, d⟩ _ h
        cases h; rfl
      · intro x hx
        obtain ⟨p, hp', rfl⟩ := List.mem_map.1 hx
        exact (hL.elem _ _).2 (hp p hp')
    simpa using this
  have h3 := hL.capLe
  refine ⟨h1, ?_, min_le_right _ _, by omega⟩
  rw [sizeAnswer, hL.size]
  omega

/-- However many threads insert, the elements and the granted reservations together never exceed `ml`; the answer of `size()`
is at least the number of elements and at most `ml`, which is at most the capacity. -/
theorem C31_no_overcommitment {cfg : Cfg} {f : Fns K} (hf : f.Lawful) {al c : Nat} {s : State K V} (h : Reach cfg f al c s)
    {P : List (Nat × Nat)} (hP : P.Nodup) (hp : ∀ p ∈ P, ∃ x, s.mem.slot p.1 p.2 = some x) {T : List Nat} (hT : T.Nodup)
    (ht : ∀ t ∈ T, ∃ o c pb, s.pc t = .insLock o c pb ∨ s.pc t = .insFind o c pb ∨ ∃ j, s.pc t = .insInc o c pb j) :
    P.length + T.length ≤ s.mem.tab.ml ∧ P.length ≤ sizeAnswer s ∧ sizeAnswer s ≤ s.mem.tab.ml ∧
    s.mem.tab.ml ≤ s.mem.tab.capacity :=
  overcommit (h.inv hf) hP hp hT ht

set_option maxRecDepth 100000 in
/-- After the race there is one element; `ml` is 28. -/
example : Reach {} exF 0 20 exEnd.state ∧ (∃ x, exEnd.state.mem.slot 0 0 = some x) ∧ sizeAnswer exEnd.state = 1 :=
  ⟨exEnd_reach, ⟨(1, 20), by decide +kernel⟩, by decide +kernel⟩

/-- Every thread whose reservation has been granted and which is looking for a slot: there is a free one. -/
theorem C31_granted_slot_exists {cfg : Cfg} {f : Fns K} (hf : f.Lawful) {al c : Nat} {s : State K V} (h : Reach cfg f al c s)
    {t : Nat} {o : KOp K V} {cn : Nat} {pb : Prober} (ht : s.pc t = .insLock o cn pb ∨ s.pc t = .insFind o cn pb) :
    ∃ g j, g < 2 ^ s.mem.tab.arr.k ∧ j < N ∧ ¬ (g = s.mem.tab.arr.mask ∧ j = N - 1) ∧ (s.mem.grp g).md j = 0 ∧
      s.mem.slot g j = none := by
  have hi := h.inv hf
  have he : s.mem.tab.arr.hasElems = true := by
    have := hi.pcs t
    rcases ht with ht | ht <;> rw [ht] at this <;> exact this.2.1
  obtain ⟨g, j, hv, hm⟩ := hi.free (t := t) (by rcases ht with ht | ht <;> rw [ht] <;> rfl)
    (by rcases ht with ht | ht <;> rw [ht] <;> rfl) he
  refine ⟨g, j, hv.1, hv.2.1, hv.2.2, hm, ?_⟩
  rcases (hi.shape.of_elems he).cell g j hv with ⟨_, h2⟩ | ⟨y, _, h2⟩ | ⟨_, h2, _⟩
  · exact h2
  · change (s.mem.tab.arr.grp g).md j = 0 at hm
    have := rhash_ge_two (s.mem.tab.fns.hash y.1)
    omega
  · change (s.mem.tab.arr.grp g).md j = 0 at hm
    omega

/-- A thread is in the place where it looks for a slot. -/
def isIns : Pc K V → Bool
  | .insLock _ _ _ | .insFind _ _ _ => true
  | _ => false

set_option maxRecDepth 100000 in
example : ∃ s : State Nat Nat, ∃ o cn pb, Reach {} exF 0 20 s ∧ (s.pc 0 = .insLock o cn pb ∨ s.pc 0 = .insFind o cn pb) := by
  have h : ((ex1.run {} (go 0 22)).getD ex1).pc 0 |> isIns := by decide +kernel
  have h' : (ex1.run {} (go 0 22)).isSome = true := by decide +kernel
  obtain ⟨S, hS⟩ := Option.isSome_iff_exists.1 h'
  rw [hS, Option.getD_some] at h
  refine ⟨S.state, ?_⟩
  change isIns (S.state.pc 0) = true at h
  generalize hq : S.state.pc 0 = p at h
  cases p <;> first | (cases h; done) | exact ⟨_, _, _, Sys.run_reach ex1_reach hS, .inl rfl⟩ | exact ⟨_, _, _, Sys.run_reach ex1_reach hS, .inr rfl⟩

theorem size_quiet {s : State K V} (hi : SInv s)
    (hq : ∀ t, ¬ Busy s t) : ∃ L : List (K × V), L.Nodup ∧ (∀ x, x ∈ L ↔ Elems s x) ∧ sizeAnswer s = L.length ∧
      s.mem.tab.size = L.length ∧ L.length ≤ s.mem.tab.ml := by
  have hi := hi.quiescent (fun u => by simpa [Busy] using hq u)
  refine ⟨s.mem.tab.contents, ?_, fun x => hi.mem, ?_, hi.size, hi.size ▸ hi.size_le⟩
  · refine (contents_pairwise hi).imp ?_
    rintro a b hab rfl
    have := hi.law.refl a.1
    rw [hab] at this
    cases this
  · rw [sizeAnswer, Nat.min_eq_left hi.size_le, hi.size]

/-- When no operation is in flight, `size()` is the number of elements, and it is within the load limit. -/
theorem C31_size_when_quiet {cfg : Cfg} {f : Fns K} (hf : f.Lawful) {al c : Nat} {s : State K V} (h : Reach cfg f al c s)
    (hq : ∀ t, ¬ Busy s t) : ∃ L : List (K × V), L.Nodup ∧ (∀ x, x ∈ L ↔ Elems s x) ∧ sizeAnswer s = L.length ∧
      s.mem.tab.size = L.length ∧ L.length ≤ s.mem.tab.ml :=
  size_quiet (h.inv hf) hq

set_option maxRecDepth 100000 in
example : Reach {} exF 0 20 exEnd.state ∧ ∀ t, ¬ Busy exEnd.state t := by
  refine ⟨exEnd_reach, fun t ht => ?_⟩
  have h : ∀ t < 2, (exEnd.pc t).inside = false := by decide +kernel
  have hl : exEnd.pcs.length = 2 := by decide +kernel
  unfold Busy at ht
  change (exEnd.pc t).inside = true at ht
  by_cases h2 : t < 2
  · rw [h t h2] at ht; cases ht
  · rw [Sys.pc, List.getD_eq_getElem?_getD, List.getElem?_eq_none (by omega)] at ht
    cases ht

/-! ### C43: access to elements is exclusive or shared -/

theorem no_conflict {s : State K V} (hi : SInv s)
    {t u g j : Nat} {w w' : Bool} (htu : t ≠ u) (ht : Touches s t g j w) (hu : Touches s u g j w') : w = false ∧ w' = false := by
  have key : ∀ {t : Nat} {w : Bool}, Touches s t g j w → ∃ m, (s.pc t).locks = some (g, m) ∧ (w = true → m = .excl) := by
    intro t w ht
    unfold Touches at ht
    split at ht
    · rename_i hq; rw [hq]; obtain ⟨rfl, _, h⟩ := ht; exact ⟨_, rfl, fun h' => by rw [h] at h'; cases h'⟩
    · rename_i hq; rw [hq]; obtain ⟨rfl, _, h⟩ := ht; exact ⟨_, rfl, h.1⟩
    · rename_i hq; rw [hq]; obtain ⟨rfl, _, h⟩ := ht; exact ⟨_, rfl, h.1⟩
    · rename_i hq; rw [hq]; obtain ⟨rfl, _, h⟩ := ht; exact ⟨_, rfl, fun _ => rfl⟩
    · rename_i hq; rw [hq]; obtain ⟨rfl, _, h⟩ := ht; exact ⟨_, rfl, fun _ => rfl⟩
    · rename_i hq; rw [hq]; obtain ⟨rfl, _, h⟩ := ht; exact ⟨_, rfl, h.1⟩
    · cases ht
  obtain ⟨m, h1, h2⟩ := key ht
  obtain ⟨m', h1', h2'⟩ := key hu
  constructor
  · by_contra hw
    have := h2 (by simpa using hw)
    subst this
    exact hi.excl t u g m' htu h1 h1'
  · by_contra hw
    have := h2' (by simpa using hw)
    subst this
    exact hi.excl u t g m htu.symm h1' h1

/-- Two threads about to access the same element only read it; so a callback with write access has the element for itself. -/
theorem C43_no_conflicting_access {cfg : Cfg} {f : Fns K} (hf : f.Lawful) {al c : Nat} {s : State K V} (h : Reach cfg f al c s)
    {t u g j : Nat} {w w' : Bool} (htu : t ≠ u) (ht : Touches s t g j w) (hu : Touches s u g j w') : w = false ∧ w' = false :=
  no_conflict (h.inv hf) htu ht hu

def isCheck (g j : Nat) : Pc K V → Bool
  | .check _ _ pb (i :: _) => pb.pos == g && i == j
  | _ => false

theorem touches_of {s : State K V} {t g j : Nat} (h : isCheck g j (s.pc t) = true) : Touches s t g j false := by
  unfold Touches
  generalize s.pc t = p at h
  cases p with
  | check o c pb ms =>
    cases ms with
    | nil => cases h
    | cons i ms => simpa [isCheck] using h
  | _ => cases h

set_option maxRecDepth 100000 in
/-- Two threads looking up the same key at the same time. -/
example : ∃ s : State Nat Nat, Reach {} exF 0 20 s ∧ Touches s 0 0 0 false ∧ Touches s 1 0 0 false := by
  let es : List (Ev Nat Nat) := .op 0 (.key (exInsert 1 10)) :: go 0 26 ++ .op 0 (.key exLook) :: .op 1 (.key exLook) ::
    go 0 18 ++ go 1 18
  have h : (ex0.run {} es).isSome = true := by decide +kernel
  have h0 : isCheck 0 0 (((ex0.run {} es).getD ex0).pc 0) = true := by decide +kernel
  have h1 : isCheck 0 0 (((ex0.run {} es).getD ex0).pc 1) = true := by decide +kernel
  obtain ⟨S, hS⟩ := Option.isSome_iff_exists.1 h
  rw [hS, Option.getD_some] at h0 h1
  exact ⟨S.state, Sys.run_reach (S := ex0) (by rw [ex0, Sys.init_state]; exact .init) hS, touches_of h0, touches_of h1⟩

/-! ### C44: whole-table passes -/

/-- In step `l` thread `t` passes an element with a key equivalent to `k` to the callback of its `visit_all` / `visit_while` /
`erase_if`. -/
def PassesKey (eq : K → K → Bool) (σ : Nat → State K V) (who : Nat → Nat) (t : Nat) (k : K) (l : Nat) : Prop :=
  who l = t ∧ ∃ y, Passes (σ l) t y ∧ eq k y.1 = true

/-- A pass over the whole table that is not stopped by its callback passes every key that is present from its call to its
return to the callback exactly once, whatever other threads do in the meantime. -/
theorem C44_present_visited_once {cfg : Cfg} {f : Fns K} (hf : f.Lawful) {al c : Nat} {σ : Nat → State K V} {who : Nat → Nat}
    {n : Nat} (h0 : Reach cfg f al c (σ 0)) (hr : Run cfg σ who n) {t : Nat} {m : Mode} {act : K × V → Verdict V} {a b r : Nat}
    (he : Executes σ t (.sweep m act) a b r) (hb : b ≤ n)
    (hns : ∀ l, a ≤ l → l < b → who l = t → ∀ y v d, Passes (σ l) t y → act y ≠ .stop v d) {k : K}
    (hp : ∀ i, a ≤ i → i ≤ b → Present f.eq (Elems (σ i)) k) :
    ∃ l, a ≤ l ∧ l < b ∧ PassesKey f.eq σ who t k l ∧ ∀ l', a ≤ l' → l' < b → PassesKey f.eq σ who t k l' → l' = l := by
  have hi0 := h0.inv hf
  have hle := he.le
  have hia := hr.inv hi0 a (by omega)
  have hfa : (σ a).mem.tab.fns = f := (hr.fns hi0 a (by omega)).trans (h0.fns hf)
  have hsub := Run.sub hr he.le hb
  have key := sweep_run hsub (t := t) (md := m) (act := act) hia
    (fun i hi => hns (a + i) (by omega) (by omega)) he.called
    (fun i hi r' hq => he.running (a + i) (by omega) (by omega) r' hq) (x := k)
    (fun i hi => by rw [Nat.add_zero, hfa]; exact hp (a + i) (by omega) (by omega)) (b - a) le_rfl
  have hv : ∀ l, Vis (fun i => σ (a + i)) (fun i => who (a + i)) t k l ↔ PassesKey f.eq σ who t k (a + l) := by
    intro l
    simp only [Vis, PassesKey, Nat.add_zero, hfa]
  simp only [Nat.add_sub_cancel' he.le, Nat.add_zero] at key
  rw [he.returned] at key
  rcases key with ⟨h1, _⟩ | ⟨_, g0, j0, y, v, h1, h2, h3, h4, h5⟩
  · cases h1
  · obtain ⟨l, hl, hvl, hun⟩ := h5 h3
    refine ⟨a + l, by omega, by omega, (hv l).1 hvl, fun l' h1 h2 h3 => ?_⟩
    have := hun (l' - a) (by omega) ((hv _).2 (by rw [Nat.add_sub_cancel' h1]; exact h3))
    omega

/-- `visit_all` counting the elements. -/
def exAll : Op Nat Nat := .sweep .shared fun y => .go y.2 1
/-- Thread 0 visits all elements while thread 1 erases key 2. -/
def exAllRun : List (Ev Nat Nat) := go 0 2 ++ go 1 17 ++ go 0 6 ++ go 1 7

set_option maxRecDepth 100000 in
theorem exAll_executes : Executes ((ex3 exAll).trace {} exAllRun) 0 exAll 0 25 2 :=
  executes (ex3_reach _).2 (by decide +kernel) (by decide +kernel)
set_option maxRecDepth 100000 in
theorem exAll_run : Run {} ((ex3 exAll).trace {} exAllRun) (who exAllRun) 32 := ran (by decide +kernel)

set_option maxRecDepth 100000 in
example : exF.Lawful ∧ Reach {} exF 0 20 ((ex3 exAll).trace {} exAllRun 0) ∧
    Run {} ((ex3 exAll).trace {} exAllRun) (who exAllRun) 32 ∧ Executes ((ex3 exAll).trace {} exAllRun) 0 exAll 0 25 2 ∧
    (∀ y v d, (fun y : Nat × Nat => (Verdict.go y.2 1)) y ≠ .stop v d) ∧
    ∀ i, 0 ≤ i → i ≤ 25 → Present exF.eq (Elems ((ex3 exAll).trace {} exAllRun i)) 1 := by
  refine ⟨exF_lawful, (ex3_reach _).1, exAll_run, exAll_executes, (fun y v d h => by cases h),
    fun i _ hi => present_of (g := 0) (j := 0) (v := 10) ?_⟩
  have : ∀ i < 26, ((ex3 exAll).trace {} exAllRun i).mem.slot 0 0 = some (1, 10) := by decide +kernel
  exact this i (by omega)


/-- What one step of a pass may do to the contents: nothing, or what the callback says to the element passed. -/
theorem C44_pass_effect {cfg : Cfg} {f : Fns K} (hf : f.Lawful) {al c : Nat} {σ : Nat → State K V} {who : Nat → Nat}
    {n : Nat} (h0 : Reach cfg f al c (σ 0)) (hr : Run cfg σ who n) {t : Nat} {m : Mode} {act : K × V → Verdict V} {a b r : Nat}
    (he : Executes σ t (.sweep m act) a b r) (hb : b ≤ n) {l : Nat} (hl : a ≤ l) (hlb : l < b) (hw : who l = t) :
    (Same (Elems (σ l)) (Elems (σ (l + 1))) ∧ ∀ y, ¬ Passes (σ l) t y) ∨
    ∃ y, Passes (σ l) t y ∧ (match act y with
      | .go v _ | .stop v _ => Replaced (Elems (σ l)) (Elems (σ (l + 1))) y (y.1, match m with | .excl => v | .shared => y.2)
      | .erase => Removed (Elems (σ l)) (Elems (σ (l + 1))) y) := by
  have hi0 := h0.inv hf
  have hle := he.le
  have hia := hr.inv hi0 a (by omega)
  have hsub := Run.sub hr he.le hb
  have hs := Run.sweeping hsub (t := t) (md := m) (act := act) hia he.called
    (fun i hi r' hq => he.running (a + i) (by omega) (by omega) r' hq) (l - a) (by omega)
  simp only [Nat.add_sub_cancel' hl] at hs
  have := ((hw ▸ hr.step l (by omega)).sweeping (hr.inv hi0 l (by omega)) (hr.nowrap l (by omega))
    (he.running l hl hlb) hs).2
  rcases this with h1 | ⟨y, h1, h2⟩
  · exact .inl h1
  · refine .inr ⟨y, h1, ?_⟩
    rcases h2 with ⟨v, d, h2, h3⟩ | ⟨v, d, h2, h3⟩ | ⟨h2, h3⟩
    · rw [h2]
      cases m <;> exact h3
    · rw [h2]
      cases m <;> exact h3
    · rw [h2]; exact h3

example : exF.Lawful ∧ Reach {} exF 0 20 ((ex3 exAll).trace {} exAllRun 0) ∧
    Run {} ((ex3 exAll).trace {} exAllRun) (who exAllRun) 32 ∧ Executes ((ex3 exAll).trace {} exAllRun) 0 exAll 0 25 2 ∧
    (0 ≤ 20 ∧ 20 < 25 ∧ who exAllRun 20 = 0) :=
  ⟨exF_lawful, (ex3_reach _).1, exAll_run, exAll_executes, by decide⟩

/-- What an element counts for in the answer of a pass: what the callback says (for `visit_all` one, for `visit_while` one if it
says `false`), or one if it is erased. -/
def counts : Verdict V → Nat
  | .go _ k => k
  | .stop _ k => k
  | .erase => 1

/-- The answer of a pass is the sum of what the elements passed count for. -/
theorem C44_pass_answer {cfg : Cfg} {f : Fns K} (hf : f.Lawful) {al c : Nat} {σ : Nat → State K V} {who : Nat → Nat}
    {n : Nat} (h0 : Reach cfg f al c (σ 0)) (hr : Run cfg σ who n) {t : Nat} {m : Mode} {act : K × V → Verdict V} {b r : Nat}
    (he : Executes σ t (.sweep m act) 0 b r) (hb : b ≤ n) :
    ∃ w : Nat → Nat, r = ((List.range b).map w).sum ∧ ∀ l < b,
      (who l = t ∧ ∃ y, Passes (σ l) t y ∧ w l = counts (act y)) ∨ ((who l ≠ t ∨ ∀ y, ¬ Passes (σ l) t y) ∧ w l = 0) := by
  have hsub : Run cfg σ who b := ⟨fun i hi => hr.step i (by omega), fun i hi => hr.nowrap i (by omega)⟩
  have hd : ∀ i < b, ∀ r', (σ i).pc t ≠ .done r' := fun i hi r' hq => he.running i (by omega) hi r' hq
  refine ⟨fun l => if who l = t then adds (σ l) t else 0, ?_, fun l hl => ?_⟩
  · rw [← Run.sofar hsub (h0.inv hf) he.called hd b le_rfl, he.returned]
    rfl
  · by_cases hw : who l = t
    · have hs := Run.sweeping hsub (h0.inv hf) he.called hd l hl.le
      by_cases hy : ∃ y, Passes (σ l) t y
      · obtain ⟨y, m', act', g, j, js, r', hq, hy⟩ := hy
        rw [hq] at hs
        obtain ⟨rfl, rfl⟩ := hs
        refine .inl ⟨hw, y, ⟨_, _, _, _, _, _, hq, hy⟩, ?_⟩
        simp only [hw, if_true, adds, hq, hy, counts]
        cases act' y <;> rfl
      · refine .inr ⟨.inr fun y h => hy ⟨y, h⟩, ?_⟩
        simp only [hw, if_true]
        unfold adds
        split
        · rename_i m' act' g j js r' hq
          split
          · rename_i y hy'
            exact absurd ⟨y, _, _, _, _, _, _, hq, hy'⟩ hy
          · rfl
        · rfl
    · exact .inr ⟨.inl hw, by simp [hw]⟩

example : exF.Lawful ∧ Reach {} exF 0 20 ((ex3 exAll).trace {} exAllRun 0) ∧
    Run {} ((ex3 exAll).trace {} exAllRun) (who exAllRun) 32 ∧ Executes ((ex3 exAll).trace {} exAllRun) 0 exAll 0 25 2 :=
  ⟨exF_lawful, (ex3_reach _).1, exAll_run, exAll_executes⟩

end Props.ConcTable

/-
Executing bulk visits step by step, for concrete runs.
-/
import Verif.Conc.BulkRef
import Verif.Conc.TabRun

namespace Conc.Tab
open Foa
open Conc.Locking (Mode)

variable {K V : Type}

/-- A thread with finitely many searches. -/
structure FTh (K V : Type) where
  p : Pc K V
  ctl : Ctl K V
  vs : List (Pc K V)

def FTh.get (x : FTh K V) (j : Nat) : Pc K V := x.vs.getD j .idle
def FTh.th (x : FTh K V) : BTh K V := ⟨x.p, x.ctl, x.get⟩

/-- Finitely many threads. -/
structure BSys (K V : Type) where
  mem : Mem K V
  ths : List (FTh K V)

def FTh.new : FTh K V := ⟨.idle, .out, []⟩
def BSys.at (S : BSys K V) (t : Nat) : FTh K V := S.ths.getD t .new
def BSys.state (S : BSys K V) : BState K V := ⟨S.mem, fun t => (S.at t).th⟩

def FTh.all (x : FTh K V) (q : Pc K V → Bool) : Bool := q x.p && x.vs.all q

theorem FTh.all_iff {x : FTh K V} {q : Pc K V → Bool} (h : x.all q = true) (hq : q .idle = true) :
    q x.p = true ∧ ∀ j, q (x.get j) = true := by
  simp only [FTh.all, Bool.and_eq_true] at h
  refine ⟨h.1, fun j => ?_⟩
  rw [FTh.get, List.getD_eq_getElem?_getD]
  by_cases hl : j < x.vs.length
  · rw [List.getElem?_eq_getElem hl]
    exact List.all_eq_true.1 h.2 _ (List.getElem_mem hl)
  · rw [List.getElem?_eq_none (by omega)]
    exact hq

def BSys.others (S : BSys K V) (t : Nat) (q : Pc K V → Bool) : Bool :=
  (List.range S.ths.length).all fun u => u == t || (S.at u).all q

theorem BSys.others_iff {S : BSys K V} {t : Nat} {q : Pc K V → Bool} (h : S.others t q = true) (hq : q .idle = true) :
    ∀ u, u ≠ t → q (S.at u).p = true ∧ ∀ j, q ((S.at u).get j) = true := by
  intro u hu
  by_cases hl : u < S.ths.length
  · have := (List.all_eq_true.1 h) u (List.mem_range.2 hl)
    exact FTh.all_iff (by simpa [hu] using this) hq
  · rw [BSys.at, List.getD_eq_getElem?_getD, List.getElem?_eq_none (by omega)]
    exact ⟨hq, fun j => by simp [FTh.new, FTh.get, hq]⟩

def BSys.canS (S : BSys K V) (t g : Nat) : Bool := S.others t fun p => !isX g p.locks
def BSys.canX (S : BSys K V) (t g : Nat) : Bool := S.others t fun p => !isL g p.locks

theorem BSys.canS_sound {S : BSys K V} {t g : Nat} (h : S.canS t g = true) : S.state.canS t g := by
  intro u hu hl
  have h1 := BSys.others_iff h rfl u hu
  rcases hl with hl | ⟨j, hl⟩
  · rw [show (S.at u).p.locks = _ from hl] at h1; simp [isX] at h1
  · have := h1.2 j
    rw [show ((S.at u).get j).locks = _ from hl] at this; simp [isX] at this

theorem BSys.canX_sound {S : BSys K V} {t g : Nat} (h : S.canX t g = true) : S.state.canX t g := by
  intro u hu md hl
  have h1 := BSys.others_iff h rfl u hu
  rcases hl with hl | ⟨j, hl⟩
  · rw [show (S.at u).p.locks = _ from hl] at h1; simp [isL] at h1
  · have := h1.2 j
    rw [show ((S.at u).get j).locks = _ from hl] at this; simp [isL] at this

def FTh.set (x : FTh K V) (c : Ctl K V) (i : Nat) (p : Pc K V) : Option (FTh K V) :=
  if i < x.vs.length then some ⟨x.p, c, x.vs.set i p⟩ else none

theorem FTh.set_th {x x' : FTh K V} {c : Ctl K V} {i : Nat} {p : Pc K V} (h : x.set c i p = some x') :
    x'.th = x.th.setV c i p := by
  simp only [FTh.set] at h
  split at h
  · rename_i hi
    cases h
    refine congrArg (BTh.mk x.p c) (funext fun j => ?_)
    simp only [FTh.get, FTh.th, List.getD_eq_getElem?_getD, List.getElem?_set]
    by_cases hj : i = j
    · subst hj; simp [hi]
    · rw [if_neg hj, if_neg (fun e => hj e.symm)]
  · cases h

/-- A thread moves on in its bulk visit. -/
def FTh.next (m : Mem K V) (canS canX : Nat → Bool) (x : FTh K V) : Option (Mem K V × FTh K V) :=
  match x.ctl with
  | .out | .ret _ => none
  | .call b => some (m, { x with ctl := nextChunk b 0 0 })
  | .hash b lo hi i acc false =>
    if i < hi then
      match b.ks[i]? with
      | some k => (x.set (.hash b lo hi i acc true) i (.start (.key (b.op k)))).map (m, ·)
      | none => none
    else if i = hi then some (m, { x with ctl := .first b lo hi lo acc }) else none
  | .hash b lo hi i acc true =>
    match x.get i with
    | .start (.key o) => (x.set (.hash b lo hi (i + 1) acc false) i (enterPc m o)).map (m, ·)
    | _ => none
  | .first b lo hi i acc =>
    if i < hi then
      match x.get i with
      | .scan _ _ _ [] _ => some (m, { x with ctl := .first b lo hi (i + 1) acc })
      | .scan o c pb (j :: todo) ac =>
        match Conc.Tab.next m canS canX (.scan o c pb (j :: todo) ac) with
        | some (m', p') => (x.set (.first b lo hi i acc) i p').map (m', ·)
        | none => none
      | _ => none
    else if i = hi then some (m, { x with ctl := .visit b lo hi lo acc }) else none
  | .visit b lo hi i acc =>
    if i < hi then
      match x.get i with
      | .done r => some (m, { x with ctl := .visit b lo hi (i + 1) (acc + r) })
      | p =>
        match Conc.Tab.next m canS canX p with
        | some (m', p') => (x.set (.visit b lo hi i acc) i p').map (m', ·)
        | none => none
    else if i = hi then some (m, { x with ctl := nextChunk b hi acc }) else none
  | .leave acc => some (m, { x with ctl := .ret acc })

theorem FTh.next_sound {m m' : Mem K V} {canS canX : Nat → Bool} {S X : Nat → Prop} (hS : ∀ g, canS g = true → S g)
    (hX : ∀ g, canX g = true → X g) {x x' : FTh K V} (h : x.next m canS canX = some (m', x')) :
    BStep m S X x.th m' x'.th := by
  simp only [FTh.next] at h
  split at h
  · cases h
  · cases h
  · rename_i b hc
    cases h
    exact .enter _ b hc
  · rename_i b lo hi i acc hc
    split at h
    · rename_i hi'
      split at h
      · rename_i k hk
        simp only [Option.map_eq_some_iff] at h
        obtain ⟨y, h1, h2⟩ := h
        cases h2
        rw [FTh.set_th h1]
        exact .hashKey _ b lo hi i acc k hc hi' hk
      · cases h
    · split at h
      · rename_i hi'
        cases h
        subst hi'
        exact .hashEnd x.th b lo i acc hc
      · cases h
  · rename_i b lo hi i acc hc
    split at h
    · rename_i o ho
      simp only [Option.map_eq_some_iff] at h
      obtain ⟨y, h1, h2⟩ := h
      cases h2
      rw [FTh.set_th h1]
      exact .hash _ b lo hi i acc o hc ho
    · cases h
  · rename_i b lo hi i acc hc
    split at h
    · rename_i hi'
      split at h
      · rename_i o c pb ac ho
        cases h
        exact .readNext x.th b lo hi i acc o c pb ac hc hi' ho
      · rename_i o c pb j todo ac ho
        split at h
        · rename_i m1 p1 hn
          simp only [Option.map_eq_some_iff] at h
          obtain ⟨y, h1, h2⟩ := h
          cases h2
          rw [FTh.set_th h1]
          rcases Conc.Tab.next_sound hS hX hn with ⟨h3, h4⟩ | h4
          · subst h3
            exact .read _ b lo hi i acc o c pb (j :: todo) ac _ hc hi' ho (by simp) (by
              rw [show x.th.v i = _ from ho]; exact h4)
          · cases h4
        · cases h
      · cases h
    · split at h
      · rename_i hi'
        cases h
        subst hi'
        exact .readEnd x.th b lo i acc hc
      · cases h
  · rename_i b lo hi i acc hc
    split at h
    · rename_i hi'
      split at h
      · rename_i r ho
        cases h
        exact .next x.th b lo hi i acc r hc hi' ho
      · rename_i p hnd
        split at h
        · rename_i m1 p1 hn
          simp only [Option.map_eq_some_iff] at h
          obtain ⟨y, h1, h2⟩ := h
          cases h2
          rw [FTh.set_th h1]
          rcases Conc.Tab.next_sound hS hX hn with ⟨h3, h4⟩ | h4
          · subst h3
            refine .quiet _ b lo hi i acc _ hc hi' ?_ h4
            change (x.get i).rest = false
            generalize x.get i = p at hn
            cases p <;> first | rfl | (cases hn; done)
          · exact .eff _ b lo hi i acc _ _ hc hi' h4
        · cases h
    · split at h
      · rename_i hi'
        cases h
        subst hi'
        exact .visitEnd x.th b lo i acc hc
      · cases h
  · rename_i acc hc
    cases h
    exact .leave x.th acc hc

/-- Thread `t` moves; or calls an operation; or calls a bulk visit. -/
inductive BEv (K V : Type) where
  | go (t : Nat)
  | op (t : Nat) (o : Op K V)
  | bulk (t : Nat) (b : BOp K V)

def BEv.t : BEv K V → Nat
  | .go t | .op t _ | .bulk t _ => t

def BSys.nowrap (S : BSys K V) : Bool :=
  S.ths.all fun x => match x.p with
    | .insInc o c _ _ => decide (S.mem.cnt (S.mem.pos0 o.key) < c + 2 ^ 32)
    | _ => true

def BSys.put (S : BSys K V) (t : Nat) (r : Mem K V × FTh K V) : BSys K V := ⟨r.1, S.ths.set t r.2⟩

def BSys.step (S : BSys K V) (e : BEv K V) : Option (BSys K V) :=
  if e.t < S.ths.length ∧ S.nowrap = true then
    match e with
    | .op t o => match (S.at t).ctl.rest, (S.at t).p with
      | true, .idle => some (S.put t (S.mem, { S.at t with p := .start o }))
      | true, .done _ => some (S.put t (S.mem, { S.at t with p := .start o }))
      | _, _ => none
    | .bulk t b => if (S.at t).ctl.rest = true ∧ (S.at t).p.rest = true then some (S.put t (S.mem, { S.at t with ctl := .call b })) else none
    | .go t =>
      if (S.at t).ctl.rest = true then
        (next S.mem (S.canS t) (S.canX t) (S.at t).p).map fun r => S.put t (r.1, { S.at t with p := r.2 })
      else ((S.at t).next S.mem (S.canS t) (S.canX t)).map (S.put t)
  else none

theorem BSys.put_state {S : BSys K V} {t : Nat} (ht : t < S.ths.length) (r : Mem K V × FTh K V) :
    (S.put t r).state = S.state.set t r.1 r.2.th := by
  simp only [BSys.state, BState.set, BSys.put]
  refine congrArg (BState.mk r.1) (funext fun u => ?_)
  simp only [BSys.at, List.getD_eq_getElem?_getD, List.getElem?_set]
  by_cases h : t = u
  · subst h; simp [ht]
  · rw [if_neg h, if_neg (fun e => h e.symm)]

theorem BSys.nowrap_sound {S : BSys K V} (h : S.nowrap = true) : S.state.NoWrap := by
  intro t o c pb j hq
  simp only [BSys.state, BSys.at, FTh.th] at hq
  by_cases hl : t < S.ths.length
  · rw [List.getD_eq_getElem?_getD, List.getElem?_eq_getElem hl] at hq
    have := (List.all_eq_true.1 h) _ (List.getElem_mem hl)
    simp only [Option.getD_some] at hq
    rw [hq] at this
    exact of_decide_eq_true this
  · rw [List.getD_eq_getElem?_getD, List.getElem?_eq_none (by omega)] at hq
    cases hq

theorem BSys.step_sound {cfg : Cfg} {S S' : BSys K V} {e : BEv K V} (h : S.step e = some S') :
    S.state.NoWrap ∧ BStepBy cfg e.t S.state S'.state := by
  simp only [BSys.step] at h
  split at h
  · rename_i hc
    obtain ⟨ht, hw⟩ := hc
    refine ⟨BSys.nowrap_sound hw, ?_⟩
    cases e with
    | op t o =>
      replace ht : t < S.ths.length := ht
      change BStepBy cfg t _ _
      simp only at h
      split at h
      · rename_i h1 h2
        cases h
        rw [BSys.put_state ht]
        exact .quiet (p' := .start o) h1 (by rw [show (S.state.th t).p = _ from h2]; exact .call o)
      · rename_i r h1 h2
        cases h
        rw [BSys.put_state ht]
        exact .quiet (p' := .start o) h1 (by rw [show (S.state.th t).p = _ from h2]; exact .callAgain _ o)
      · cases h
    | bulk t b =>
      replace ht : t < S.ths.length := ht
      change BStepBy cfg t _ _
      simp only at h
      split at h
      · rename_i h1
        cases h
        rw [BSys.put_state ht]
        exact .bulk (.call _ b h1.2 h1.1)
      · cases h
    | go t =>
      replace ht : t < S.ths.length := ht
      change BStepBy cfg t _ _
      simp only at h
      split at h
      · rename_i h1
        simp only [Option.map_eq_some_iff] at h
        obtain ⟨r, h2, h3⟩ := h
        cases h3
        rw [BSys.put_state ht]
        rcases Conc.Tab.next_sound (fun g => BSys.canS_sound) (fun g => BSys.canX_sound) (m' := r.1) (p' := r.2) h2 with ⟨h4, h5⟩ | h5
        · rw [h4]; exact .quiet (p' := r.2) h1 h5
        · exact .eff (p' := r.2) h1 h5
      · simp only [Option.map_eq_some_iff] at h
        obtain ⟨r, h2, h3⟩ := h
        cases h3
        rw [BSys.put_state ht]
        exact .bulk (FTh.next_sound (fun g => BSys.canS_sound) (fun g => BSys.canX_sound) (m' := r.1) (x' := r.2) h2)
  · cases h

def BSys.init (cfg : Cfg) (f : Fns K) (al n threads keys : Nat) : BSys K V :=
  ⟨⟨Table.mk_ cfg f al n, fun _ => 0⟩, List.replicate threads ⟨.idle, .out, List.replicate keys .idle⟩⟩

theorem BSys.init_state (cfg : Cfg) (f : Fns K) (al n threads keys : Nat) :
    (BSys.init cfg f al n threads keys : BSys K V).state = BState.init cfg f al n := by
  refine congrArg (BState.mk _) (funext fun t => ?_)
  simp only [BSys.at, BSys.init, List.getD_eq_getElem?_getD, List.getElem?_replicate]
  split
  · refine congrArg (BTh.mk _ _) (funext fun j => ?_)
    simp only [FTh.get, Option.getD_some, List.getD_eq_getElem?_getD, List.getElem?_replicate]
    split <;> rfl
  · refine congrArg (BTh.mk _ _) (funext fun j => ?_)
    simp [FTh.get, FTh.new]

def BSys.run (S : BSys K V) (es : List (BEv K V)) : Option (BSys K V) := es.foldlM BSys.step S
def BSys.trace (S : BSys K V) (es : List (BEv K V)) (i : Nat) : BState K V := ((S.run (es.take i)).getD S).state
def bwho (es : List (BEv K V)) (i : Nat) : Nat := ((es[i]?).map BEv.t).getD 0

theorem BSys.run_reach {cfg : Cfg} {f : Fns K} {al n : Nat} : ∀ {es : List (BEv K V)} {S S' : BSys K V},
    BReach cfg f al n S.state → S.run es = some S' → BReach cfg f al n S'.state
  | [], S, S', hr, h => by cases h; exact hr
  | e :: es, S, S', hr, h => by
    simp only [BSys.run, List.foldlM_cons, Option.bind_eq_bind, Option.bind_eq_some_iff] at h
    obtain ⟨S1, h1, h2⟩ := h
    obtain ⟨h3, h4⟩ := BSys.step_sound (cfg := cfg) h1
    exact BSys.run_reach (.step hr h3 h4) h2

theorem BSys.run_append {S : BSys K V} {a b : List (BEv K V)} : S.run (a ++ b) = (S.run a).bind fun T => T.run b := by
  simp [BSys.run, List.foldlM_append]

theorem BSys.trace_run {cfg : Cfg} {S S' : BSys K V} {es : List (BEv K V)} (h : S.run es = some S') :
    BRun cfg (S.trace es) (bwho es) es.length := by
  have key : ∀ i < es.length, ∃ S1 S2 e, S.run (es.take i) = some S1 ∧ S.run (es.take (i + 1)) = some S2 ∧
      S1.step e = some S2 ∧ bwho es i = e.t := by
    intro i hi
    have h1 : es = es.take i ++ es[i] :: es.drop (i + 1) := by
      rw [List.cons_getElem_drop_succ, List.take_append_drop]
    have h2 : es.take (i + 1) = es.take i ++ [es[i]] := by rw [List.take_add_one, List.getElem?_eq_getElem hi]; rfl
    rw [h1, BSys.run_append, Option.bind_eq_some_iff] at h
    obtain ⟨S1, h3, h4⟩ := h
    simp only [BSys.run, List.foldlM_cons, Option.bind_eq_bind, Option.bind_eq_some_iff] at h4
    obtain ⟨S2, h5, _⟩ := h4
    refine ⟨S1, S2, es[i], h3, ?_, h5, ?_⟩
    · rw [h2, BSys.run_append, h3, Option.bind_some]
      simp only [BSys.run, List.foldlM_cons, List.foldlM_nil, h5]
      rfl
    · simp [bwho, List.getElem?_eq_getElem hi]
  constructor
  · intro i hi
    obtain ⟨S1, S2, e, h1, h2, h3, h4⟩ := key i hi
    simp only [BSys.trace, h1, h2, Option.getD_some, h4]
    exact (BSys.step_sound h3).2
  · intro i hi
    obtain ⟨S1, S2, e, h1, h2, h3, h4⟩ := key i hi
    simp only [BSys.trace, h1, Option.getD_some]
    exact (BSys.step_sound (cfg := cfg) h3).1

end Conc.Tab

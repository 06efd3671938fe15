/-
An executable scheduler for the concurrent table, proved to make only steps of the model. Used to exhibit concrete runs.
-/
import Verif.Conc.TabLin

namespace Conc.Tab
open Foa
open Conc.Locking (Mode)

variable {K V : Type}

/-- The step of a thread inside the shared section (or starting an operation with a key or a whole-table pass), if it can
move. -/
def next (m : Mem K V) (canS canX : Nat → Bool) : Pc K V → Option (Mem K V × Pc K V)
  | .start (.key o) => some (m, enterPc m o)
  | .start (.sweep md act) => if m.tab.arr.hasElems then some (m, .swLock md act 0 0) else some (m, .leave 0)
  | .counter o => some (m, .scan o (m.cnt (m.pos0 o.key)) (probe0 m o) (List.range N) [])
  | .scan o c pb (j :: js) acc =>
      if (m.grp pb.pos).md j = rhash (m.hashOf o.key) ∧ (m.grp pb.pos).md j ≠ 1 then some (m, .scan o c pb ((j :: js).erase j) (j :: acc))
      else if (m.grp pb.pos).md j ≠ rhash (m.hashOf o.key) then some (m, .scan o c pb ((j :: js).erase j) acc) else none
  | .scan o c pb [] acc =>
      if acc.isEmpty then some (m, .over o c pb) else some (m, .lock o c pb ((List.range N).filter fun j => decide (j ∈ acc)))
  | .lock o c pb ms => match o.mode with
      | .shared => if canS pb.pos then some (m, .check o c pb ms) else none
      | .excl => if canX pb.pos then some (m, .check o c pb ms) else none
  | .check o c pb [] => some (m, .over o c pb)
  | .check o c pb (j :: ms) =>
      if (m.grp pb.pos).md j = 0 then some (m, .check o c pb ms) else
      match m.slot pb.pos j with
      | none => none
      | some y => if m.tab.fns.eq o.key y.1 then some (m, .hit o pb j) else some (m, .check o c pb ms)
  | .over o c pb =>
      if (m.grp pb.pos).isNotOverflowed (m.hashOf o.key) then some (m, missPc o c) else
      some (m, if (pb.next m.tab.arr.mask).2 then .scan o c (pb.next m.tab.arr.mask).1 (List.range N) [] else missPc o c)
  | .hit o pb j => match m.slot pb.pos j with
      | none => none
      | some y => match o with
        | .visit md _ f => some (m.call md pb.pos j y (f y), .unlock pb.pos md 1)
        | .insert md _ f2 _ => some (m.call md pb.pos j y (f2 y), .unlock pb.pos md 0)
        | .erase _ p => match p y with
          | some v => some (m.call .excl pb.pos j y v, .unlock pb.pos .excl 0)
          | none => if m.drop pb.pos j ≤ m.tab.ml then
              some ((m.setSlot pb.pos j none).setMl (m.tab.ml - m.drop pb.pos j), .eraseReset pb.pos j (m.drop pb.pos j) none)
            else none
  | .reserve o c => some (m.setSize (m.tab.size + 1), .test o c (m.tab.size + 1))
  | .test o c n => if n ≤ m.tab.ml then some (m, .insLock o c (probe0 m o)) else some (m, .failSize o)
  | .failSize o => if 1 ≤ m.tab.size then some (m.setSize (m.tab.size - 1), .full o) else none
  | .insLock o c pb => if canX pb.pos then some (m, .insFind o c pb) else none
  | .insFind o c pb =>
      if m.tab.arr.hasElems then
        match (m.grp pb.pos).availSlots with
        | [] => some (m.setGrp pb.pos ((m.grp pb.pos).markOverflow (m.hashOf o.key)), .insNext o c pb)
        | j :: _ => match m.slot pb.pos j with
          | none => some (m.setGrp pb.pos ((m.grp pb.pos).set j (m.hashOf o.key)), .insInc o c pb j)
          | some _ => none
      else none
  | .insNext o c pb => some (m, .insLock o c (pb.next m.tab.arr.mask).1)
  | .insInc o c pb j =>
      if m.cnt (m.pos0 o.key) % 2 ^ 32 = c % 2 ^ 32 then
        match o, m.slot pb.pos j with
        | .insert _ x _ f1, none => some ((m.incCnt (m.pos0 x.1)).setSlot pb.pos j (some (x.1, f1 x)), .unlock pb.pos .excl 1)
        | _, _ => none
      else some (m.incCnt (m.pos0 o.key), .rollReset o pb j)
  | .rollReset o pb j => some (m.setGrp pb.pos ((m.grp pb.pos).reset j), .rollUnlock o pb)
  | .rollUnlock o _ => some (m, .rollSize o)
  | .rollSize o => if 1 ≤ m.tab.size then some (m.setSize (m.tab.size - 1), .counter o) else none
  | .eraseReset g j d cont => some (m.setGrp g ((m.grp g).reset j), .eraseSize g d cont)
  | .eraseSize g _ none => if 1 ≤ m.tab.size then some (m.setSize (m.tab.size - 1), .unlock g .excl 1) else none
  | .eraseSize g _ (some (act, js, r)) =>
      if 1 ≤ m.tab.size then some (m.setSize (m.tab.size - 1), .swAt .excl act g js (r + 1)) else none
  | .swLock .shared act g r => if canS g then some (m, .swAt .shared act g (reallyOcc m g) r) else none
  | .swLock .excl act g r => if canX g then some (m, .swAt .excl act g (reallyOcc m g) r) else none
  | .swAt md act g [] r => some (m, if g + 1 ≤ m.tab.arr.mask then .swLock md act (g + 1) r else .leave r)
  | .swAt md act g (j :: js) r => match m.slot g j with
      | none => none
      | some y => match act y with
        | .go v add => some (m.call md g j y v, .swAt md act g js (r + add))
        | .stop v add => some (m.call md g j y v, .unlock g md (r + add))
        | .erase => if md = .excl ∧ m.drop g j ≤ m.tab.ml then
            some ((m.setSlot g j none).setMl (m.tab.ml - m.drop g j), .eraseReset g j (m.drop g j) (some (act, js, r)))
          else none
  | .unlock _ _ r => some (m, .leave r)
  | .leave r => some (m, .done r)
  | _ => none

theorem next_sound {m m' : Mem K V} {canS canX : Nat → Bool} {S X : Nat → Prop} (hS : ∀ g, canS g = true → S g)
    (hX : ∀ g, canX g = true → X g) {p p' : Pc K V} (h : next m canS canX p = some (m', p')) :
    (m' = m ∧ Quiet m S X p p') ∨ Eff m p m' p' := by
  cases p with
  | idle => cases h
  | done r => cases h
  | bad => cases h
  | full o => cases h
  | start o =>
    cases o with
    | key o => cases h; exact .inl ⟨rfl, .enter o⟩
    | sweep md act =>
      simp only [next] at h
      split at h <;> cases h
      · exact .inl ⟨rfl, .sweep _ _ (by assumption)⟩
      · exact .inl ⟨rfl, .sweepNone _ _ (Bool.eq_false_iff.2 (by assumption))⟩
    | ex e => cases h
  | counter o => cases h; exact .inl ⟨rfl, .counter o⟩
  | scan o c pb todo acc =>
    cases todo with
    | nil =>
      simp only [next] at h
      split at h <;> cases h
      · rename_i ha
        rw [List.isEmpty_iff] at ha
        subst ha
        exact .inl ⟨rfl, .scanNone o c pb⟩
      · rename_i ha
        exact .inl ⟨rfl, .scanSome o c pb acc (by simpa using ha)⟩
    | cons j js =>
      simp only [next] at h
      split at h
      · rename_i hc; cases h; exact .inl ⟨rfl, .scanMatch _ _ _ _ _ j List.mem_cons_self hc.2⟩
      · split at h
        · rename_i hc; cases h; exact .inl ⟨rfl, .scanMiss _ _ _ _ _ j List.mem_cons_self hc⟩
        · cases h
  | lock o c pb ms =>
    simp only [next] at h
    split at h <;> split at h <;> cases h
    · exact .inl ⟨rfl, .lockS _ _ _ _ (by assumption) (hS _ (by assumption))⟩
    · exact .inl ⟨rfl, .lockX _ _ _ _ (by assumption) (hX _ (by assumption))⟩
  | check o c pb ms =>
    cases ms with
    | nil => cases h; exact .inl ⟨rfl, .checkEnd _ _ _⟩
    | cons j ms =>
      simp only [next] at h
      split at h
      · cases h; exact .inl ⟨rfl, .checkEmpty _ _ _ _ _ (by assumption)⟩
      · rename_i hm
        split at h
        · cases h
        · rename_i y hy
          split at h <;> cases h
          · exact .inl ⟨rfl, .checkHit _ _ _ _ _ y hm hy (by assumption)⟩
          · exact .inl ⟨rfl, .checkMiss _ _ _ _ _ y hm hy (Bool.eq_false_iff.2 (by assumption))⟩
  | over o c pb =>
    simp only [next] at h
    split at h <;> cases h
    · exact .inl ⟨rfl, .overEnd _ _ _ (by assumption)⟩
    · exact .inl ⟨rfl, .overNext _ _ _ (Bool.eq_false_iff.2 (by assumption))⟩
  | hit o pb j =>
    simp only [next] at h
    split at h
    · cases h
    · rename_i y hy
      cases o with
      | visit md k f => cases h; exact .inr (.visit _ _ _ _ _ y hy)
      | insert md x f2 f1 => cases h; exact .inr (.found _ _ _ _ _ _ y hy)
      | erase k p =>
        simp only at h
        split at h
        · cases h; exact .inr (.eraseNot _ _ _ _ y _ hy (by assumption))
        · split at h <;> cases h
          exact .inr (.erase _ _ _ _ y hy (by assumption) (by assumption))
  | reserve o c => cases h; exact .inr (.reserve _ _)
  | test o c n =>
    simp only [next] at h
    split at h <;> cases h
    · exact .inl ⟨rfl, .testOk _ _ _ (by assumption)⟩
    · exact .inl ⟨rfl, .testFail _ _ _ (by assumption)⟩
  | failSize o =>
    simp only [next] at h
    split at h <;> cases h
    exact .inr (.failSize _ (by assumption))
  | insLock o c pb =>
    simp only [next] at h
    split at h <;> cases h
    exact .inl ⟨rfl, .insLock _ _ _ (hX _ (by assumption))⟩
  | insFind o c pb =>
    simp only [next] at h
    split at h
    · rename_i he
      split at h
      · cases h; exact .inr (.insFull _ _ _ he (by assumption))
      · rename_i j js hj
        split at h <;> cases h
        exact .inr (.insSet _ _ _ j js he hj (by assumption))
    · cases h
  | insNext o c pb => cases h; exact .inl ⟨rfl, .insNext _ _ _⟩
  | insInc o c pb j =>
    simp only [next] at h
    split at h
    · rename_i hc
      split at h <;> cases h
      exact .inr (.insert _ _ _ _ _ _ _ hc (by assumption))
    · cases h; exact .inr (.startOver _ _ _ _ (by assumption))
  | rollReset o pb j => cases h; exact .inr (.rollReset _ _ _)
  | rollUnlock o pb => cases h; exact .inl ⟨rfl, .rollUnlock _ _⟩
  | rollSize o =>
    simp only [next] at h
    split at h <;> cases h
    exact .inr (.rollSize _ (by assumption))
  | eraseReset g j d cont => cases h; exact .inr (.eraseReset _ _ _ _)
  | eraseSize g d cont =>
    cases cont with
    | none =>
      simp only [next] at h
      split at h <;> cases h
      exact .inr (.eraseSize _ _ (by assumption))
    | some q =>
      obtain ⟨act, js, r⟩ := q
      simp only [next] at h
      split at h <;> cases h
      exact .inr (.eraseSizeMore _ _ _ _ _ (by assumption))
  | swLock md act g r =>
    cases md <;> simp only [next] at h <;> split at h <;> cases h
    · exact .inl ⟨rfl, .swLockS _ _ _ (hS _ (by assumption))⟩
    · exact .inl ⟨rfl, .swLockX _ _ _ (hX _ (by assumption))⟩
  | swAt md act g js r =>
    cases js with
    | nil => cases h; exact .inl ⟨rfl, .swEnd _ _ _ _⟩
    | cons j js =>
      simp only [next] at h
      split at h
      · cases h
      · rename_i y hy
        split at h
        · cases h; exact .inr (.swGo _ _ _ _ _ _ y _ _ hy (by assumption))
        · cases h; exact .inr (.swStop _ _ _ _ _ _ y _ _ hy (by assumption))
        · split at h <;> cases h
          rename_i hc
          obtain ⟨rfl, hd⟩ := hc
          exact .inr (.swErase _ _ _ _ _ y hy (by assumption) hd)
  | unlock g md r => cases h; exact .inl ⟨rfl, .unlock _ _ _⟩
  | leave r => cases h; exact .inl ⟨rfl, .leave _⟩

/-- A step under the exclusive lock of the container. -/
def nextAlone (cfg : Cfg) (m : Mem K V) : Pc K V → Option (Mem K V × Pc K V)
  | .start (.ex e) => (e.run cfg m.tab).map fun r => (⟨r.1, fun _ => 0⟩, .done r.2)
  | .full o => (rehashIfFull cfg m.tab).map fun t' => (⟨t', fun _ => 0⟩, .start (.key o))
  | _ => none

theorem nextAlone_sound {cfg : Cfg} {m m' : Mem K V} {p p' : Pc K V} (h : nextAlone cfg m p = some (m', p')) :
    Alone cfg m p m' p' := by
  cases p with
  | start o =>
    cases o with
    | ex e =>
      simp only [nextAlone, Option.map_eq_some_iff] at h
      obtain ⟨⟨t', r⟩, h1, h2⟩ := h
      cases h2
      exact .ex e t' r _ h1 (.inr rfl)
    | key o => cases h
    | sweep md act => cases h
  | full o =>
    simp only [nextAlone, Option.map_eq_some_iff] at h
    obtain ⟨t', h1, h2⟩ := h
    cases h2
    exact .grow o t' _ h1 (.inr rfl)
  | _ => cases h

/-- Finitely many threads, the others idle. -/
structure Sys (K V : Type) where
  mem : Mem K V
  pcs : List (Pc K V)

def Sys.pc (S : Sys K V) (t : Nat) : Pc K V := S.pcs.getD t .idle
def Sys.state (S : Sys K V) : State K V := ⟨S.mem, S.pc⟩

def isX (g : Nat) : Option (Nat × Mode) → Bool
  | some (g', .excl) => g' == g
  | _ => false
def isL (g : Nat) : Option (Nat × Mode) → Bool
  | some (g', _) => g' == g
  | _ => false

/-- For every thread but `t`. -/
def Sys.others (S : Sys K V) (t : Nat) (q : Pc K V → Bool) : Bool :=
  (List.range S.pcs.length).all fun u => u == t || q (S.pc u)

theorem Sys.others_iff {S : Sys K V} {t : Nat} {q : Pc K V → Bool} (h : S.others t q = true) (hq : q .idle = true) :
    ∀ u, u ≠ t → q (S.pc u) = true := by
  intro u hu
  by_cases hl : u < S.pcs.length
  · have := (List.all_eq_true.1 h) u (List.mem_range.2 hl)
    simpa [hu] using this
  · rw [Sys.pc, List.getD_eq_getElem?_getD, List.getElem?_eq_none (by omega)]
    exact hq

/-- Thread `t` moves; if it is idle or done, it calls the operation given. -/
structure Ev (K V : Type) where
  t : Nat
  call : Option (Op K V) := none

def Sys.nowrap (S : Sys K V) : Bool :=
  S.pcs.all fun p => match p with
    | .insInc o c _ _ => decide (S.mem.cnt (S.mem.pos0 o.key) < c + 2 ^ 32)
    | _ => true

def Sys.step (cfg : Cfg) (S : Sys K V) (e : Ev K V) : Option (Sys K V) :=
  if e.t < S.pcs.length ∧ S.nowrap = true then
    match e.call with
    | some o => match S.pc e.t with
      | .idle => some ⟨S.mem, S.pcs.set e.t (.start o)⟩
      | .done _ => some ⟨S.mem, S.pcs.set e.t (.start o)⟩
      | _ => none
    | none =>
      match next S.mem (fun g => S.others e.t fun p => !isX g p.locks) (fun g => S.others e.t fun p => !isL g p.locks)
          (S.pc e.t) with
      | some r => some ⟨r.1, S.pcs.set e.t r.2⟩
      | none =>
        if S.pcs.all (fun p => !p.inside) then (nextAlone cfg S.mem (S.pc e.t)).map fun r => ⟨r.1, S.pcs.set e.t r.2⟩ else none
  else none

theorem Sys.set_state {S : Sys K V} {t : Nat} (ht : t < S.pcs.length) (m : Mem K V) (p : Pc K V) :
    Sys.state ⟨m, S.pcs.set t p⟩ = S.state.set t m p := by
  simp only [Sys.state, State.set]
  congr 1
  funext u
  simp only [Sys.pc, List.getD_eq_getElem?_getD, List.getElem?_set]
  split
  · rename_i h
    subst h
    simp
  · rename_i h
    rw [if_neg (fun h' => h h'.symm)]

theorem Sys.nowrap_sound {S : Sys K V} (h : S.nowrap = true) : NoWrap S.state := by
  intro t o c pb j hq
  simp only [Sys.state, Sys.pc] at hq
  by_cases hl : t < S.pcs.length
  · rw [List.getD_eq_getElem?_getD, List.getElem?_eq_getElem hl] at hq
    have := (List.all_eq_true.1 h) _ (List.getElem_mem hl)
    simp only [Option.getD_some] at hq
    rw [hq] at this
    exact of_decide_eq_true this
  · rw [List.getD_eq_getElem?_getD, List.getElem?_eq_none (by omega)] at hq
    cases hq

theorem Sys.step_sound {cfg : Cfg} {S S' : Sys K V} {e : Ev K V} (h : S.step cfg e = some S') :
    NoWrap S.state ∧ StepBy cfg e.t S.state S'.state := by
  simp only [Sys.step] at h
  split at h
  · rename_i hc
    obtain ⟨ht, hw⟩ := hc
    refine ⟨Sys.nowrap_sound hw, ?_⟩
    split at h
    · rename_i o ho
      split at h
      · rename_i hq
        cases h
        rw [Sys.set_state ht]
        exact .quiet (by rw [show S.state.pc e.t = _ from hq]; exact .call o)
      · rename_i r hq
        cases h
        rw [Sys.set_state ht]
        exact .quiet (by rw [show S.state.pc e.t = _ from hq]; exact .callAgain r o)
      · cases h
    · split at h
      · rename_i r hr
        cases h
        rw [Sys.set_state ht]
        have := next_sound (S := S.state.canS e.t) (X := S.state.canX e.t) (p' := r.2) (m' := r.1)
          (fun g hg u hu hl => by
            have h1 := Sys.others_iff hg rfl u hu
            rw [show (S.pc u).locks = _ from hl] at h1
            simp [isX] at h1)
          (fun g hg u hu md hl => by
            have h1 := Sys.others_iff hg rfl u hu
            rw [show (S.pc u).locks = _ from hl] at h1
            simp [isL] at h1) hr
        rcases this with ⟨h1, h2⟩ | h2
        · rw [h1]; exact .quiet h2
        · exact .eff h2
      · split at h
        · rename_i hall
          simp only [Option.map_eq_some_iff] at h
          obtain ⟨r, h1, h2⟩ := h
          cases h2
          rw [Sys.set_state ht]
          refine .alone (fun u => ?_) (nextAlone_sound h1)
          show (S.pc u).inside = false
          by_cases hl : u < S.pcs.length
          · rw [Sys.pc, List.getD_eq_getElem?_getD, List.getElem?_eq_getElem hl]
            have := (List.all_eq_true.1 hall) _ (List.getElem_mem hl)
            simpa using this
          · rw [Sys.pc, List.getD_eq_getElem?_getD, List.getElem?_eq_none (by omega)]
            rfl
        · cases h
  · cases h

def Sys.init (cfg : Cfg) (f : Fns K) (al n threads : Nat) : Sys K V :=
  ⟨⟨Table.mk_ cfg f al n, fun _ => 0⟩, List.replicate threads .idle⟩

/-- The state after some events. -/
def Sys.run (cfg : Cfg) (S : Sys K V) (es : List (Ev K V)) : Option (Sys K V) := es.foldlM (Sys.step cfg) S

theorem Sys.init_state (cfg : Cfg) (f : Fns K) (al n threads : Nat) :
    (Sys.init cfg f al n threads : Sys K V).state = Tab.init cfg f al n := by
  simp only [Sys.state, Sys.init, Tab.init, State.mk.injEq, true_and]
  funext u
  simp only [Sys.pc, List.getD_eq_getElem?_getD, List.getElem?_replicate]
  split <;> rfl

theorem Sys.run_reach {cfg : Cfg} {f : Fns K} {al n : Nat} : ∀ {es : List (Ev K V)} {S S' : Sys K V},
    Reach cfg f al n S.state → S.run cfg es = some S' → Reach cfg f al n S'.state
  | [], S, S', hr, h => by cases h; exact hr
  | e :: es, S, S', hr, h => by
    simp only [Sys.run, List.foldlM_cons, Option.bind_eq_bind, Option.bind_eq_some_iff] at h
    obtain ⟨S1, h1, h2⟩ := h
    obtain ⟨h3, h4⟩ := Sys.step_sound h1
    exact Sys.run_reach (.step hr h3 ⟨_, h4⟩) h2

/-- The run of the events: state number `i`. -/
def Sys.trace (cfg : Cfg) (S : Sys K V) (es : List (Ev K V)) (i : Nat) : State K V := ((S.run cfg (es.take i)).getD S).state

def who (es : List (Ev K V)) (i : Nat) : Nat := ((es[i]?).map Ev.t).getD 0

theorem Sys.run_append {cfg : Cfg} {S : Sys K V} {a b : List (Ev K V)} :
    S.run cfg (a ++ b) = (S.run cfg a).bind fun T => T.run cfg b := by
  simp [Sys.run, List.foldlM_append]

theorem Sys.trace_run {cfg : Cfg} {S S' : Sys K V} {es : List (Ev K V)} (h : S.run cfg es = some S') :
    Run cfg (S.trace cfg es) (who es) es.length := by
  have key : ∀ i < es.length, ∃ S1 S2 e, S.run cfg (es.take i) = some S1 ∧ S.run cfg (es.take (i + 1)) = some S2 ∧
      S1.step cfg e = some S2 ∧ who es i = e.t := by
    intro i hi
    have h1 : es = es.take i ++ es[i] :: es.drop (i + 1) := by
      rw [List.cons_getElem_drop_succ, List.take_append_drop]
    have h2 : es.take (i + 1) = es.take i ++ [es[i]] := by rw [List.take_add_one, List.getElem?_eq_getElem hi]; rfl
    rw [h1, Sys.run_append, Option.bind_eq_some_iff] at h
    obtain ⟨S1, h3, h4⟩ := h
    simp only [Sys.run, List.foldlM_cons, Option.bind_eq_bind, Option.bind_eq_some_iff] at h4
    obtain ⟨S2, h5, _⟩ := h4
    refine ⟨S1, S2, es[i], h3, ?_, h5, ?_⟩
    · rw [h2, Sys.run_append, h3, Option.bind_some]
      simp only [Sys.run, List.foldlM_cons, List.foldlM_nil, h5]
      rfl
    · simp [who, List.getElem?_eq_getElem hi]
  constructor
  · intro i hi
    obtain ⟨S1, S2, e, h1, h2, h3, h4⟩ := key i hi
    simp only [Sys.trace, h1, h2, Option.getD_some, h4]
    exact (Sys.step_sound h3).2
  · intro i hi
    obtain ⟨S1, S2, e, h1, h2, h3, h4⟩ := key i hi
    simp only [Sys.trace, h1, Option.getD_some]
    exact (Sys.step_sound h3).1

/-! ### for examples -/

def Pc.answer : Pc K V → Option Nat
  | .done r => some r
  | _ => none

theorem Pc.answer_eq {p : Pc K V} {r : Nat} (h : p.answer = some r) : p = .done r := by
  cases p <;> simp only [Pc.answer] at h <;> cases h; rfl

def Ev.go (t : Nat) : Ev K V := ⟨t, none⟩
def Ev.op (t : Nat) (o : Op K V) : Ev K V := ⟨t, some o⟩

/-- A thread that has returned calls another operation. -/
def Sys.call (S : Sys K V) (t : Nat) (o : Op K V) : Sys K V := ⟨S.mem, S.pcs.set t (.start o)⟩

theorem Sys.call_step {cfg : Cfg} {S : Sys K V} {t r : Nat} {o : Op K V} (ht : t < S.pcs.length)
    (hr : (S.pc t).answer = some r) : StepBy cfg t S.state (S.call t o).state ∧ (S.call t o).state.pc t = .start o := by
  rw [Sys.call, Sys.set_state ht]
  refine ⟨.quiet ?_, by simp [State.set]⟩
  rw [show S.state.pc t = _ from Pc.answer_eq hr]
  exact .callAgain r o

end Conc.Tab

/-
An executable scheduler for the concurrent table with exceptions, proved to make only steps of the model. Used to exhibit
concrete runs.
-/
import Verif.Conc.ExcLin
import Verif.Conc.TabRun

namespace Conc.Exc
open Foa Conc.Tab
open Conc.Locking (Mode)

variable {K V : Type}

/-- The call a thread is about to make throws; `ctor`: in an insertion, that of the constructor and not of the callback; `v`:
the mapped value a callback with write access leaves. -/
def nextThrow (may : Call → Bool) (m : Mem K V) (ctor : Bool) (v : V) : Pc K V → Option (Mem K V × Pc K V)
  | .start (.key _) => if may .hash then some (m, .leave 0) else none
  | .check o _ pb (j :: _) => if may .eq = true ∧ (m.grp pb.pos).md j ≠ 0 then some (m, .unlock pb.pos o.mode 0) else none
  | .hit o pb j => match m.slot pb.pos j with
      | none => none
      | some y => if may .pred then some (m.call o.mode pb.pos j y v, .unlock pb.pos o.mode 0) else none
  | .insInc o c pb j =>
      if m.cnt (m.pos0 o.key) % 2 ^ 32 = c % 2 ^ 32 then
        match m.slot pb.pos j with
        | some _ => none
        | none =>
          if ctor then if may .construct then some (m.incCnt (m.pos0 o.key), .rollReset o pb j) else none else
          match o with
          | .insert _ x _ _ =>
            if may .pred then some ((m.incCnt (m.pos0 x.1)).setSlot pb.pos j (some (x.1, v)), .unlock pb.pos .excl 0) else none
          | _ => none
      else none
  | .swAt md _ g (j :: _) r => match m.slot g j with
      | none => none
      | some y => if may .pred then some (m.call md g j y v, .unlock g md r) else none
  | _ => none

theorem nextThrow_sound {may : Call → Bool} {m m' : Mem K V} {ctor : Bool} {v : V} {p p' : Pc K V} (h : nextThrow may m ctor v p = some (m', p')) :
    Throw may m p m' p' := by
  cases p with
  | start o =>
    cases o with
    | key o =>
      simp only [nextThrow] at h
      split at h <;> cases h
      exact .hash o (by assumption)
    | sweep md act => cases h
    | ex e => cases h
  | check o c pb ms =>
    cases ms with
    | nil => cases h
    | cons j ms =>
      simp only [nextThrow] at h
      split at h <;> cases h
      rename_i hc
      exact .eq o c pb j ms hc.1 hc.2
  | hit o pb j =>
    simp only [nextThrow] at h
    split at h
    · cases h
    split at h <;> cases h
    cases o with
    | visit md k f => exact .visit md k f pb j _ v (by assumption) (by assumption)
    | insert md x f2 f1 => exact .found md x f2 f1 pb j _ v (by assumption) (by assumption)
    | erase k p => exact .erase k p pb j _ v (by assumption) (by assumption)
  | insInc o c pb j =>
    simp only [nextThrow] at h
    split at h
    · rename_i hc
      split at h
      · cases h
      · rename_i hn
        split at h
        · split at h <;> cases h
          exact .construct o c pb j (by assumption) hc hn
        · split at h
          · split at h <;> cases h
            exact .inserted _ _ _ _ c pb j v (by assumption) hc hn
          · cases h
    · cases h
  | swAt md act g js r =>
    cases js with
    | nil => cases h
    | cons j js =>
      simp only [nextThrow] at h
      split at h
      · cases h
      split at h <;> cases h
      exact .pass md act g j js r _ v (by assumption) (by assumption)
  | _ => cases h

def nextThrowAlone (may : Call → Bool) (mv : Bool) (cfg : Cfg) (m : Mem K V) (env : Env) : Pc K V → Option (Mem K V × Pc K V)
  | .start (.ex e) => match runX may mv cfg m.tab env e with
      | .threw _ t' => some (⟨t', m.cnt⟩, .done 0)
      | _ => none
  | .full _ => match rehashIfFullX may mv cfg m.tab env with
      | .threw _ t' => some (⟨t', m.cnt⟩, .done 0)
      | _ => none
  | _ => none

theorem nextThrowAlone_sound {may : Call → Bool} {mv : Bool} {cfg : Cfg} {m m' : Mem K V} {env : Env} {p p' : Pc K V}
    (h : nextThrowAlone may mv cfg m env p = some (m', p')) : ThrowAlone may mv cfg m p m' p' := by
  cases p with
  | start o =>
    cases o with
    | ex e =>
      simp only [nextThrowAlone] at h
      split at h <;> cases h
      exact .ex e _ env _ (by assumption)
    | key o => cases h
    | sweep md act => cases h
  | full o =>
    simp only [nextThrowAlone] at h
    split at h <;> cases h
    exact .grow o _ env _ (by assumption)
  | _ => cases h

structure XSys (K V : Type) where
  sys : Sys K V
  excs : List Bool

def XSys.state (S : XSys K V) : XState K V := ⟨S.sys.state, fun u => S.excs.getD u false⟩

/-- What a thread does next: a step, a call, the call it is about to make throws, its exclusive section throws. -/
inductive XAct (K V : Type) where
  | go
  | call (o : Op K V)
  | throw (ctor : Bool) (v : V)
  | throwAlone (env : Env)

structure XEv (K V : Type) where
  t : Nat
  act : XAct K V

def XSys.step (may : Call → Bool) (mv : Bool) (cfg : Cfg) (S : XSys K V) (e : XEv K V) : Option (XSys K V) :=
  if e.t < S.sys.pcs.length ∧ e.t < S.excs.length ∧ S.sys.nowrap = true then
    match e.act with
    | .call o => (S.sys.step cfg ⟨e.t, some o⟩).map fun T => ⟨T, S.excs.set e.t false⟩
    | .go =>
      match S.excs.getD e.t false, S.sys.pc e.t with
      | true, .counter _ => some ⟨⟨S.sys.mem, S.sys.pcs.set e.t (.leave 0)⟩, S.excs⟩
      | _, p => if resting p then none else (S.sys.step cfg ⟨e.t, none⟩).map fun T => ⟨T, S.excs⟩
    | .throw ctor v => (nextThrow may S.sys.mem ctor v (S.sys.pc e.t)).map fun r =>
        ⟨⟨r.1, S.sys.pcs.set e.t r.2⟩, S.excs.set e.t true⟩
    | .throwAlone env =>
      if S.sys.pcs.all (fun p => !p.inside) then
        (nextThrowAlone may mv cfg S.sys.mem env (S.sys.pc e.t)).map fun r => ⟨⟨r.1, S.sys.pcs.set e.t r.2⟩, S.excs.set e.t true⟩
      else none
  else none

theorem excs_set {l : List Bool} {t : Nat} (ht : t < l.length) (b : Bool) :
    (fun u => (l.set t b).getD u false) = fun u => if u = t then b else l.getD u false := by
  funext u
  simp only [List.getD_eq_getElem?_getD, List.getElem?_set]
  split
  · rename_i h; subst h; simp
  · rename_i h; rw [if_neg (fun h' => h h'.symm)]

theorem all_outside {S : Sys K V} (h : S.pcs.all (fun p => !p.inside) = true) (u : Nat) : (S.state.pc u).inside = false := by
  show (S.pc u).inside = false
  by_cases hl : u < S.pcs.length
  · rw [Sys.pc, List.getD_eq_getElem?_getD, List.getElem?_eq_getElem hl]
    have := (List.all_eq_true.1 h) _ (List.getElem_mem hl)
    simpa using this
  · rw [Sys.pc, List.getD_eq_getElem?_getD, List.getElem?_eq_none (by omega)]
    rfl

theorem XSys.step_sound {may : Call → Bool} {mv : Bool} {cfg : Cfg} {S S' : XSys K V} {e : XEv K V} (h : S.step may mv cfg e = some S') :
    NoWrap S.state.st ∧ XStepBy may mv cfg e.t S.state S'.state := by
  simp only [XSys.step] at h
  split at h
  · rename_i hc
    obtain ⟨ht, hte, hw⟩ := hc
    refine ⟨Sys.nowrap_sound hw, ?_⟩
    split at h
    · rename_i o ho
      simp only [Option.map_eq_some_iff] at h
      obtain ⟨T, h1, rfl⟩ := h
      have hs := (Sys.step_sound h1).2
      have hrest : resting (S.sys.pc e.t) = true ∧ ∀ o, S.sys.pc e.t ≠ .counter o := by
        simp only [Sys.step, ht, hw, and_self, if_true] at h1
        split at h1
        · rename_i hq; rw [hq]; exact ⟨rfl, fun _ h => by cases h⟩
        · rename_i hq; rw [hq]; exact ⟨rfl, fun _ h => by cases h⟩
        · cases h1
      have hst : XSys.state ⟨T, S.excs.set e.t false⟩ =
          ⟨T.state, fun u => if u = e.t ∧ resting (S.state.st.pc e.t) = true then false else S.state.exc u⟩ := by
        simp only [XSys.state, XState.mk.injEq, true_and]
        rw [excs_set hte]
        funext u
        by_cases hu : u = e.t
        · have hc : u = e.t ∧ resting (S.state.st.pc e.t) = true := ⟨hu, hrest.1⟩
          exact (if_pos hu).trans (if_pos hc).symm
        · have hc : ¬ (u = e.t ∧ resting (S.state.st.pc e.t) = true) := fun h => hu h.1
          exact (if_neg hu).trans (if_neg hc).symm
      rw [hst]
      exact .base hs (fun _ => hrest.2)
    · split at h
      · rename_i o hx hq
        cases h
        have hst : XSys.state ⟨⟨S.sys.mem, S.sys.pcs.set e.t (.leave 0)⟩, S.excs⟩ =
            ⟨S.state.st.set e.t S.state.st.mem (.leave 0), S.state.exc⟩ := by
          simp only [XSys.state, Sys.set_state ht]; rfl
        rw [hst]
        exact .unwound hx hq
      · rename_i b p hne
        split at h
        · cases h
        · rename_i hr
          simp only [Option.map_eq_some_iff] at h
          obtain ⟨T, h1, rfl⟩ := h
          have hs := (Sys.step_sound h1).2
          have hst : XSys.state ⟨T, S.excs⟩ =
              ⟨T.state, fun u => if u = e.t ∧ resting (S.state.st.pc e.t) = true then false else S.state.exc u⟩ := by
            simp only [XSys.state, XState.mk.injEq, true_and]
            funext u
            have hc : ¬ (u = e.t ∧ resting (S.state.st.pc e.t) = true) := fun h => hr h.2
            exact (if_neg hc).symm
          rw [hst]
          refine .base hs (fun hb o ho => ?_)
          exact hne o hb ho
    · rename_i ctor v ha
      simp only [Option.map_eq_some_iff] at h
      obtain ⟨r, h1, rfl⟩ := h
      have hst : XSys.state ⟨⟨r.1, S.sys.pcs.set e.t r.2⟩, S.excs.set e.t true⟩ =
          ⟨S.state.st.set e.t r.1 r.2, fun u => if u = e.t then true else S.state.exc u⟩ := by
        simp only [XSys.state, Sys.set_state ht, excs_set hte]
      rw [hst]
      exact .throw (nextThrow_sound h1)
    · rename_i env ha
      split at h
      · rename_i hall
        simp only [Option.map_eq_some_iff] at h
        obtain ⟨r, h1, rfl⟩ := h
        have hst : XSys.state ⟨⟨r.1, S.sys.pcs.set e.t r.2⟩, S.excs.set e.t true⟩ =
            ⟨S.state.st.set e.t r.1 r.2, fun u => if u = e.t then true else S.state.exc u⟩ := by
          simp only [XSys.state, Sys.set_state ht, excs_set hte]
        rw [hst]
        exact .alone (all_outside hall) (nextThrowAlone_sound h1)
      · cases h
  · cases h

def XSys.run (may : Call → Bool) (mv : Bool) (cfg : Cfg) (S : XSys K V) (es : List (XEv K V)) : Option (XSys K V) := es.foldlM (XSys.step may mv cfg) S

def XSys.init (cfg : Cfg) (f : Fns K) (al n threads : Nat) : XSys K V := ⟨Sys.init cfg f al n threads, List.replicate threads false⟩

theorem XSys.init_state (cfg : Cfg) (f : Fns K) (al n threads : Nat) :
    (XSys.init cfg f al n threads : XSys K V).state = Exc.init cfg f al n := by
  simp only [XSys.state, XSys.init, Exc.init, Sys.init_state, XState.mk.injEq, true_and]
  funext u
  simp only [List.getD_eq_getElem?_getD, List.getElem?_replicate]
  split <;> rfl

theorem XSys.run_reach {may : Call → Bool} {mv : Bool} {cfg : Cfg} {f : Fns K} {al n : Nat} : ∀ {es : List (XEv K V)} {S S' : XSys K V},
    XReach may mv cfg f al n S.state → S.run may mv cfg es = some S' → XReach may mv cfg f al n S'.state
  | [], S, S', hr, h => by cases h; exact hr
  | e :: es, S, S', hr, h => by
    simp only [XSys.run, List.foldlM_cons, Option.bind_eq_bind, Option.bind_eq_some_iff] at h
    obtain ⟨S1, h1, h2⟩ := h
    obtain ⟨h3, h4⟩ := XSys.step_sound h1
    exact XSys.run_reach (.step hr h3 h4) h2

def XSys.trace (may : Call → Bool) (mv : Bool) (cfg : Cfg) (S : XSys K V) (es : List (XEv K V)) (i : Nat) : XState K V :=
  ((S.run may mv cfg (es.take i)).getD S).state

def xwho (es : List (XEv K V)) (i : Nat) : Nat := ((es[i]?).map XEv.t).getD 0

theorem XSys.run_append {may : Call → Bool} {mv : Bool} {cfg : Cfg} {S : XSys K V} {a b : List (XEv K V)} :
    S.run may mv cfg (a ++ b) = (S.run may mv cfg a).bind fun T => T.run may mv cfg b := by
  simp [XSys.run, List.foldlM_append]

theorem XSys.trace_run {may : Call → Bool} {mv : Bool} {cfg : Cfg} {S S' : XSys K V} {es : List (XEv K V)} (h : S.run may mv cfg es = some S') :
    XRun may mv cfg (S.trace may mv cfg es) (xwho es) es.length := by
  have key : ∀ i < es.length, ∃ S1 S2 e, S.run may mv cfg (es.take i) = some S1 ∧ S.run may mv cfg (es.take (i + 1)) = some S2 ∧
      S1.step may mv cfg e = some S2 ∧ xwho es i = e.t := by
    intro i hi
    have h1 : es = es.take i ++ es[i] :: es.drop (i + 1) := by
      rw [List.cons_getElem_drop_succ, List.take_append_drop]
    have h2 : es.take (i + 1) = es.take i ++ [es[i]] := by rw [List.take_add_one, List.getElem?_eq_getElem hi]; rfl
    rw [h1, XSys.run_append, Option.bind_eq_some_iff] at h
    obtain ⟨S1, h3, h4⟩ := h
    simp only [XSys.run, List.foldlM_cons, Option.bind_eq_bind, Option.bind_eq_some_iff] at h4
    obtain ⟨S2, h5, _⟩ := h4
    refine ⟨S1, S2, es[i], h3, ?_, h5, ?_⟩
    · rw [h2, XSys.run_append, h3, Option.bind_some]
      simp only [XSys.run, List.foldlM_cons, List.foldlM_nil, h5]
      rfl
    · simp [xwho, List.getElem?_eq_getElem hi]
  constructor
  · intro i hi
    obtain ⟨S1, S2, e, h1, h2, h3, h4⟩ := key i hi
    simp only [XSys.trace, h1, h2, Option.getD_some, h4]
    exact (XSys.step_sound h3).2
  · intro i hi
    obtain ⟨S1, S2, e, h1, h2, h3, h4⟩ := key i hi
    simp only [XSys.trace, h1, Option.getD_some]
    exact (XSys.step_sound h3).1

def XEv.go (t : Nat) : XEv K V := ⟨t, .go⟩
def XEv.op (t : Nat) (o : Op K V) : XEv K V := ⟨t, .call o⟩
def XEv.throw (t : Nat) (ctor : Bool) (v : V) : XEv K V := ⟨t, .throw ctor v⟩
def XEv.throwAlone (t : Nat) (env : Env) : XEv K V := ⟨t, .throwAlone env⟩

end Conc.Exc

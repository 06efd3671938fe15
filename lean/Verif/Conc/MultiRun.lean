/-
Executable runs of systems of several concurrent containers, for examples.
-/
import Verif.Conc.MultiInv
import Verif.Conc.TabRun

namespace Conc.Multi
open Foa Conc.Tab

variable {K V : Type}

/-- Finitely many containers and threads. -/
structure MSys (K V : Type) where
  cs : List (Sys K V)
  two : List (TPc K V)

def MSys.state (c : MCfg) (f : Fns K) (S : MSys K V) : MState K V :=
  ⟨fun d => match S.cs[d]? with | some x => x.mem | none => ⟨Table.mk_ c.toCfg f 0 0, fun _ => 0⟩,
   fun u d => match S.cs[d]? with | some x => x.pc u | none => .idle,
   fun u => S.two.getD u .idle⟩

inductive MEv (K V : Type) where
  | one (d : Nat) (e : Ev K V)
  | call (t : Nat) (o : COp K V)
  | exec (t : Nat)

def MEv.who : MEv K V → Nat
  | .one _ e => e.t
  | .call t _ => t
  | .exec t => t

def MEv.loc : MEv K V → Option Nat
  | .one d _ => some d
  | _ => none

/-- The precondition, where it can be tested. -/
def COp.preb (c : MCfg) (tabs : Nat → Table K V) : COp K V → Bool
  | .construct _ _ _ _ | .merge _ _ => false
  | .copyConstruct r q _ | .moveConstruct r q | .moveConstructAlloc r q _ => decide (r ≠ q)
  | .swap r q => c.pocs || decide ((tabs r).al = (tabs q).al)
  | _ => true

theorem COp.preb_sound {c : MCfg} {tabs : Nat → Table K V} {o : COp K V} (h : o.preb c tabs = true) : o.Pre c tabs := by
  cases o <;> simp only [COp.preb, Bool.or_eq_true, decide_eq_true_eq] at h <;> first | exact h | trivial

def TPc.op : TPc K V → Option (COp K V)
  | .called o => some o
  | _ => none

def TPc.rest : TPc K V → Bool
  | .idle | .done _ => true
  | _ => false

def Sys.quiet (x : Sys K V) : Bool := x.pcs.all fun p => !p.inside
def Sys.resting (x : Sys K V) : Bool := x.pcs.all atRest

/-- All of the containers involved satisfy a test. -/
def MSys.all (S : MSys K V) (ds : List Nat) (q : Sys K V → Bool) : Bool :=
  ds.all fun d => match S.cs[d]? with | some x => q x | none => false

def MSys.free (S : MSys K V) (t : Nat) (o : COp K V) : Bool :=
  S.all o.uses (fun x => Sys.quiet x && atRest (x.pc t)) && S.all o.builds.toList Sys.resting

/-- The containers after an operation. -/
def MSys.setTabs (S : MSys K V) (tabs : Nat → Table K V) : List (Sys K V) :=
  S.cs.mapIdx fun d x => ⟨⟨tabs d, x.mem.cnt⟩, x.pcs⟩

def MSys.step (c : MCfg) (veq : K × V → K × V → Bool) (f : Fns K) (S : MSys K V) (e : MEv K V) : Option (MSys K V) :=
  if S.cs.all Sys.nowrap then
    match e with
    | .one d e =>
      match S.cs[d]? with
      | some x => (x.step c.toCfg e).map fun y => ⟨S.cs.set d y, S.two⟩
      | none => none
    | .call t o => if t < S.two.length ∧ (S.two.getD t .idle).rest = true then some ⟨S.cs, S.two.set t (.called o)⟩ else none
    | .exec t =>
      match (S.two.getD t .idle).op with
      | none => none
      | some o =>
        if t < S.two.length ∧ S.free t o = true ∧ o.preb c (S.state c f).tabs = true then
          match Foa.step c veq (S.state c f).tabs o.op with
          | none => none
          | some (tabs', res) => some ⟨S.setTabs tabs', S.two.set t (.done (o.answer (S.state c f).tabs tabs' res))⟩
        else none
  else none

def MSys.run (c : MCfg) (veq : K × V → K × V → Bool) (f : Fns K) (S : MSys K V) (es : List (MEv K V)) : Option (MSys K V) :=
  es.foldlM (MSys.step c veq f) S

theorem getD_set {α : Type} {l : List α} {t : Nat} (h : t < l.length) (x d : α) (u : Nat) :
    (l.set t x).getD u d = if u = t then x else l.getD u d := by
  simp only [List.getD_eq_getElem?_getD, List.getElem?_set]
  by_cases hu : u = t
  · subst hu; simp [h]
  · simp [hu, Ne.symm hu]

theorem MSys.view {c : MCfg} {f : Fns K} {S : MSys K V} {d : Nat} {x : Sys K V} (h : S.cs[d]? = some x) :
    (S.state c f).view d = x.state := by
  simp only [MSys.state, MState.view, h, Sys.state]

theorem MSys.nowrap_sound {c : MCfg} {f : Fns K} {S : MSys K V} (h : S.cs.all Sys.nowrap = true) : MNoWrap (S.state c f) := by
  intro d
  cases hd : S.cs[d]? with
  | some x =>
    rw [MSys.view hd]
    exact Sys.nowrap_sound (List.all_eq_true.1 h x (List.mem_of_getElem? hd))
  | none =>
    intro t o cn pb j hq
    simp only [MSys.state, MState.view, hd] at hq
    cases hq

theorem MSys.all_sound {S : MSys K V} {ds : List Nat} {q : Sys K V → Bool} (h : S.all ds q = true) {d : Nat} (hd : d ∈ ds) :
    ∃ x, S.cs[d]? = some x ∧ q x = true := by
  have := List.all_eq_true.1 h d hd
  split at this
  · rename_i x hx; exact ⟨x, hx, this⟩
  · cases this

theorem Sys.all_pc {x : Sys K V} {q : Pc K V → Bool} (h : x.pcs.all q = true) (hi : q .idle = true) (u : Nat) : q (x.pc u) = true := by
  unfold Sys.pc
  rw [List.getD_eq_getElem?_getD]
  cases hu : x.pcs[u]? with
  | none => exact hi
  | some p => exact List.all_eq_true.1 h p (List.mem_of_getElem? hu)

theorem MSys.free_sound {c : MCfg} {f : Fns K} {S : MSys K V} {t : Nat} {o : COp K V} (h : S.free t o = true) :
    Free (S.state c f) t o := by
  simp only [MSys.free, Bool.and_eq_true] at h
  refine ⟨fun u d hd => ?_, fun d hd => ?_, fun r hr u => ?_⟩
  · obtain ⟨x, hx, hq⟩ := MSys.all_sound h.1 hd
    simp only [Bool.and_eq_true] at hq
    simp only [MSys.state, hx]
    have := Sys.all_pc (q := fun p => !p.inside) hq.1 rfl u
    simpa using this
  · obtain ⟨x, hx, hq⟩ := MSys.all_sound h.1 hd
    simp only [Bool.and_eq_true] at hq
    simp only [MSys.state, hx]
    exact hq.2
  · obtain ⟨x, hx, hq⟩ := MSys.all_sound h.2 (d := r) (by rw [hr]; exact List.mem_cons_self)
    simp only [MSys.state, hx]
    exact Sys.all_pc (q := atRest) hq rfl u

theorem MSys.step_sound {c : MCfg} {veq : K × V → K × V → Bool} {f : Fns K} {S S' : MSys K V} {e : MEv K V}
    (hi : MInv (S.state c f)) (h : S.step c veq f e = some S') :
    MNoWrap (S.state c f) ∧ MStepBy c veq e.who (S.state c f) e.loc (S'.state c f) := by
  simp only [MSys.step] at h
  split at h
  · rename_i hw
    refine ⟨MSys.nowrap_sound hw, ?_⟩
    cases e with
    | one d e =>
      simp only at h
      split at h
      · rename_i x hx
        simp only [Option.map_eq_some_iff] at h
        obtain ⟨y, h1, h2⟩ := h
        cases h2
        have hlen : d < S.cs.length := by
          by_contra hc
          rw [List.getElem?_eq_none (by omega)] at hx
          cases hx
        have h3 := (Sys.step_sound h1).2
        have : MSys.state c f ⟨S.cs.set d y, S.two⟩ = (S.state c f).put d y.state := by
          simp only [MSys.state, MState.put, MState.mk.injEq, and_true]
          constructor
          · funext e'
            by_cases he : e' = d
            · subst he; simp [hlen, Sys.state]
            · simp [he, Ne.symm he]
          · funext u e'
            by_cases he : e' = d
            · subst he; simp [hlen, Sys.state]
            · simp [he, Ne.symm he]
        rw [this]
        refine .one d y.state ?_
        rw [MSys.view hx]
        exact h3
      · cases h
    | call t o =>
      simp only at h
      split at h
      · rename_i hc
        obtain ⟨h1, h2⟩ := hc
        cases h
        have : MSys.state c f ⟨S.cs, S.two.set t (.called o)⟩ =
            ⟨(S.state c f).mem, (S.state c f).pc, fun u => if u = t then .called o else (S.state c f).two u⟩ := by
          simp only [MSys.state, MState.mk.injEq, true_and]
          funext u
          exact getD_set h1 _ _ u
        rw [this]
        refine .call o ?_
        show S.two.getD t .idle = .idle ∨ ∃ r, S.two.getD t .idle = .done r
        generalize S.two.getD t .idle = p at h2
        cases p with
        | idle => exact .inl rfl
        | done r => exact .inr ⟨r, rfl⟩
        | _ => cases h2
      · cases h
    | exec t =>
      simp only at h
      split at h
      · cases h
      · rename_i o ho
        split at h
        · rename_i hc
          obtain ⟨h1, h2, h3⟩ := hc
          split at h
          · cases h
          · rename_i tabs' res hs
            cases h
            have hf := MSys.free_sound (c := c) (f := f) h2
            have hp := COp.preb_sound h3
            obtain ⟨tabs2, res2, e1, _, _, e4⟩ := exec_spec c veq o (hi.uses hf) hp
            rw [hs] at e1
            cases e1
            have hcalled : (S.state c f).two t = .called o := by
              simp only [MSys.state]
              generalize S.two.getD t .idle = p at ho
              cases p <;> simp only [TPc.op] at ho <;> cases ho
              rfl
            have hout : ∀ d, S.cs[d]? = none → d ∉ o.uses := by
              intro d hd hu
              simp only [MSys.free, Bool.and_eq_true] at h2
              obtain ⟨x, hx, _⟩ := MSys.all_sound h2.1 hu
              rw [hd] at hx
              cases hx
            have : MSys.state c f ⟨S.setTabs tabs', S.two.set t (.done (o.answer (S.state c f).tabs tabs' res))⟩ =
                ⟨fun d => ⟨tabs' d, ((S.state c f).mem d).cnt⟩, (S.state c f).pc,
                  fun u => if u = t then .done (o.answer (S.state c f).tabs tabs' res) else (S.state c f).two u⟩ := by
              simp only [MSys.state, MSys.setTabs, MState.mk.injEq, List.getElem?_mapIdx]
              refine ⟨?_, ?_, ?_⟩
              · funext d
                cases hd : S.cs[d]? with
                | none =>
                  have := e4 d (hout d hd)
                  rw [this]
                  simp [MState.tabs, MSys.state, hd]
                | some x => rfl
              · funext u d
                cases hd : S.cs[d]? with
                | none => rfl
                | some x => rfl
              · funext u
                exact getD_set h1 _ _ u
            rw [this]
            exact .exec o tabs' res _ hcalled hf hp hs (fun d _ => rfl)
        · cases h
  · cases h

theorem MSys.run_reach {c : MCfg} {veq : K × V → K × V → Bool} {f : Fns K} (hf : f.Lawful) :
    ∀ {es : List (MEv K V)} {S S' : MSys K V},
    MReach c veq f (S.state c f) → S.run c veq f es = some S' → MReach c veq f (S'.state c f)
  | [], S, S', hr, h => by cases h; exact hr
  | e :: es, S, S', hr, h => by
    simp only [MSys.run, List.foldlM_cons, Option.bind_eq_bind, Option.bind_eq_some_iff] at h
    obtain ⟨S1, h1, h2⟩ := h
    obtain ⟨h3, h4⟩ := MSys.step_sound (hr.inv hf) h1
    exact MSys.run_reach hf (.step hr h3 h4) h2

def MSys.trace (c : MCfg) (veq : K × V → K × V → Bool) (f : Fns K) (S : MSys K V) (es : List (MEv K V)) (i : Nat) : MState K V :=
  ((S.run c veq f (es.take i)).getD S).state c f

def whoM (es : List (MEv K V)) (i : Nat) : Nat := ((es[i]?).map MEv.who).getD 0
def locM (es : List (MEv K V)) (i : Nat) : Option Nat := ((es[i]?).map MEv.loc).getD none

theorem MSys.run_append {c : MCfg} {veq : K × V → K × V → Bool} {f : Fns K} {S : MSys K V} {a b : List (MEv K V)} :
    S.run c veq f (a ++ b) = (S.run c veq f a).bind fun T => T.run c veq f b := by
  simp [MSys.run, List.foldlM_append]

theorem MSys.trace_run {c : MCfg} {veq : K × V → K × V → Bool} {f : Fns K} (hf : f.Lawful) {S S' : MSys K V} {es : List (MEv K V)}
    (hr : MReach c veq f (S.state c f)) (h : S.run c veq f es = some S') :
    MRun c veq (S.trace c veq f es) (whoM es) (locM es) es.length := by
  have key : ∀ i < es.length, ∃ S1 S2 e, S.run c veq f (es.take i) = some S1 ∧ S.run c veq f (es.take (i + 1)) = some S2 ∧
      S1.step c veq f e = some S2 ∧ whoM es i = e.who ∧ locM es i = e.loc := by
    intro i hi
    have h1 : es = es.take i ++ es[i] :: es.drop (i + 1) := by
      rw [List.cons_getElem_drop_succ, List.take_append_drop]
    have h2 : es.take (i + 1) = es.take i ++ [es[i]] := by rw [List.take_add_one, List.getElem?_eq_getElem hi]; rfl
    rw [h1, MSys.run_append, Option.bind_eq_some_iff] at h
    obtain ⟨S1, h3, h4⟩ := h
    simp only [MSys.run, List.foldlM_cons, Option.bind_eq_bind, Option.bind_eq_some_iff] at h4
    obtain ⟨S2, h5, _⟩ := h4
    refine ⟨S1, S2, es[i], h3, ?_, h5, ?_, ?_⟩
    · rw [h2, MSys.run_append, h3, Option.bind_some]
      simp only [MSys.run, List.foldlM_cons, List.foldlM_nil, h5]
      rfl
    · simp [whoM, List.getElem?_eq_getElem hi]
    · simp [locM, List.getElem?_eq_getElem hi]
  constructor
  · intro i hi
    obtain ⟨S1, S2, e, h1, h2, h3, h4, h5⟩ := key i hi
    simp only [MSys.trace, h1, h2, Option.getD_some, h4, h5]
    exact (MSys.step_sound ((MSys.run_reach hf hr h1).inv hf) h3).2
  · intro i hi
    obtain ⟨S1, S2, e, h1, h2, h3, h4, h5⟩ := key i hi
    simp only [MSys.trace, h1, Option.getD_some]
    exact (MSys.step_sound ((MSys.run_reach hf hr h1).inv hf) h3).1

/-- `n` new containers. -/
def MSys.init (c : MCfg) (f : Fns K) (n threads : Nat) : MSys K V :=
  ⟨List.replicate n (Sys.init c.toCfg f 0 0 threads), List.replicate threads .idle⟩

theorem MSys.init_state (c : MCfg) (f : Fns K) (n threads : Nat) : (MSys.init c f n threads : MSys K V).state c f = minit c f := by
  simp only [MSys.state, MSys.init, minit, MState.mk.injEq, List.getElem?_replicate]
  refine ⟨?_, ?_, ?_⟩
  · funext d
    split
    · rename_i x hx
      split at hx
      · cases hx; rfl
      · cases hx
    · rfl
  · funext u d
    split
    · rename_i x hx
      split at hx
      · cases hx
        simp only [Sys.pc, Sys.init, List.getD_eq_getElem?_getD, List.getElem?_replicate]
        split <;> rfl
      · cases hx
    · rfl
  · funext u
    simp only [List.getD_eq_getElem?_getD, List.getElem?_replicate]
    split <;> rfl

end Conc.Multi

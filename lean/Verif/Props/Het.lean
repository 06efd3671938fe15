/-
C59: calls with arguments of another type than the key type (transparent hash function and key equality) mean the same as calls
with an equal key, in every container, in any mixture with the ordinary calls.
-/
import Verif.Foa.HetLemmas
import Verif.Fca.HetLemmas
import Verif.Props.FoaMap

namespace Props.HetP
open Spec (Res upd)
open SpecHet (Het Call Compat)
variable {K V Q : Type}

/-- the answer determines the elements afterwards, up to order -/
theorem step_det {H : Het K Q} {l l1 l2 : List (K × V)} {call : Call Q V} {res : Res K V} (h1 : SpecHet.Step H l call res l1)
    (h2 : SpecHet.Step H l call res l2) : l1.Perm l2 := by
  cases call with
  | find q => rw [h1.1, h2.1]
  | contains q => rw [h1.1, h2.1]
  | count q => rw [h1.1, h2.1]
  | equalRange q => rw [h1.1, h2.1]
  | «at» q => rw [h1.1, h2.1]
  | erase q => rw [h1.2, h2.2]
  | extract q =>
    rcases h1 with ⟨e, r, a1, a2, a3, rfl⟩ | ⟨a1, a2, rfl⟩ <;> rcases h2 with ⟨e', r', b1, b2, b3, rfl⟩ | ⟨b1, b2, rfl⟩
    · rw [a3] at b3; cases b3
      exact (List.perm_cons _).mp (a1.symm.trans b1)
    · rw [a3] at b2; cases b2
    · rw [a2] at b3; cases b3
    · exact List.Perm.refl _
  | insert q v =>
    rcases h1 with ⟨e, a1, a2, a3, rfl⟩ | ⟨a1, a2, rfl⟩ <;> rcases h2 with ⟨e', b1, b2, b3, rfl⟩ | ⟨b1, b2, rfl⟩
    · exact List.Perm.refl _
    · rw [a3] at b2; cases b2
    · rw [a2] at b3; cases b3
    · exact List.Perm.refl _
  | insertHint i q v =>
    rcases h1 with ⟨e, a1, a2, a3, rfl⟩ | ⟨a1, a2, rfl⟩ <;> rcases h2 with ⟨e', b1, b2, b3, rfl⟩ | ⟨b1, b2, rfl⟩
    · exact List.Perm.refl _
    · rw [b1 e a1] at a2; cases a2
    · rw [a1 e' b1] at b2; cases b2
    · exact List.Perm.refl _
  | insertOrAssign q v =>
    rcases h1 with ⟨e, a1, a2, a3, rfl⟩ | ⟨a1, a2, rfl⟩ <;> rcases h2 with ⟨e', b1, b2, b3, rfl⟩ | ⟨b1, b2, rfl⟩
    · exact List.Perm.refl _
    · rw [b1 e a1] at a2; cases a2
    · rw [a1 e' b1] at b2; cases b2
    · exact List.Perm.refl _
  | index q d =>
    rcases h1 with ⟨e, a1, a2, a3, rfl⟩ | ⟨a1, a2, rfl⟩ <;> rcases h2 with ⟨e', b1, b2, b3, rfl⟩ | ⟨b1, b2, rfl⟩
    · exact List.Perm.refl _
    · rw [b1 e a1] at a2; cases a2
    · rw [a1 e' b1] at b2; cases b2
    · exact List.Perm.refl _

/-! ### flat and node containers -/

/-- Executions of programs that mix ordinary calls (which respect their preconditions) with heterogeneous ones: `s` are the
containers, `a` what the specifications say about them. The heterogeneous types may differ from call to call; each must be
compatible with the hash function and key equality the container has at that moment. -/
inductive Open (c : Foa.MCfg) (veq : K × V → K × V → Bool) : (Nat → Foa.Table K V) → (Nat → Spec.Obj K V) → Prop
  | start {hash : K → Nat} {eq : K → K → Bool} : Spec.Lawful hash eq → Open c veq (Foa.start c hash eq) (Spec.start eq)
  | op {s s' : Nat → Foa.Table K V} {a : Nat → Spec.Obj K V} {o : Spec.Op K V} {res : Res K V} : Open c veq s a →
    Spec.Pre c.traits o a → Foa.step c veq s o = some (s', res) → Open c veq s' (Spec.step c.traits veq o a).1
  | het {s : Nat → Foa.Table K V} {a : Nat → Spec.Obj K V} {r : Nat} {Q : Type} {H : Het K Q} {call : Call Q V}
    {t' : Foa.Table K V} {res : Res K V} {l' : List (K × V)} : Open c veq s a → Compat (s r).fns.hash (s r).fns.eq H →
    SpecHet.Pre true H (a r).elems call → (s r).hstep c.toCfg H call = some (t', res) →
    SpecHet.Step H (a r).elems call res l' → Open c veq (upd s r t') (upd a r { a r with elems := l' })

theorem foa_perm {t : Foa.Table K V} {o : Spec.Obj K V} {l l' : List (K × V)} (h : Foa.R t { o with elems := l })
    (hp : l.Perm l') : Foa.R t { o with elems := l' } := ⟨h.inv, h.eq, h.al, h.elems.trans hp⟩

theorem Open.rs {c : Foa.MCfg} {veq : K × V → K × V → Bool} {s : Nat → Foa.Table K V} {a : Nat → Spec.Obj K V}
    (h : Open c veq s a) : Foa.RS s a := by
  induction h with
  | start hl => exact Props.start_related c hl
  | op _ hp he ih =>
    obtain ⟨s', o, h1, _, h3⟩ := Foa.step_refines c veq ih _ hp
    rw [he] at h1; cases h1; exact h3
  | het _ hc hp he hs ih =>
    obtain ⟨t', res, l', h1, h2, h3⟩ := Foa.hstep_refines (ih _) c.toCfg hc _ hp
    rw [he] at h1; cases h1
    exact ih.upd (foa_perm h3 (step_det h2 hs))

/-- C59, flat and node containers: in any program mixing ordinary and heterogeneous calls, a heterogeneous call whose argument
type is compatible with the container's functions is free of undefined behaviour, and its answer and effect are those of the
specification, in terms of the elements equal to the argument. -/
theorem open_het_calls {c : Foa.MCfg} {veq : K × V → K × V → Bool} {s : Nat → Foa.Table K V} {a : Nat → Spec.Obj K V}
    (h : Open c veq s a) {r : Nat} {H : Het K Q} (hc : Compat (s r).fns.hash (s r).fns.eq H) {call : Call Q V}
    (hp : SpecHet.Pre true H (a r).elems call) :
    ∃ t' res l', (s r).hstep c.toCfg H call = some (t', res) ∧ SpecHet.Step H (a r).elems call res l' ∧
      t'.contents.Perm l' ∧ Open c veq (upd s r t') (upd a r { a r with elems := l' }) := by
  obtain ⟨t', res, l', h1, h2, h3⟩ := Foa.hstep_refines (h.rs r) c.toCfg hc call hp
  exact ⟨t', res, l', h1, h2, h3.elems, .het h hc hp h1 h2⟩

/-- C59, flat and node containers: the ordinary calls of such programs, too, are free of undefined behaviour and answer as
specified. -/
theorem open_plain_calls {c : Foa.MCfg} {veq : K × V → K × V → Bool} {s : Nat → Foa.Table K V} {a : Nat → Spec.Obj K V}
    (h : Open c veq s a) {o : Spec.Op K V} (hp : Spec.Pre c.traits o a) :
    ∃ s' res, Foa.step c veq s o = some (s', res) ∧ res.Agrees (Spec.step c.traits veq o a).2 ∧
      Open c veq s' (Spec.step c.traits veq o a).1 := by
  obtain ⟨s', res, h1, h2, _⟩ := Foa.step_refines c veq h.rs o hp
  exact ⟨s', res, h1, h2, .op h hp h1⟩

/-- C59, flat and node containers: at any point of such a program the elements are those of the specification. -/
theorem open_het_contents {c : Foa.MCfg} {veq : K × V → K × V → Bool} {s : Nat → Foa.Table K V} {a : Nat → Spec.Obj K V}
    (h : Open c veq s a) (r : Nat) : (s r).contents.Perm (a r).elems := (h.rs r).elems

/-! ### closed-addressing containers -/

/-- The containers as the specification sees them; `d` says which hold specified elements (see `SpecC.Obj.defined`). -/
def view (s : Nat → Fca.Table K V) (d : Nat → Bool) : Nat → SpecC.Obj K V :=
  fun r => ⟨(s r).fns.eq, (s r).al, (s r).contents, d r⟩

/-- As `Open`, for `unordered_map`/`set`/`multimap`/`multiset`. -/
inductive Closed (c : Fca.MCfg K V) : (Nat → Fca.Table K V) → (Nat → Bool) → Prop
  | start {hash : K → Nat} {eq : K → K → Bool} : Spec.Lawful hash eq → Closed c (Fca.start hash eq) (fun _ => true)
  | op {s s' : Nat → Fca.Table K V} {d : Nat → Bool} {o : SpecC.Op K V} {res : Res K V} {a' : Nat → SpecC.Obj K V} : Closed c s d →
    SpecC.Pre c.u c.tr c.veq (view s d) o → Fca.step c s o = some (s', res) → SpecC.Step c.u c.tr c.veq (view s d) o res a' →
    Closed c s' (fun r => (a' r).defined)
  | het {s : Nat → Fca.Table K V} {d : Nat → Bool} {r : Nat} {Q : Type} {H : Het K Q} {call : Call Q V} {t' : Fca.Table K V}
    {res : Res K V} : Closed c s d → d r = true → Compat (s r).fns.hash (s r).fns.eq H →
    SpecHet.Pre c.u H (s r).contents call → (s r).hstep c.u H call = some (t', res) → Closed c (upd s r t') d

theorem view_rs {u : Bool} {s : Nat → Fca.Table K V} {a : Nat → SpecC.Obj K V} (h : Fca.RS u s a) :
    Fca.RS u s (view s (fun r => (a r).defined)) :=
  fun r => ⟨(h r).inv, (h r).law, rfl, rfl, (h r).shape, fun _ => List.Perm.refl _⟩

theorem inserts_defined {u : Bool} {o o' : SpecC.Obj K V} {x e : K × V} {b : Bool} (h : SpecC.Inserts u o x o' e b) :
    o'.defined = o.defined := Fca.Inserts.defined h

theorem insertsAll_defined {u : Bool} {o o' : SpecC.Obj K V} {xs : List (K × V)} (h : SpecC.InsertsAll u o xs o') :
    o'.defined = o.defined := by
  induction h with
  | nil => rfl
  | cons h1 _ ih => rw [ih, inserts_defined h1]

/-- flag after a call on one container -/
def flagAfter (b : Bool) : SpecC.LOp K V → Bool
  | .clear => true
  | _ => b

/-- the flag after a call on one container does not depend on the choices the specification leaves open -/
theorem lstep_flag {u : Bool} {o o' : SpecC.Obj K V} {op : SpecC.LOp K V} {res : Res K V} (h : SpecC.LStep u o op res o') :
    o'.defined = flagAfter o.defined op := by
  cases op with
  | insert x => obtain ⟨e, b, h, _⟩ := h; exact inserts_defined h
  | insertHint i x => obtain ⟨e, b, h, _⟩ := h; exact inserts_defined h
  | insertRange f xs => exact insertsAll_defined h.1
  | insertOrAssign k v => rcases h with ⟨e, _, _, rfl⟩ | ⟨_, _, rfl⟩ <;> rfl
  | index k v => rcases h with ⟨e, _, _, rfl⟩ | ⟨_, _, rfl⟩ <;> rfl
  | «at» k => rw [h.1]; rfl
  | find k => rw [h.1]; rfl
  | count k => rw [h.1]; rfl
  | contains k => rw [h.1]; rfl
  | equalRange k => rw [h.1]; rfl
  | erase k => rw [h.2]; rfl
  | eraseAt i => obtain ⟨e, rest, _, _, rfl⟩ := h; rfl
  | eraseRange i n => obtain ⟨e, rest, _, _, _, rfl⟩ := h; rfl
  | extract k => rcases h with ⟨e, _, _, _, _, rfl⟩ | ⟨_, _, rfl⟩ <;> rfl
  | eraseIf pr => rw [h.2]; rfl
  | clear => rw [h.2]; rfl
  | rehash n => rw [h.2]; rfl
  | reserve n => rw [h.2]; rfl
  | maxLoadFactor z => rw [h.2]; rfl
  | size => rw [h.1]; rfl
  | isEmpty => rw [h.1]; rfl
  | iterate => rw [h.1]; rfl

theorem upd_flag {a b : Nat → SpecC.Obj K V} {x y : SpecC.Obj K V} {r : Nat} (h : ∀ r, (a r).defined = (b r).defined)
    (hx : x.defined = y.defined) : ∀ r', (upd a r x r').defined = (upd b r y r').defined := by
  intro r'; unfold upd; split
  · exact hx
  · exact h r'

/-- the flags after a call do not depend on the choices the specification leaves open -/
theorem step_flag {u : Bool} {tr : Spec.Traits} {veq : K × V → K × V → Bool} {a a1 a2 : Nat → SpecC.Obj K V} {o : SpecC.Op K V}
    {res : Res K V} (h1 : SpecC.Step u tr veq a o res a1) (h2 : SpecC.Step u tr veq a o res a2) :
    ∀ r, (a1 r).defined = (a2 r).defined := by
  cases o with
  | on r op =>
    obtain ⟨o1, h1, rfl⟩ := h1
    obtain ⟨o2, h2, rfl⟩ := h2
    exact upd_flag (fun _ => rfl) ((lstep_flag h1).trans (lstep_flag h2).symm)
  | construct r h e al n => rw [h1.2, h2.2]; exact fun _ => rfl
  | copyConstruct r q al => rw [h1.2, h2.2]; exact fun _ => rfl
  | moveConstruct r q => rw [h1.2, h2.2]; exact fun _ => rfl
  | moveConstructAlloc r q al => rw [h1.2, h2.2]; exact fun _ => rfl
  | copyAssign r q => rw [h1.2, h2.2]; exact fun _ => rfl
  | moveAssign r q => rw [h1.2, h2.2]; exact fun _ => rfl
  | swap r q => rw [h1.2, h2.2]; exact fun _ => rfl
  | merge r q =>
    have h1 := h1.2
    have h2 := h2.2
    by_cases hrq : r = q
    · rw [if_pos hrq] at h1 h2; rw [h1, h2]; exact fun _ => rfl
    · rw [if_neg hrq] at h1 h2
      obtain ⟨_, _, _, _, _, rfl⟩ := h1
      obtain ⟨_, _, _, _, _, rfl⟩ := h2
      exact upd_flag (upd_flag (fun _ => rfl) rfl) rfl
  | transfer r q k =>
    have key : ∀ {a'}, SpecC.Step u tr veq a (.transfer r q k) res a' → ∀ r', (a' r').defined = (a r').defined := by
      intro a' h
      rcases h with ⟨_, _, rfl⟩ | ⟨e, rest, o', f, b, _, _, hi, _, rfl⟩
      · exact fun _ => rfl
      · intro r'; unfold upd
        split
        · rename_i h; rw [h]
        · split
          · rename_i h; rw [h]; exact inserts_defined hi
          · rfl
    exact fun r' => (key h1 r').trans (key h2 r').symm
  | equal r q => rw [h1.1, h2.1]; exact fun _ => rfl

theorem Closed.rs {c : Fca.MCfg K V} {s : Nat → Fca.Table K V} {d : Nat → Bool} (h : Closed c s d) : Fca.RS c.u s (view s d) := by
  induction h with
  | start hl => exact view_rs (Fca.start_rs c.u hl)
  | op _ hp he hs ih =>
    obtain ⟨s', res, a', h1, h2, h3⟩ := Fca.step_refines c ih _ hp
    rw [he] at h1; cases h1
    have := view_rs h3
    rwa [show (fun r => (a' r).defined) = _ from funext (step_flag h2 hs)] at this
  | @het s d r Q H call t' res _ hd hc hp he ih =>
    obtain ⟨t1, res1, l', h1, _, h3⟩ := Fca.hstep_refines (ih r) hd hc call hp
    rw [he] at h1; cases h1
    intro r'
    by_cases hr : r' = r
    · subst hr
      have e : upd s r' t' r' = t' := by simp [upd]
      unfold view; rw [e]
      exact ⟨h3.inv, h3.law, rfl, rfl, h3.shape, fun _ => List.Perm.refl _⟩
    · have e : upd s r t' r' = s r' := by simp [upd, hr]
      have := ih r'
      unfold view at this ⊢; rw [e]; exact this

/-- C59, closed-addressing containers: in any program mixing ordinary and heterogeneous calls, a heterogeneous call whose argument
type is compatible with the container's functions is free of undefined behaviour, and its answer and effect are those of the
specification, in terms of the elements equal to the argument; several elements may be equal to it in multimaps and multisets. -/
theorem closed_het_calls {c : Fca.MCfg K V} {s : Nat → Fca.Table K V} {d : Nat → Bool} (h : Closed c s d) {r : Nat}
    (hd : d r = true) {H : Het K Q} (hc : Compat (s r).fns.hash (s r).fns.eq H) {call : Call Q V}
    (hp : SpecHet.Pre c.u H (s r).contents call) :
    ∃ t' res l', (s r).hstep c.u H call = some (t', res) ∧ SpecHet.Step H (s r).contents call res l' ∧
      t'.contents.Perm l' ∧ Closed c (upd s r t') d := by
  obtain ⟨t', res, l', h1, h2, h3⟩ := Fca.hstep_refines (h.rs r) hd hc call hp
  exact ⟨t', res, l', h1, h2, h3.elems hd, .het h hd hc hp h1⟩

/-- C59, closed-addressing containers: the ordinary calls of such programs, too, are free of undefined behaviour and answer as
specified. -/
theorem closed_plain_calls {c : Fca.MCfg K V} {s : Nat → Fca.Table K V} {d : Nat → Bool} (h : Closed c s d) {o : SpecC.Op K V}
    (hp : SpecC.Pre c.u c.tr c.veq (view s d) o) :
    ∃ s' res a', Fca.step c s o = some (s', res) ∧ SpecC.Step c.u c.tr c.veq (view s d) o res a' ∧
      (∀ r, (a' r).defined = true → (s' r).contents.Perm (a' r).elems) ∧ Closed c s' (fun r => (a' r).defined) := by
  obtain ⟨s', res, a', h1, h2, h3⟩ := Fca.step_refines c h.rs o hp
  exact ⟨s', res, a', h1, h2, fun r => (h3 r).elems, .op h hp h1 h2⟩

/-! ### a concrete case -/

/-- keys are pairs compared by their first component -/
def kHash (k : Nat × Nat) : Nat := k.1 % 5
def kEq (a b : Nat × Nat) : Bool := a.1 == b.1

/-- arguments: `some n` is equal to the keys with first component `n`, `none` to no key at all -/
def optH : Het (Nat × Nat) (Option Nat) where
  hash := fun | some n => n % 5 | none => 3
  eqL := fun q k => q == some k.1
  eqR := fun k q => q == some k.1
  make := fun | some n => (n, 7) | none => (0, 0)

theorem k_lawful : Spec.Lawful kHash kEq where
  hash_lt k := by unfold kHash; omega
  refl k := by simp [kEq]
  symm a b h := by simp [kEq] at *; exact h.symm
  trans a b c h1 h2 := by simp [kEq] at *; exact h1.trans h2
  compat a b h := by simp [kEq] at h; simp [kHash, h]

theorem opt_compat : Compat kHash kEq optH where
  sides q k := rfl
  same q k h := by
    have : q = some k.1 := by simpa [optH] using h
    subst this; rfl
  bound q := by cases q <;> simp [optH]; omega
  join q a b h1 h2 := by
    have e1 : q = some a.1 := by simpa [optH] using h1
    have e2 : q = some b.1 := by simpa [optH] using h2
    rw [e1] at e2
    simpa [kEq] using e2
  carry q a b h1 h2 := by
    have e1 : q = some a.1 := by simpa [optH] using h1
    have e2 : a.1 = b.1 := by simpa [kEq] using h2
    simp [optH, e1, e2]

/-- the hypotheses of the theorems on flat containers are met, for lookups and for insertions -/
example : Open {} (fun a b => a == b) (Foa.start {} kHash kEq : Nat → Foa.Table (Nat × Nat) Nat) (Spec.start kEq) ∧
    Compat kHash kEq optH ∧ SpecHet.Pre (V := Nat) true optH [] (.insert (some 3) 8) ∧
    SpecHet.Pre (V := Nat) true optH [] (.find none) := ⟨.start k_lawful, opt_compat, ⟨rfl, rfl⟩, trivial⟩

/-- likewise for multimaps -/
example : Closed (⟨false, ⟨false, false, false⟩, id, fun a b => a == b⟩ : Fca.MCfg (Nat × Nat) Nat) (Fca.start kHash kEq) (fun _ => true) ∧
    Compat kHash kEq optH ∧ SpecHet.Pre (V := Nat) false optH [] (.erase (some 3)) := ⟨.start k_lawful, opt_compat, trivial⟩

def foaCalls : List (Call (Option Nat) Nat) → Foa.Table (Nat × Nat) Nat → Option (List (Res (Nat × Nat) Nat))
  | [], _ => some []
  | c :: cs, t =>
    match t.hstep {} optH c with
    | none => none
    | some (t', r) => (foaCalls cs t').map (r :: ·)

def fcaCalls (u : Bool) : List (Call (Option Nat) Nat) → Fca.Table (Nat × Nat) Nat → Option (List (Res (Nat × Nat) Nat))
  | [], _ => some []
  | c :: cs, t =>
    match t.hstep u optH c with
    | none => none
    | some (t', r) => (fcaCalls u cs t').map (r :: ·)

def someCalls : List (Call (Option Nat) Nat) :=
  [.insert (some 1) 10, .insert (some 6) 11, .insertHint 0 (some 6) 12, .insertHint 1 (some 11) 13, .insertOrAssign (some 1) 14,
   .index (some 2) 15, .find (some 6), .find none, .contains (some 1), .count (some 16), .equalRange (some 11), .at none,
   .extract (some 11), .erase (some 6), .count (some 6)]

def someAnswers : List (Res (Nat × Nat) Nat) :=
  [.ins ((1, 7), 10) true, .ins ((6, 7), 11) true, .elem (some ((6, 7), 11)), .elem (some ((11, 7), 13)), .ins ((1, 7), 14) false,
   .val (some 15), .elem (some ((6, 7), 11)), .elem none, .bool true, .num 0, .list [((11, 7), 13)], .val none,
   .elem (some ((11, 7), 13)), .num 1, .num 0]

set_option maxRecDepth 100000 in
/-- a run on a flat map -/
example : foaCalls someCalls (Foa.start {} kHash kEq 0) = some someAnswers := by decide +kernel

set_option maxRecDepth 100000 in
/-- the same run on an `unordered_map` -/
example : fcaCalls true someCalls (Fca.start kHash kEq 0) = some someAnswers := by decide +kernel

def multiFill : SpecC.Op (Nat × Nat) Nat :=
  .on 0 (.insertRange true [((1, 0), 20), ((6, 0), 21), ((1, 1), 22), ((2, 5), 23), ((1, 2), 24)])

def multiRun : Option (List (Res (Nat × Nat) Nat)) :=
  (Fca.step ⟨false, ⟨false, false, false⟩, id, fun a b => a == b⟩ (Fca.start kHash kEq) multiFill).bind
    (fun s => fcaCalls false [.count (some 1), .equalRange (some 1), .extract (some 1), .erase (some 1), .count (some 1), .erase none,
      .erase (some 6)] (s.1 0))

set_option maxRecDepth 100000 in
/-- a run on an `unordered_multimap`: three elements with different keys are equal to `some 1` -/
example : multiRun = some [.num 3, .list [((1, 0), 20), ((1, 2), 24), ((1, 1), 22)], .elem (some ((1, 0), 20)), .num 2, .num 0,
    .num 0, .num 1] := by decide +kernel

end Props.HetP

/-
Properties of several concurrent containers used together (C52): assignment, swap, merge, comparison and construction between
containers other threads are working on. `MReach c veq f s` ranges over every state any number of threads can reach with any
number of containers, in any interleaving; `MRun c veq σ who loc n` over every continuation, in which thread `who i` makes step
`i` (in its operation on container `loc i`, or with an operation on whole containers).
The specification of operations on whole containers is `Verif.Spec`, that of operations with a key `Verif.SpecT`.
-/
import Verif.Conc.MultiRun
import Verif.Props.ConcTable

namespace Props.ConcMulti
open Conc.Tab Conc.Multi Foa SpecT
open Conc.Locking (Mode)
open Props.ConcTable (Does does_eq Touches Busy sizeAnswer exF exF_lawful exInsert)

variable {K V : Type}

/-! ### vocabulary -/

/-- The elements of container `d`, its key equality. -/
def Elems (s : MState K V) (d : Nat) : Con K V := fun x => ∃ g j, (s.mem d).slot g j = some x
def eqOf (s : MState K V) (d : Nat) : K → K → Bool := (s.mem d).tab.fns.eq

/-- Container `d` is the abstract object `o`: same key equality and allocator, same elements, each once. -/
structure Is (s : MState K V) (d : Nat) (o : Spec.Obj K V) : Prop where
  eq : o.eq = eqOf s d
  al : o.al = (s.mem d).tab.al
  elems : ∀ x, x ∈ o.elems ↔ Elems s d x
  once : o.elems.Pairwise fun x y => o.eq x.1 y.1 = false

/-- Thread `t` has called `o` on container `d` / returned from it with the answer `r`. -/
def Called (s : MState K V) (t d : Nat) (o : Op K V) : Prop := s.pc t d = .start o
def Returned (s : MState K V) (t d r : Nat) : Prop := s.pc t d = .done r

/-- Thread `t` calls `o` on container `d` (state `a`) and returns from it with the answer `r` (state `b`). -/
structure Executes (σ : Nat → MState K V) (t d : Nat) (o : Op K V) (a b r : Nat) : Prop where
  le : a ≤ b
  called : Called (σ a) t d o
  returned : Returned (σ b) t d r
  running : ∀ i, a ≤ i → i < b → ∀ r', ¬ Returned (σ i) t d r'

/-- What `r.merge(q)` answers: the number of elements transferred. -/
def transferred (a : Nat → Spec.Obj K V) (r q : Nat) : Nat :=
  if r = q then 0 else ((a q).elems.filter fun e => (Spec.lookup (a r) e.1).isNone).length

/-- The answer of an operation on whole containers. -/
def answerOf (tr : Spec.Traits) (veq : K × V → K × V → Bool) (a : Nat → Spec.Obj K V) : COp K V → Spec.Res K V
  | .merge r q => .num (transferred a r q)
  | o => (Spec.step tr veq o.op a).2

theorem Is.R {s : MState K V} (hi : MInv s) {d : Nat} {o : Spec.Obj K V} (h : Is s d o) (hq : ∀ u, (s.pc u d).inside = false) :
    R (s.tabs d) o := by
  have hinv : (s.tabs d).Inv := (hi.each d).quiescent hq
  refine ⟨hinv, h.eq.symm, h.al.symm, ?_⟩
  have hnd : ∀ {l : List (K × V)}, l.Pairwise (fun x y => (s.tabs d).fns.eq x.1 y.1 = false) → l.Nodup := by
    intro l hl
    refine hl.imp ?_
    rintro a b hab rfl
    have := hinv.law.refl a.1
    rw [hab] at this
    cases this
  refine (List.perm_ext_iff_of_nodup (hnd (contents_pairwise hinv)) (hnd ?_)).2 fun x => ?_
  · have := h.once
    rw [h.eq] at this
    exact this
  · rw [h.elems]
    exact hinv.mem

theorem is_of_R {s : MState K V} {d : Nat} {o : Spec.Obj K V} (h : R (s.tabs d) o) : Is s d o := by
  refine ⟨h.eq.symm, h.al.symm, fun x => ?_, ?_⟩
  · rw [← h.elems.mem_iff]
    exact h.inv.mem
  · have := h.pairwise
    rw [← h.eq]
    exact this

/-! ### examples -/

def exV : Nat × Nat → Nat × Nat → Bool := fun a b => decide (a = b)
def exC : MCfg := { pocs := true }
def emp (d t k v : Nat) : List (MEv Nat Nat) := [.one d (.op t (.ex (.emplace (k, v)))), .one d (.go t)]

/-- Two containers, `{1:10,2:20}` and `{2:21,3:30}`; two threads. -/
def exFill : List (MEv Nat Nat) := emp 0 0 1 10 ++ emp 0 0 2 20 ++ emp 1 1 2 21 ++ emp 1 1 3 30
def exStart : MSys Nat Nat := MSys.init exC exF 2 2

/-- Thread 0 has called a visit of key 3 in container 0, thread 1 `o`. -/
def exCalls (o : COp Nat Nat) : List (MEv Nat Nat) := exFill ++ [.one 0 (.op 0 (.key (.visit .shared 3 (·.2)))), .call 1 o]
def ex (o : COp Nat Nat) : MSys Nat Nat := (exStart.run exC exV exF (exCalls o)).getD exStart


theorem exStart_reach : MReach exC exV exF (exStart.state exC exF) := by
  rw [exStart, MSys.init_state]
  exact .init

theorem ran {S : MSys Nat Nat} {es : List (MEv Nat Nat)} (hS : MReach exC exV exF (S.state exC exF))
    (h : (S.run exC exV exF es).isSome = true) :
    MReach exC exV exF (((S.run exC exV exF es).getD S).state exC exF) ∧
    MRun exC exV (S.trace exC exV exF es) (whoM es) (locM es) es.length := by
  obtain ⟨S', hS'⟩ := Option.isSome_iff_exists.1 h
  rw [hS', Option.getD_some]
  exact ⟨MSys.run_reach exF_lawful hS hS', MSys.trace_run exF_lawful hS hS'⟩

/-! ### what holds of each container -/

/-- Whatever operations threads run on whatever containers, none comes to undefined behaviour: neither an operation on one
container nor one on two. -/
theorem C52_no_undefined_behaviour {c : MCfg} {veq : K × V → K × V → Bool} {f : Fns K} (hf : f.Lawful) {s : MState K V}
    (h : MReach c veq f s) (t : Nat) : s.two t ≠ .bad ∧ ∀ d, s.pc t d ≠ .bad :=
  ⟨(h.inv hf).good t, fun d => pcOk_not_bad (((h.inv hf).each d).pcs t)⟩

/-- No container ever holds two equivalent elements (equivalent for the equality it has at that moment). -/
theorem C52_no_duplicates {c : MCfg} {veq : K × V → K × V → Bool} {f : Fns K} (hf : f.Lawful) {s : MState K V}
    (h : MReach c veq f s) {d g j g' j' : Nat} {x y : K × V} (hx : (s.mem d).slot g j = some x)
    (hy : (s.mem d).slot g' j' = some y) (he : eqOf s d x.1 y.1 = true) : g = g' ∧ j = j' :=
  (((h.inv hf).each d).shape.live hx).2.uniq _ _ _ _ _ _ hx hy he

/-- Two threads about to access the same element of a container only read it; and nobody is about to access an element of a
container that an operation on whole containers is about to replace. -/
theorem C52_no_conflicting_access {c : MCfg} {veq : K × V → K × V → Bool} {f : Fns K} (hf : f.Lawful) {s : MState K V}
    (h : MReach c veq f s) {d : Nat} :
    (∀ {t u g j : Nat} {w w' : Bool}, t ≠ u → Touches (s.view d) t g j w → Touches (s.view d) u g j w' → w = false ∧ w' = false) ∧
    ∀ {t u g j : Nat} {o : COp K V} {w : Bool} {s' : MState K V}, s.two t = .called o → MStepBy c veq t s none s' →
      s'.two t ≠ .called o → d ∈ o.uses → ¬ Touches (s.view d) u g j w := by
  refine ⟨fun htu ht hu => Props.ConcTable.no_conflict ((h.inv hf).each d) htu ht hu, ?_⟩
  intro t u g j o w s' ht hs hs' hd hu
  have hout : ∀ u, ((s.view d).pc u).inside = false := by
    cases hs with
    | call o' h' =>
      rcases h' with h' | ⟨r, h'⟩ <;> rw [ht] at h' <;> cases h'
    | exec o' tabs' res cnt h' hfr hp hs hc => rw [ht] at h'; cases h'; exact fun u => hfr.out u d hd
    | execBad o' h' hfr hp hs => rw [ht] at h'; cases h'; exact fun u => hfr.out u d hd
  have := hout u
  unfold Touches at hu
  split at hu <;> first | (rename_i hq; rw [hq] at this; cases this) | exact hu

/-- In every container the elements and the granted reservations together never exceed `ml`; the answer of `size()` is at least
the number of elements, at most `ml`, and when no operation is under way there it is the number of elements. -/
theorem C52_size {c : MCfg} {veq : K × V → K × V → Bool} {f : Fns K} (hf : f.Lawful) {s : MState K V}
    (h : MReach c veq f s) (d : Nat) :
    (∀ {P : List (Nat × Nat)}, P.Nodup → (∀ p ∈ P, ∃ x, (s.mem d).slot p.1 p.2 = some x) →
      P.length ≤ sizeAnswer (s.view d) ∧ sizeAnswer (s.view d) ≤ (s.mem d).tab.ml ∧ (s.mem d).tab.ml ≤ (s.mem d).tab.capacity) ∧
    ((∀ t, ¬ Busy (s.view d) t) → ∃ L : List (K × V), L.Nodup ∧ (∀ x, x ∈ L ↔ Elems s d x) ∧ sizeAnswer (s.view d) = L.length) := by
  constructor
  · intro P hP hp
    exact (Props.ConcTable.overcommit ((h.inv hf).each d) hP hp (T := []) List.nodup_nil (fun t ht => by cases ht)).2
  · intro hq
    obtain ⟨L, h1, h2, h3, _⟩ := Props.ConcTable.size_quiet ((h.inv hf).each d) hq
    exact ⟨L, h1, h2, h3⟩

set_option maxRecDepth 100000 in
/-- Two containers with two elements each, a visit and a swap called. -/
example : MReach exC exV exF ((ex (.swap 0 1)).state exC exF) ∧ ((ex (.swap 0 1)).state exC exF).two 1 = .called (.swap 0 1) ∧
    (((ex (.swap 0 1)).state exC exF).mem 0).slot 0 0 = some (1, 10) ∧
    (((ex (.swap 0 1)).state exC exF).mem 1).slot 0 0 = some (2, 21) ∧ exF.Lawful := by
  refine ⟨(ran exStart_reach (by decide +kernel)).1, by rfl, by decide +kernel, by decide +kernel, exF_lawful⟩

/-! ### operations on whole containers -/

/-- An operation on whole containers takes effect in one step. Nobody is inside the containers involved; their contents, key
equalities and allocators change, and the operation answers, exactly as the specification says; every other container, and the
place of every thread in every container, stays as it is. -/
theorem C52_whole_container_operations {c : MCfg} {veq : K × V → K × V → Bool} {f : Fns K} (hf : f.Lawful) {s s' : MState K V}
    (h : MReach c veq f s) {t : Nat} {o : COp K V} {w : Option Nat} (hc : s.two t = .called o) (hs : MStepBy c veq t s w s')
    (hd : s'.two t ≠ .called o) :
    (∀ d ∈ o.uses, ∀ u, ¬ Busy (s.view d) u) ∧ s'.pc = s.pc ∧ (∀ d, d ∉ o.uses → s'.mem d = s.mem d) ∧
    ∀ a : Nat → Spec.Obj K V, (∀ d ∈ o.uses, Is s d (a d)) →
      (∀ d ∈ o.uses, Is s' d ((Spec.step c.traits veq o.op a).1 d)) ∧ s'.two t = .done (answerOf c.traits veq a o) := by
  have hi := h.inv hf
  cases hs with
  | one d x h' => exact absurd hc hd
  | call o' h' =>
    rcases h' with h' | ⟨r, h'⟩ <;> rw [hc] at h' <;> cases h'
  | execBad o' h' hfr hp hs =>
    rw [hc] at h'
    cases h'
    obtain ⟨tabs2, res2, h1, _⟩ := exec_spec c veq o (hi.uses hfr) hp
    rw [hs] at h1
    cases h1
  | exec o' tabs' res cnt h' hfr hp hs hcnt =>
    rw [hc] at h'
    cases h'
    have hR : ∀ a : Nat → Spec.Obj K V, (∀ d ∈ o.uses, Is s d (a d)) → ∀ d ∈ o.uses, R (s.tabs d) (a d) := fun a ha d hd =>
      (ha d hd).R hi fun u => hfr.out u d hd
    refine ⟨fun d hd u hu => ?_, rfl, fun d hd => ?_, fun a ha => ?_⟩
    · have := hfr.out u d hd
      rw [Busy] at hu
      rw [show ((s.view d).pc u).inside = false from this] at hu
      cases hu
    · obtain ⟨tabs2, res2, h1, _, _, h4⟩ := exec_spec c veq o (hi.uses hfr) hp
      rw [hs] at h1
      cases h1
      show (⟨tabs' d, cnt d⟩ : Mem K V) = s.mem d
      rw [h4 d hd, hcnt d hd]
      rfl
    · obtain ⟨tabs2, res2, h1, h2, h3, _⟩ := exec_spec c veq o (hR a ha) hp
      rw [hs] at h1
      cases h1
      refine ⟨fun d hd => is_of_R (h3 d hd), ?_⟩
      show (if t = t then TPc.done (o.answer s.tabs tabs' res) else s.two t) = _
      rw [if_pos rfl]
      congr 1
      cases o with
      | merge r q =>
        simp only [COp.answer, answerOf, transferred]
        congr 1
        have hr := hR a ha r uses_fst
        have hr' := h3 r uses_fst
        rw [hr.inv.size, hr'.inv.size, hr.elems.length_eq, hr'.elems.length_eq]
        simp only [COp.op, Spec.step]
        by_cases hrq : r = q
        · simp [hrq]
        · simp [hrq, Spec.upd]
      | _ => exact h2

/-- The abstract objects always exist while nobody is inside, and they are determined up to order: so the theorem above says what
happens to the contents. -/
theorem C52_contents_of_quiet_container {c : MCfg} {veq : K × V → K × V → Bool} {f : Fns K} (hf : f.Lawful) {s : MState K V}
    (h : MReach c veq f s) {d : Nat} (hq : ∀ u, ¬ Busy (s.view d) u) :
    ∃ o, Is s d o ∧ ∀ o', Is s d o' → o'.eq = o.eq ∧ o'.al = o.al ∧ o'.elems.Perm o.elems := by
  have hi := h.inv hf
  have hout : ∀ u, (s.pc u d).inside = false := fun u => by
    have := hq u
    rw [Busy, Bool.not_eq_true] at this
    exact this
  refine ⟨absObj (s.mem d), is_of_R (R_abs (hi.each d) hout), fun o' h' => ?_⟩
  have := h'.R hi hout
  exact ⟨h'.eq, h'.al, this.elems.symm⟩

/-- When no thread is inside the containers involved, the calling thread has nothing else under way there, and the call respects
its preconditions, the operation can take effect. -/
theorem C52_goes_through {c : MCfg} {veq : K × V → K × V → Bool} {f : Fns K} (hf : f.Lawful) {s : MState K V}
    (h : MReach c veq f s) {t : Nat} {o : COp K V} (hc : s.two t = .called o) (hfr : Free s t o) (hp : o.Pre c s.tabs) :
    ∃ s' r, MStepBy c veq t s none s' ∧ s'.two t = .done r := by
  obtain ⟨tabs', res, h1, _⟩ := exec_spec c veq o ((h.inv hf).uses hfr) hp
  exact ⟨_, _, .exec o tabs' res (fun d => (s.mem d).cnt) hc hfr hp h1 (fun d _ => rfl), if_pos rfl⟩

set_option maxRecDepth 100000 in
/-- Merge, swap, comparison, self-assignment are possible in the state above. -/
theorem exFree : ∀ o ∈ [COp.merge 0 1, .swap 0 1, .equal 0 1, .copyAssign 1 1], ∃ S : MSys Nat Nat,
    MReach exC exV exF (S.state exC exF) ∧ (S.state exC exF).two 1 = .called o ∧ Free (S.state exC exF) 1 o ∧
    o.Pre exC (S.state exC exF).tabs := by
  intro o ho
  simp only [List.mem_cons, List.not_mem_nil, or_false] at ho
  rcases ho with rfl | rfl | rfl | rfl
  · exact ⟨ex (.merge 0 1), (ran exStart_reach (by decide +kernel)).1, by rfl, MSys.free_sound (by decide +kernel), rfl⟩
  · exact ⟨ex (.swap 0 1), (ran exStart_reach (by decide +kernel)).1, by rfl, MSys.free_sound (by decide +kernel), .inl rfl⟩
  · exact ⟨ex (.equal 0 1), (ran exStart_reach (by decide +kernel)).1, by rfl, MSys.free_sound (by decide +kernel), trivial⟩
  · exact ⟨ex (.copyAssign 1 1), (ran exStart_reach (by decide +kernel)).1, by rfl, MSys.free_sound (by decide +kernel), trivial⟩

set_option maxRecDepth 100000 in
/-- There the theorem on effects applies, with the objects written out. -/
example : ∃ s s' : MState Nat Nat, MReach exC exV exF s ∧ s.two 1 = .called (.merge 0 1) ∧ MStepBy exC exV 1 s none s' ∧
    s'.two 1 ≠ .called (.merge 0 1) ∧ Is s 0 ⟨exF.eq, 0, [(2, 20), (1, 10)]⟩ ∧ Is s 1 ⟨exF.eq, 0, [(2, 21), (3, 30)]⟩ ∧
    s'.two 1 = .done (.num 1) ∧ Is s' 0 ⟨exF.eq, 0, [(3, 30), (2, 20), (1, 10)]⟩ ∧ Is s' 1 ⟨exF.eq, 0, [(2, 21)]⟩ := by
  have hr : MReach exC exV exF ((ex (.merge 0 1)).state exC exF) := (ran exStart_reach (by decide +kernel)).1
  have hc : ((ex (.merge 0 1)).state exC exF).two 1 = .called (.merge 0 1) := by rfl
  have hfr : Free ((ex (.merge 0 1)).state exC exF) 1 (.merge 0 1) := MSys.free_sound (by decide +kernel)
  have hR := (hr.inv exF_lawful).uses hfr
  have h0 : Is ((ex (.merge 0 1)).state exC exF) 0 ⟨exF.eq, 0, [(2, 20), (1, 10)]⟩ := by
    have h := hR 0 uses_fst
    exact is_of_R ⟨h.inv, h.eq, by rfl, by decide +kernel⟩
  have h1 : Is ((ex (.merge 0 1)).state exC exF) 1 ⟨exF.eq, 0, [(2, 21), (3, 30)]⟩ := by
    have h := hR 1 uses_snd
    exact is_of_R ⟨h.inv, h.eq, by rfl, by decide +kernel⟩
  obtain ⟨s', r, hs, hd⟩ := C52_goes_through exF_lawful hr hc hfr rfl
  have hne : s'.two 1 ≠ .called (.merge 0 1) := by rw [hd]; exact fun h => by cases h
  have key := (C52_whole_container_operations exF_lawful hr hc hs hne).2.2.2
    (fun d => if d = 0 then ⟨exF.eq, 0, [(2, 20), (1, 10)]⟩ else ⟨exF.eq, 0, [(2, 21), (3, 30)]⟩) (by
      intro d hd
      simp only [COp.uses, List.mem_cons, List.not_mem_nil, or_false] at hd
      rcases hd with rfl | rfl
      · exact h0
      · exact h1)
  exact ⟨_, s', hr, hc, hs, hne, h0, h1, key.2, key.1 0 uses_fst, key.1 1 uses_snd⟩

/-- In terms of elements: a merge loses and duplicates nothing, leaves the destination's own elements where they are, and
leaves in the source only elements with a key the destination had; a swap exchanges the contents. -/
theorem C52_nothing_lost {c : MCfg} {veq : K × V → K × V → Bool} {f : Fns K} (hf : f.Lawful) {s s' : MState K V}
    (h : MReach c veq f s) {t r q : Nat} {o : COp K V} {w : Option Nat} (hc : s.two t = .called o) (hs : MStepBy c veq t s w s')
    (hd : s'.two t ≠ .called o) :
    (o = .merge r q → r ≠ q → (∀ x, (Elems s' r x ∨ Elems s' q x) ↔ (Elems s r x ∨ Elems s q x)) ∧
      (∀ x, Elems s r x → Elems s' r x) ∧
      (∀ x, Elems s' q x ↔ Elems s q x ∧ Present (eqOf s r) (Elems s r) x.1)) ∧
    (o = .swap r q → (∀ x, Elems s' r x ↔ Elems s q x) ∧ ∀ x, Elems s' q x ↔ Elems s r x) := by
  obtain ⟨hq, _, _, heff⟩ := C52_whole_container_operations hf h hc hs hd
  have hob : ∀ d ∈ o.uses, Is s d (absObj (s.mem d)) := by
    intro d hdu
    obtain ⟨o', ho', hu⟩ := C52_contents_of_quiet_container hf h (hq d hdu)
    exact is_of_R (R_abs ((h.inv hf).each d) fun u => by
      have := hq d hdu u
      rw [Busy, Bool.not_eq_true] at this
      exact this)
  have key := (heff _ hob).1
  constructor
  · rintro rfl hne
    have hr := hob r uses_fst
    have hq' := hob q uses_snd
    have kr := key r uses_fst
    have kq := key q uses_snd
    simp only [COp.op, Spec.step, if_neg hne, Spec.upd, if_true] at kr kq
    have hlook : ∀ k, (Spec.lookup (absObj (s.mem r)) k).isSome = true ↔ Present (eqOf s r) (Elems s r) k := by
      intro k
      simp only [Spec.lookup, List.find?_isSome]
      constructor
      · rintro ⟨y, hy, hye⟩; exact ⟨y, (hr.elems y).1 hy, hye⟩
      · rintro ⟨y, hy, hye⟩; exact ⟨y, (hr.elems y).2 hy, hye⟩
    have er : ∀ x, Elems s' r x ↔ (Elems s q x ∧ ¬ Present (eqOf s r) (Elems s r) x.1) ∨ Elems s r x := by
      intro x
      rw [← kr.elems x, ← hlook, ← hr.elems x, ← hq'.elems x]
      simp
    have eq' : ∀ x, Elems s' q x ↔ Elems s q x ∧ Present (eqOf s r) (Elems s r) x.1 := by
      intro x
      rw [← kq.elems x, ← hlook, ← hq'.elems x]
      simp
    refine ⟨fun x => ?_, fun x hx => (er x).2 (.inr hx), eq'⟩
    rw [er, eq']
    by_cases hp : Present (eqOf s r) (Elems s r) x.1 <;> simp only [hp, not_true, not_false_iff, and_true, and_false, false_or, or_false]
    rw [or_comm]
  · rintro rfl
    have kr := key r uses_fst
    have kq := key q uses_snd
    have hr := hob r uses_fst
    have hq' := hob q uses_snd
    simp only [COp.op, Spec.step, Spec.upd, if_true] at kr kq
    by_cases hrq : r = q
    · subst hrq
      rw [if_pos rfl] at kr
      have : ∀ x, Elems s' r x ↔ Elems s r x := fun x => by rw [← kr.elems x, ← hr.elems x]
      exact ⟨this, this⟩
    · rw [if_neg hrq] at kr
      exact ⟨fun x => by rw [← kr.elems x, ← hq'.elems x], fun x => by rw [← kq.elems x, ← hr.elems x]⟩

/-! ### operations with a key, passes -/

/-- Every operation with a key on a container takes effect at one instant between its call and its return, also when that
container is assigned, swapped, merged or moved meanwhile: either one of its own steps does to the contents exactly what the
specification says, or its answer is right for the contents it did not change at some instant; and nothing else that the thread
does until it returns changes the contents. -/
theorem C52_linearizable {c : MCfg} {veq : K × V → K × V → Bool} {f : Fns K} (hf : f.Lawful) {σ : Nat → MState K V} {who : Nat → Nat}
    {loc : Nat → Option Nat} {n : Nat} (h0 : MReach c veq f (σ 0)) (hr : MRun c veq σ who loc n) {t d : Nat} {o : KOp K V}
    {a b r : Nat} (he : Executes σ t d (.key o) a b r) (hb : b ≤ n) :
    (∃ l, a ≤ l ∧ l < b ∧ who l = t ∧ loc l = some d ∧ Does (eqOf (σ l) d) o (Elems (σ l) d) (Elems (σ (l + 1)) d) r ∧
      ∀ l', a ≤ l' → l' < b → who l' = t → l' ≠ l → Same (Elems (σ l') d) (Elems (σ (l' + 1)) d)) ∨
    (∃ l, a ≤ l ∧ l ≤ b ∧ Does (eqOf (σ l) d) o (Elems (σ l) d) (Elems (σ l) d) r ∧
      ∀ l', a ≤ l' → l' < b → who l' = t → Same (Elems (σ l') d) (Elems (σ (l' + 1)) d)) := by
  have hle := he.le
  have hia := hr.inv (h0.inv hf) a (by omega)
  have hsub := hr.sub he.le hb
  have key := hsub.lin (t := t) (d := d) (o := o) (r := r) hia he.called
    (fun i hi r' hq => he.running (a + i) (by omega) (by omega) r' hq)
    (by have := he.returned; simp only [Nat.add_sub_cancel' he.le]; exact this)
  rcases key with ⟨l, hl, hw, hloc, hs, hsame⟩ | ⟨h3, h4, ⟨l, hl, hno⟩, hsame⟩
  · left
    refine ⟨a + l, by omega, by omega, hw, hloc, by rw [does_eq]; exact hs, fun l' h1 h2 h3 h4 => ?_⟩
    have := hsame (l' - a) (by omega) (by rw [Nat.add_sub_cancel' h1]; exact h3) (by omega)
    rw [Nat.add_sub_cancel' h1, show a + (l' - a + 1) = l' + 1 by omega] at this
    exact this
  · right
    refine ⟨a + l, by omega, by omega, ?_, fun l' h1 h2 h3 => ?_⟩
    · have hno' := noKey_iff.1 hno
      subst h4
      rw [does_eq]
      cases o with
      | visit m k g => exact .inr ⟨hno', Same.rfl' _, rfl⟩
      | insert m x f2 f1 => cases h3
      | erase k p => exact .inr ⟨hno', Same.rfl' _, rfl⟩
    · have := hsame (l' - a) (by omega) (by rw [Nat.add_sub_cancel' h1]; exact h3)
      rw [Nat.add_sub_cancel' h1, show a + (l' - a + 1) = l' + 1 by omega] at this
      exact this

/-- Thread 0 has called a visit of key 3 in container 0, where it is not; thread 1 swaps; the visit finds it. -/
def exSwapRun : List (MEv Nat Nat) := .exec 1 :: List.replicate 22 (.one 0 (.go 0))

def exSwap (i : Nat) : MState Nat Nat := (ex (.swap 0 1)).trace exC exV exF exSwapRun i

theorem trace_zero {S : MSys Nat Nat} {es : List (MEv Nat Nat)} : S.trace exC exV exF es 0 = S.state exC exF := by
  simp only [MSys.trace, List.take_zero, MSys.run, List.foldlM_nil]
  rfl

theorem answered {S : MSys Nat Nat} {es : List (MEv Nat Nat)} {t d b r : Nat} {o : Op Nat Nat}
    (h0 : Called (S.trace exC exV exF es 0) t d o) (h1 : ((S.trace exC exV exF es b).pc t d).answer = some r)
    (h2 : ∀ i < b, ((S.trace exC exV exF es i).pc t d).answer = none) : Executes (S.trace exC exV exF es) t d o 0 b r := by
  refine ⟨Nat.zero_le _, h0, Pc.answer_eq h1, fun i _ hi r' hq => ?_⟩
  have := h2 i hi
  rw [show (S.trace exC exV exF es i).pc t d = _ from hq] at this
  cases this

set_option maxRecDepth 100000 in
theorem exSwap_run : MReach exC exV exF (exSwap 0) ∧ MRun exC exV exSwap (whoM exSwapRun) (locM exSwapRun) 23 := by
  have h : MReach exC exV exF ((ex (.swap 0 1)).state exC exF) := (ran exStart_reach (by decide +kernel)).1
  exact ⟨by rw [exSwap, trace_zero]; exact h, (ran h (es := exSwapRun) (by decide +kernel)).2⟩

set_option maxRecDepth 100000 in
example : exF.Lawful ∧ MReach exC exV exF (exSwap 0) ∧ MRun exC exV exSwap (whoM exSwapRun) (locM exSwapRun) 23 ∧
    Executes exSwap 0 0 (.key (.visit .shared 3 (·.2))) 0 23 1 ∧ ¬ Elems (exSwap 0) 0 (3, 30) ∧ Elems (exSwap 1) 0 (3, 30) := by
  refine ⟨exF_lawful, exSwap_run.1, exSwap_run.2, answered rfl (by decide +kernel) (by decide +kernel), ?_, 0, 1, by decide +kernel⟩
  have hi := exSwap_run.1.inv exF_lawful
  have hout : ∀ u, ((exSwap 0).pc u 0).inside = false :=
    fun u => (MSys.free_sound (c := exC) (f := exF) (S := ex (.swap 0 1)) (t := 1) (o := .swap 0 1) (by decide +kernel)).out u 0 uses_fst
  have hno : (3, 30) ∉ ((exSwap 0).tabs 0).contents := by decide +kernel
  generalize exSwap 0 = s at hi hout hno
  have hinv : (s.tabs 0).Inv := (hi.each 0).quiescent hout
  exact fun hx => hno (hinv.mem.2 hx)

/-- In step `l` thread `t` passes an element with a key equivalent to `k` to the callback of its `visit_all` / `visit_while` /
`erase_if` on container `d`. -/
def PassesKey (σ : Nat → MState K V) (who : Nat → Nat) (loc : Nat → Option Nat) (t d : Nat) (k : K) (l : Nat) : Prop :=
  (who l = t ∧ loc l = some d) ∧ ∃ y, Passes ((σ l).view d) t y ∧ eqOf (σ l) d k y.1 = true

/-- A pass over a whole container that is not stopped by its callback passes every key that is present from its call to its
return to the callback exactly once, whatever other threads do to that and other containers in the meantime. -/
theorem C52_present_visited_once {c : MCfg} {veq : K × V → K × V → Bool} {f : Fns K} (hf : f.Lawful) {σ : Nat → MState K V}
    {who : Nat → Nat} {loc : Nat → Option Nat} {n : Nat} (h0 : MReach c veq f (σ 0)) (hr : MRun c veq σ who loc n) {t d : Nat}
    {m : Mode} {act : K × V → Verdict V} {a b r : Nat} (he : Executes σ t d (.sweep m act) a b r) (hb : b ≤ n)
    (hns : ∀ l, a ≤ l → l < b → who l = t → loc l = some d → ∀ y v e, Passes ((σ l).view d) t y → act y ≠ .stop v e) {k : K}
    (hp : ∀ i, a ≤ i → i ≤ b → Present (eqOf (σ i) d) (Elems (σ i) d) k) :
    ∃ l, a ≤ l ∧ l < b ∧ PassesKey σ who loc t d k l ∧ ∀ l', a ≤ l' → l' < b → PassesKey σ who loc t d k l' → l' = l := by
  have hle := he.le
  have hI := hr.inv (h0.inv hf)
  obtain ⟨l, hl, h1, h2, h3⟩ := pass_gen (cfg := c.toCfg) (σ := fun i => (σ (a + i)).view d)
    (own := fun i => who (a + i) = t ∧ loc (a + i) = some d) (n := b - a) (t := t) (md := m) (act := act)
    (fun i hi => (hI (a + i) (by omega)).each d) (fun i hi => hr.nowrap (a + i) (by omega) d)
    (fun i hi => (hr.step (a + i) (by omega)).ext (hI (a + i) (by omega)) d)
    (fun i hi hu => by
      have := hr.step (a + i) (by omega)
      rw [hu.1, hu.2] at this
      exact this.own)
    (fun i hi hu => (hr.step (a + i) (by omega)).other hu)
    he.called (fun i hi r' hq => he.running (a + i) (by omega) (by omega) r' hq)
    (fun i hi hu => hns (a + i) (by omega) (by omega) hu.1 hu.2) (r := r)
    (by have := he.returned; simp only [Nat.add_sub_cancel' he.le]; exact this) (x := k)
    (fun i hi => hp (a + i) (by omega) (by omega))
  refine ⟨a + l, by omega, by omega, ⟨h1, h2⟩, fun l' h4 h5 ⟨h6, h7⟩ => ?_⟩
  have := h3 (l' - a) (by omega) (by rw [Nat.add_sub_cancel' h4]; exact h6) (by rw [Nat.add_sub_cancel' h4]; exact h7)
  omega

/-- Thread 0 visits all elements of container 0, which are swapped with those of container 1 before it begins; key 2 is in both. -/
def exAll : Op Nat Nat := .sweep .shared fun y => .go y.2 1
def exAllStart : MSys Nat Nat := (exStart.run exC exV exF (exFill ++ [.one 0 (.op 0 exAll), .call 1 (.swap 0 1)])).getD exStart
def exAllRun : List (MEv Nat Nat) := .exec 1 :: List.replicate 8 (.one 0 (.go 0))

set_option maxRecDepth 100000 in
example : exF.Lawful ∧ MReach exC exV exF (exAllStart.trace exC exV exF exAllRun 0) ∧
    MRun exC exV (exAllStart.trace exC exV exF exAllRun) (whoM exAllRun) (locM exAllRun) 9 ∧
    Executes (exAllStart.trace exC exV exF exAllRun) 0 0 exAll 0 9 2 ∧
    (∀ y v e, (fun y : Nat × Nat => (Verdict.go y.2 1)) y ≠ .stop v e) ∧
    ∀ i, 0 ≤ i → i ≤ 9 → Present (eqOf (exAllStart.trace exC exV exF exAllRun i) 0)
      (Elems (exAllStart.trace exC exV exF exAllRun i) 0) 2 := by
  have h : MReach exC exV exF (exAllStart.state exC exF) := (ran exStart_reach (by decide +kernel)).1
  refine ⟨exF_lawful, by rw [trace_zero]; exact h, (ran h (es := exAllRun) (by decide +kernel)).2,
    answered (by rw [trace_zero]; rfl) (by decide +kernel) (by decide +kernel), (fun y v e h => by cases h), fun i _ hi => ?_⟩
  have key : ∀ i < 10, (((exAllStart.trace exC exV exF exAllRun i).mem 0).slot 0 0 = some (2, 21) ∨
      ((exAllStart.trace exC exV exF exAllRun i).mem 0).slot 0 1 = some (2, 20)) ∧
      eqOf (exAllStart.trace exC exV exF exAllRun i) 0 2 2 = true := by decide +kernel
  obtain ⟨h1 | h1, h2⟩ := key i (by omega)
  · exact ⟨(2, 21), ⟨0, 0, h1⟩, h2⟩
  · exact ⟨(2, 20), ⟨0, 1, h1⟩, h2⟩

end Props.ConcMulti

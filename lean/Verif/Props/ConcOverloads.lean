/-
Property C69: the public insertion functions of concurrent containers. The specification of single insertions is `SpecT.Insert`.
-/
import Verif.Conc.Overloads
import Verif.Props.ConcTable

namespace Props.ConcOverloads
open Conc.Tab Conc.Overloads Foa SpecT
open Conc.Locking (Mode)
open Props.ConcTable (Elems Called Returned Busy Executes Does Run.sub)
variable {A K V : Type}

/-! ### which insertion a call performs -/

/-- For every number of arguments, the last argument (the last two) of the functions with callbacks is the callback for an
existing element (preceded by the one for a new element), all the others make the element, in their order; the functions named
`cvisit` pass the existing element as const, the others may change it. -/
theorem C69_arguments (mk : List A → Option (K × V)) (tag : A) (as : List A) (a : A) (f1 f2 : K × V → V) :
    dispatch mk tag .emplace (as.map .val) = (mk as).map (fun x => .insert .shared x (·.2) (·.2)) ∧
    dispatch mk tag .emplaceOrVisit (as.map .val ++ [.fn f2]) = (mk as).map (fun x => .insert .excl x f2 (·.2)) ∧
    dispatch mk tag .emplaceOrCvisit (as.map .val ++ [.fn f2]) = (mk as).map (fun x => .insert .shared x f2 (·.2)) ∧
    dispatch mk tag .emplaceAndVisit (as.map .val ++ [.fn f1, .fn f2]) = (mk as).map (fun x => .insert .excl x f2 f1) ∧
    dispatch mk tag .emplaceAndCvisit (as.map .val ++ [.fn f1, .fn f2]) = (mk as).map (fun x => .insert .shared x f2 f1) ∧
    dispatch mk tag .tryEmplace (as.map .val) = (mk (tag :: as)).map (fun x => .insert .shared x (·.2) (·.2)) ∧
    dispatch mk tag .tryEmplaceOrVisit (as.map .val ++ [.fn f2]) = (mk (tag :: as)).map (fun x => .insert .excl x f2 (·.2)) ∧
    dispatch mk tag .tryEmplaceOrCvisit (as.map .val ++ [.fn f2]) = (mk (tag :: as)).map (fun x => .insert .shared x f2 (·.2)) ∧
    dispatch mk tag .tryEmplaceAndVisit (as.map .val ++ [.fn f1, .fn f2]) = (mk (tag :: as)).map (fun x => .insert .excl x f2 f1) ∧
    dispatch mk tag .tryEmplaceAndCvisit (as.map .val ++ [.fn f1, .fn f2]) =
      (mk (tag :: as)).map (fun x => .insert .shared x f2 f1) ∧
    dispatch mk tag .insert [.val a] = (mk [a]).map (fun x => .insert .shared x (·.2) (·.2)) ∧
    dispatch mk tag .insertOrVisit [.val a, .fn f2] = (mk [a]).map (fun x => .insert .excl x f2 (·.2)) ∧
    dispatch mk tag .insertOrCvisit [.val a, .fn f2] = (mk [a]).map (fun x => .insert .shared x f2 (·.2)) ∧
    dispatch mk tag .insertAndVisit [.val a, .fn f1, .fn f2] = (mk [a]).map (fun x => .insert .excl x f2 f1) ∧
    dispatch mk tag .insertAndCvisit [.val a, .fn f1, .fn f2] = (mk [a]).map (fun x => .insert .shared x f2 f1) := by
  have h1 : ∀ m, orVisitFlast mk m (.val tag :: (as.map .val ++ [.fn f2])) = _ := fun m => orVisitFlast_eq mk m (tag :: as) f2
  have h2 : ∀ m, andVisitFlast mk m (.val tag :: (as.map .val ++ [.fn f1, .fn f2])) = _ :=
    fun m => andVisitFlast_eq mk m (tag :: as) f1 f2
  refine ⟨?_, orVisitFlast_eq .., orVisitFlast_eq .., andVisitFlast_eq .., andVisitFlast_eq .., ?_, h1 _, h1 _, h2 _, h2 _,
    ?_, ?_, ?_, ?_, ?_⟩
  · simp only [dispatch, emplaceImpl, emplaceOrVisitImpl, emplaceAndVisitImpl, nop, vals_map, Option.bind_some]
  · simp only [dispatch, emplaceImpl, emplaceOrVisitImpl, emplaceAndVisitImpl, nop, vals, vals_map, Option.map_some,
      Option.bind_some]
  all_goals simp [dispatch, emplaceImpl, emplaceOrVisitImpl, emplaceAndVisitImpl, nop, vals]

/-- Three constructor arguments and two callbacks. -/
example : dispatch (fun l : List Nat => some (l.headD 0, l.sum)) 99 .emplaceAndVisit
    [.val 1, .val 2, .val 3, .fn (fun x => x.2 + 1), .fn (fun x => x.2 + 2)] =
      some (.insert .excl (1, 6) (fun x => x.2 + 2) (fun x => x.2 + 1)) := rfl

section
variable {cfg : Cfg} {f : Fns K} (hf : f.Lawful) {al c : Nat} {σ : Nat → State K V} {who : Nat → Nat} {n : Nat}
  (h0 : Reach cfg f al c (σ 0)) (hr : Run cfg σ who n)
include hf h0 hr

/-- `insert_or_assign(k,obj)`, in any run: at one of its steps an equivalent element gets the mapped value `obj` (answer false),
or an element is made from `k` and the argument and added (answer true). -/
theorem C69_insert_or_assign (mk : List A → Option (K × V)) (tag k a : A) {x : K × V} (hx : mk [tag, k, a] = some x) :
    ∃ o, insertOrAssign mk tag k a x.2 = some o ∧ ∀ {t s b r : Nat}, Executes σ t (.key o) s b r → b ≤ n →
      ∃ l, s ≤ l ∧ l < b ∧ who l = t ∧
        ((∃ y, Elems (σ l) y ∧ f.eq x.1 y.1 = true ∧ Replaced (Elems (σ l)) (Elems (σ (l + 1))) y (y.1, x.2) ∧ r = 0) ∨
         (¬ Present f.eq (Elems (σ l)) x.1 ∧ Added (Elems (σ l)) (Elems (σ (l + 1))) x ∧ r = 1)) := by
  refine ⟨.insert .excl x (fun _ => x.2) (·.2), ?_, fun {t s b r} he hb => ?_⟩
  · have := (C69_arguments mk tag [k, a] k (fun _ => x.2) fun _ => x.2).2.2.2.2.2.2.1
    simpa [insertOrAssign, hx] using this
  · rcases ConcTable.linearizable_of_inv (h0.inv hf) (h0.fns hf) hr he hb with ⟨l, h1, h2, h3, h4, _⟩ | ⟨h, _⟩
    · rcases h4 with ⟨y, h5, h6, h7, h8⟩ | ⟨h5, h6, h7⟩
      · exact ⟨l, h1, h2, h3, .inl ⟨y, h5, h6, h7, h8⟩⟩
      · exact ⟨l, h1, h2, h3, .inr ⟨h5, h6, h7⟩⟩
    · exact absurd rfl (h _ _ _ _)

/-! ### ranges -/

/-- A step adds an element whose key was absent. -/
def Adds (eq : K → K → Bool) (s s' : State K V) : Prop := ∃ x, Elems s' x ∧ ¬ Present eq (Elems s) x.1

open Classical in
/-- The number of elements that thread `t` adds in the `m` steps from `a`. -/
noncomputable def added (eq : K → K → Bool) (σ : Nat → State K V) (who : Nat → Nat) (t a : Nat) : Nat → Nat
  | 0 => 0
  | m + 1 => added eq σ who t a m + if who (a + m) = t ∧ Adds eq (σ (a + m)) (σ (a + m + 1)) then 1 else 0

/-- Thread `t` calls the insertions one after another, doing nothing else in between, from state `a` to state `b`, and gets the
answers. -/
inductive Loops (σ : Nat → State K V) (t : Nat) : List (KOp K V) → Nat → Nat → List Nat → Prop where
  | last {o a b r} : Executes σ t (.key o) a b r → Loops σ t [o] a b [r]
  | next {o os a b a' b' r rs} : Executes σ t (.key o) a b r → b ≤ a' → (∀ i, b ≤ i → i < a' → ∃ q, Returned (σ i) t q) →
      Loops σ t os a' b' rs → Loops σ t (o :: os) a b' (r :: rs)

omit hf h0 hr in
theorem Loops.le {t : Nat} {os : List (KOp K V)} {a b : Nat} {rs : List Nat} (h : Loops σ t os a b rs) :
    a ≤ b ∧ rs.length = os.length := by
  induction h with
  | last h => exact ⟨h.le, rfl⟩
  | next h h1 _ _ ih => exact ⟨h.le.trans (h1.trans ih.1), by simp [ih.2]⟩

omit hf h0 hr in
theorem added_add (eq : K → K → Bool) (t a m m' : Nat) :
    added eq σ who t a (m + m') = added eq σ who t a m + added eq σ who t (a + m) m' := by
  induction m' with
  | zero => rfl
  | succ k ih =>
    have e : a + (m + k) = a + m + k := by omega
    rw [← Nat.add_assoc, added, ih, added, e]
    omega

omit hf h0 hr in
theorem added_zero {eq : K → K → Bool} {t a m : Nat} (h : ∀ i, a ≤ i → i < a + m → who i = t → ¬ Adds eq (σ i) (σ (i + 1))) :
    added eq σ who t a m = 0 := by
  induction m with
  | zero => rfl
  | succ k ih =>
    rw [added, ih fun i h1 h2 => h i h1 (by omega), if_neg]
    rintro ⟨h1, h2⟩
    exact h (a + k) (by omega) (by omega) h1 h2

omit hf h0 hr in
theorem added_single {eq : K → K → Bool} {t l : Nat} (hw : who l = t) (ha : Adds eq (σ l) (σ (l + 1))) :
    added eq σ who t l 1 = 1 := by
  show added eq σ who t l (0 + 1) = 1
  rw [added, added, if_pos ⟨hw, ha⟩]

omit hf h0 hr in
theorem added_one {eq : K → K → Bool} {t a m l : Nat} (hl : a ≤ l) (hl2 : l < a + m) (hw : who l = t)
    (ha : Adds eq (σ l) (σ (l + 1)))
    (h : ∀ i, a ≤ i → i < a + m → who i = t → i ≠ l → ¬ Adds eq (σ i) (σ (i + 1))) : added eq σ who t a m = 1 := by
  have e : m = (l - a) + (1 + (a + m - l - 1)) := by omega
  rw [e, added_add, added_add, show a + (l - a) = l by omega, added_single hw ha, added_zero, added_zero]
  · intro i h1 h2 h3
    exact h i (by omega) (by omega) h3 (by omega)
  · intro i h1 h2 h3
    exact h i (by omega) (by omega) h3 (by omega)

omit h0 hr in
theorem not_adds_same {s s' : State K V} (h : Same (Elems s) (Elems s')) : ¬ Adds f.eq s s' := by
  rintro ⟨x, h1, h2⟩
  exact h2 ⟨x, (h x).1 h1, hf.refl _⟩

/-- One insertion adds one element if it answers true, none otherwise. -/
theorem added_executes {t a b r : Nat} {m : Mode} {x : K × V} {f2 f1 : K × V → V}
    (he : Executes σ t (.key (.insert m x f2 f1)) a b r) (hb : b ≤ n) :
    added f.eq σ who t a (b - a) = if r ≠ 0 then 1 else 0 := by
  have hle := he.le
  have hsub : ∀ {B B' : Con K V}, Does f.eq (.insert m x f2 f1) B B' r → ∃ w, Insert f.eq w x f2 f1 B B' r := by
    intro B B' hd; cases m <;> exact ⟨_, hd⟩
  rcases ConcTable.C42_linearizable hf h0 hr he hb with ⟨l, h1, h2, h3, h4, h5⟩ | ⟨l, h1, h2, h4, h5⟩
  · have hrest : ∀ i, a ≤ i → i < a + (b - a) → who i = t → i ≠ l → ¬ Adds f.eq (σ i) (σ (i + 1)) :=
      fun i hi1 hi2 hi3 hi4 => not_adds_same hf (h5 i hi1 (by omega) hi3 hi4)
    obtain ⟨w, ⟨y, h6, h7, h8, h9⟩ | ⟨h6, h7, h8⟩⟩ := hsub h4
    · subst h9
      simp only [ne_eq, not_true_eq_false, if_false]
      refine added_zero fun i hi1 hi2 hi3 => ?_
      by_cases hil : i = l
      · subst hil
        rintro ⟨z, h10, h11⟩
        rcases (h8 z).1 h10 with ⟨h, _⟩ | h
        · exact h11 ⟨z, h, hf.refl _⟩
        · exact h11 ⟨y, h6, by rw [h]; exact hf.refl _⟩
      · exact hrest i hi1 hi2 hi3 hil
    · subst h8
      exact added_one h1 (by omega) h3 ⟨(x.1, f1 x), (h7 _).2 (.inr rfl), h6⟩ hrest
  · obtain ⟨w, ⟨y, h6, h7, h8, h9⟩ | ⟨h6, h7, h8⟩⟩ := hsub h4
    · subst h9
      simp only [ne_eq, not_true_eq_false, if_false]
      exact added_zero fun i hi1 hi2 hi3 => not_adds_same hf (h5 i hi1 (by omega) hi3)
    · exact absurd ⟨_, (h7 _).2 (.inr rfl), hf.refl _⟩ h6

/-- Of a range of insertions by one thread, in any run, as many elements are added as insertions answer true. -/
theorem added_loops {t : Nat} {os : List (KOp K V)} {a b : Nat} {rs : List Nat} (h : Loops σ t os a b rs)
    (ho : ∀ o ∈ os, ∃ m x f2 f1, o = .insert m x f2 f1) (hb : b ≤ n) :
    added f.eq σ who t a (b - a) = (rs.filter (· ≠ 0)).length := by
  induction h with
  | @last o a b r h =>
    obtain ⟨m, x, f2, f1, rfl⟩ := ho o (List.mem_cons_self ..)
    rw [added_executes hf h0 hr h hb]
    by_cases h : r = 0 <;> simp [h]
  | @next o os a b a' b' r rs h h1 h2 h3 ih =>
    obtain ⟨m, x, f2, f1, rfl⟩ := ho o (List.mem_cons_self ..)
    have hle := h.le
    have hle' := h3.le.1
    rw [show b' - a = (b - a) + ((a' - b) + (b' - a')) by omega, added_add, added_add, added_executes hf h0 hr h (by omega),
      show a + (b - a) = b by omega, show b + (a' - b) = a' by omega,
      ih (fun o ho' => ho o (List.mem_cons_of_mem _ ho')) hb, added_zero]
    · by_cases h : r = 0 <;> simp [h]
      omega
    · intro i hi1 hi2 hi3
      obtain ⟨q, hq⟩ := h2 i hi1 (by omega)
      have hs := hr.step i (by omega)
      rw [hi3] at hs
      refine not_adds_same hf ?_
      have : (σ (i + 1)).mem = (σ i).mem := by
        generalize σ (i + 1) = s' at hs
        unfold Returned at hq
        cases hs with
        | quiet h => rfl
        | eff h => rw [hq] at h; cases h
        | alone _ h => rw [hq] at h; cases h
      intro x
      simp only [Elems, this]

/-- `insert(first,last)`, `insert_range(rg)`, `insert(il)`: in any run, whatever other threads do, the answer is the number of
elements the call added. -/
theorem C69_range_insert {t : Nat} {xs : List (K × V)} {a b : Nat} {rs : List Nat}
    (h : Loops σ t (xs.map fun x => .insert .shared x (·.2) (·.2)) a b rs) (hb : b ≤ n) :
    insertCount rs 0 = added f.eq σ who t a (b - a) := by
  rw [insertCount_eq, Nat.zero_add, added_loops hf h0 hr h (by simp only [List.mem_map]; rintro o ⟨x, _, rfl⟩; exact ⟨_, _, _, _, rfl⟩) hb]

/-- The full claim of the documentation for the functions with callbacks ("Returns: The number of elements inserted"). -/
def RangeVisitClaim (K V : Type) : Prop :=
  ∀ (cfg : Cfg) (f : Fns K) (al c : Nat) (σ : Nat → State K V) (who : Nat → Nat) (n : Nat), f.Lawful → Reach cfg f al c (σ 0) →
    Run cfg σ who n → ∀ (t : Nat) (m : Mode) (f2 f1 : K × V → V) (xs : List (K × V)) (a b : Nat) (rs : List Nat),
    Loops σ t (xs.map fun x => .insert m x f2 f1) a b rs → b ≤ n → visitCount rs 0 = added f.eq σ who t a (b - a)

/-- What holds of `insert_or_[c]visit`, `insert_and_[c]visit` and `insert_range_*` with a range: the answer is the number of
elements of the range, and exceeds the number of elements added by the number of insertions that found an equivalent element. -/
theorem C69_range_visit_partial {t : Nat} {m : Mode} {f2 f1 : K × V → V} {xs : List (K × V)} {a b : Nat} {rs : List Nat}
    (h : Loops σ t (xs.map fun x => .insert m x f2 f1) a b rs) (hb : b ≤ n) :
    visitCount rs 0 = xs.length ∧
    visitCount rs 0 = added f.eq σ who t a (b - a) + (rs.filter (· = 0)).length := by
  have h1 := h.le.2
  rw [List.length_map] at h1
  rw [visitCount_eq, Nat.zero_add,
    added_loops hf h0 hr h (by simp only [List.mem_map]; rintro o ⟨x, _, rfl⟩; exact ⟨_, _, _, _, rfl⟩) hb]
  refine ⟨h1, ?_⟩
  clear h h1 hb
  induction rs with
  | nil => rfl
  | cons r rs ih => by_cases hr : r = 0 <;> simp_all <;> omega
end

/-! ### a run -/

open Props.ConcTable (exF exF_lawful go ex0)

def ins (k v : Nat) : KOp Nat Nat := .insert .excl (k, v) (fun _ => 0) (·.2)
/-- `insert_or_visit({{1,10},{1,20}},f)` -/
def evs : List (Ev Nat Nat) := go 0 26 ++ .op 0 (.key (ins 1 20)) :: go 0 23
def sys1 : Sys Nat Nat := ⟨ex0.mem, [.start (.key (ins 1 10))]⟩
def σ1 : Nat → State Nat Nat := sys1.trace {} evs

theorem sys1_reach : Reach {} exF 0 20 (σ1 0) := by
  have h : (Sys.init {} exF 0 20 1 : Sys Nat Nat).run {} [.op 0 (.key (ins 1 10))] = some sys1 := rfl
  have h0 : Reach {} exF 0 20 (Sys.init {} exF 0 20 1 : Sys Nat Nat).state := by rw [Sys.init_state]; exact .init
  exact Sys.run_reach h0 h

set_option maxRecDepth 100000 in
theorem σ1_run : Run {} σ1 (who evs) 50 := ConcTable.ran (by decide +kernel)

theorem called_of_step {S T : Sys Nat Nat} {t : Nat} {o : Op Nat Nat} (h : S.step {} (.op t o) = some T) :
    T.state.pc t = .start o := by
  simp only [Sys.step] at h
  split at h
  · rename_i hlt
    have key : ∀ m, (⟨m, S.pcs.set t (.start o)⟩ : Sys Nat Nat).state.pc t = .start o := by
      intro m
      rw [Sys.set_state (show t < S.pcs.length from hlt.1)]
      simp [State.set]
    simp only [Ev.op] at h
    split at h
    · cases h; exact key _
    · cases h; exact key _
    · cases h
  · cases h

set_option maxRecDepth 100000 in
theorem σ1_loops : Loops σ1 0 ([(1, 10), (1, 20)].map fun x => .insert .excl x (fun _ => 0) (·.2)) 0 50 [1, 0] := by
  have h1 : ((σ1 26).pc 0).answer = some 1 := by decide +kernel
  have h2 : ((σ1 50).pc 0).answer = some 0 := by decide +kernel
  have h3 : ∀ i < 26, ((σ1 i).pc 0).answer = none := by decide +kernel
  have h4 : ∀ i < 50, 27 ≤ i → ((σ1 i).pc 0).answer = none := by decide +kernel
  refine .next (b := 26) (a' := 27) ⟨by decide, rfl, (ConcTable.answers h1).1 _ rfl, fun i _ hi => (ConcTable.answers (h3 i hi)).2 rfl⟩
    (by decide) ?_ (.last ⟨by decide, ?_, (ConcTable.answers h2).1 _ rfl, fun i h5 hi => (ConcTable.answers (h4 i hi h5)).2 rfl⟩)
  · intro i h5 h6
    obtain rfl : i = 26 := by omega
    exact ⟨1, (ConcTable.answers h1).1 _ rfl⟩
  · obtain ⟨S, hS⟩ : ∃ S, sys1.run {} (evs.take 26) = some S := Option.isSome_iff_exists.1 (by decide +kernel)
    have hS' : sys1.run {} (evs.take 27) = S.step {} (.op 0 (.key (ins 1 20))) := by
      show sys1.run {} (evs.take 26 ++ [.op 0 (.key (ins 1 20))]) = _
      rw [Sys.run_append, hS]
      show Sys.run {} S [_] = _
      simp [Sys.run]
    obtain ⟨T, hT⟩ : ∃ S, sys1.run {} (evs.take 27) = some S := Option.isSome_iff_exists.1 (by decide +kernel)
    show ((sys1.run {} (evs.take 27)).getD sys1).state.pc 0 = _
    rw [hT]
    rw [hT] at hS'
    exact called_of_step hS'.symm

/-- The documented answer is wrong: `insert_or_visit` with the range {1,10}, {1,20} answers 2 and adds one element. -/
theorem C69_range_visit_claim_false : ¬ RangeVisitClaim Nat Nat := by
  intro h
  have h1 := h _ _ _ _ _ _ _ exF_lawful sys1_reach σ1_run _ _ _ _ _ _ _ _ σ1_loops le_rfl
  rw [added_loops exF_lawful sys1_reach σ1_run σ1_loops
    (by simp only [List.mem_map]; rintro o ⟨x, _, rfl⟩; exact ⟨_, _, _, _, rfl⟩) le_rfl] at h1
  revert h1; decide

/-- The hypotheses of the theorems about ranges are met by this run. -/
example : exF.Lawful ∧ Reach {} exF 0 20 (σ1 0) ∧ Run {} σ1 (who evs) 50 ∧
    Loops σ1 0 ([(1, 10), (1, 20)].map fun x => .insert .excl x (fun _ => 0) (·.2)) 0 50 [1, 0] :=
  ⟨exF_lawful, sys1_reach, σ1_run, σ1_loops⟩

end Props.ConcOverloads

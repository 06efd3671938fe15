/-
Operations of concurrent containers called from the functions that users pass to operations of other concurrent containers: which
locks are held meanwhile. Source: /repo/include/boost/unordered/detail/foa/concurrent_table.hpp.

A `Code` lists the operations one execution of a thread goes through, with the operations called from inside each; it does not say
what decided them, and an execution left by an exception is the `Code` of what it did before (the guards give their locks back in
reverse order either way).
-/
import Verif.Conc.Locking

namespace Conc.Nested
open Conc.Locking

mutual
/-- What a thread does: operations one after the other. -/
inductive Code where
  | done
  /-- an operation under `shared_access()` (concurrent_table.hpp:1127-1132) -/
  | shared (c : Nat) (b : Body) (next : Code)
  /-- an operation under `exclusive_access()` (concurrent_table.hpp:1134-1137); `inner` is what user code (hash function,
  constructors, a predicate of `erase_if`, ...) calls meanwhile -/
  | excl (c : Nat) (inner next : Code)
  /-- an operation under `exclusive_access(x,y)` (concurrent_table.hpp:1139-1151) -/
  | both (x y : Nat) (inner next : Code)
/-- What happens inside an operation under shared access. -/
inductive Body where
  | done
  /-- user code called with no group locked (e.g. the hash function, concurrent_table.hpp:1206-1214) -/
  | user (inner : Code) (next : Body)
  /-- group `g` is locked and user code called (visitation function, equality, constructors; concurrent_table.hpp:1309-1331,
  1384-1404, 1702-1712, 1759-1777) -/
  | group (g : Nat) (m : Mode) (inner : Code) (next : Body)
end

mutual
/-- The locks taken and given back by a thread with identifier `id` (`thread_local auto id=(++thread_counter)%mutexes.size()`,
concurrent_table.hpp:1129; `scoped_bilock`, 170-192; `multimutex`, 119-120). Guards are scoped, so whatever the inner code does is
between taking and giving back. -/
def Code.plan (id : Nat) : Code → List LAct
  | .done => []
  | .shared c b next => .acq (.mutex c (id % mutexCount)) .shared :: b.plan id c ++
      .rel (.mutex c (id % mutexCount)) .shared :: next.plan id
  | .excl c inner next => lockAll c ++ inner.plan id ++ unlockAll c ++ next.plan id
  | .both x y inner next =>
      if x = y then lockAll (if x < y then x else y) ++ inner.plan id ++ unlockAll (if x < y then x else y) ++ next.plan id
      else lockAll (if x < y then x else y) ++ lockAll (if x < y then y else x) ++ inner.plan id ++
        unlockAll (if x < y then y else x) ++ unlockAll (if x < y then x else y) ++ next.plan id
/-- Inside shared access to `c`; the guards of groups live for one iteration (concurrent_table.hpp:1316, 1384, 1702, 1767). -/
def Body.plan (id c : Nat) : Body → List LAct
  | .done => []
  | .user inner next => inner.plan id ++ next.plan id c
  | .group g m inner next => .acq (.group c g) m :: inner.plan id ++ .rel (.group c g) m :: next.plan id c
end

/-! ### ordered programs follow the lock order -/

mutual
/-- The containers the operations of a program are on, at any depth. -/
def Code.conts : Code → List Nat
  | .done => []
  | .shared c b next => c :: b.conts ++ next.conts
  | .excl c inner next => c :: inner.conts ++ next.conts
  | .both x y inner next => x :: y :: inner.conts ++ next.conts
def Body.conts : Body → List Nat
  | .done => []
  | .user inner next => inner.conts ++ next.conts
  | .group _ _ inner next => inner.conts ++ next.conts
end

/-- The container a lock belongs to. -/
def _root_.Conc.Locking.Lock.addr : Lock → Nat
  | .mutex a _ => a
  | .group a _ => a

theorem rank_of_level {lv : Nat → Nat} {l l' : Lock} (h : lv l.addr < lv l'.addr) : l.rank lv < l'.rank lv := by
  cases l <;> cases l' <;> simp only [Lock.rank, Lock.addr, Prod.Lex.toLex_lt_toLex] at * <;> exact .inl h

mutual
/-- Operations called from inside an operation on a container are on containers of higher levels, and the two containers of a
two-container operation have levels that do not contradict their addresses. -/
def Code.Ordered (lv : Nat → Nat) : Code → Prop
  | .done => True
  | .shared c b next => (∀ d ∈ b.conts, lv c < lv d) ∧ b.Ordered lv ∧ next.Ordered lv
  | .excl c inner next => (∀ d ∈ inner.conts, lv c < lv d) ∧ inner.Ordered lv ∧ next.Ordered lv
  | .both x y inner next => (∀ d ∈ inner.conts, lv x < lv d ∧ lv y < lv d) ∧ (x < y → lv x ≤ lv y) ∧ (y < x → lv y ≤ lv x) ∧
      inner.Ordered lv ∧ next.Ordered lv
def Body.Ordered (lv : Nat → Nat) : Body → Prop
  | .done => True
  | .user inner next => inner.Ordered lv ∧ next.Ordered lv
  | .group _ _ inner next => inner.Ordered lv ∧ next.Ordered lv
end

/-- Everything held is below every container of the list. -/
def Under (lv : Nat → Nat) (held : Held) (cs : List Nat) : Prop := ∀ h ∈ held, ∀ d ∈ cs, lv h.1.addr < lv d

theorem Under.rank {lv : Nat → Nat} {held : Held} {cs : List Nat} (h : Under lv held cs) {l : Lock} (hl : l.addr ∈ cs) :
    ∀ x ∈ held, x.1.rank lv < l.rank lv := fun x hx => rank_of_level (h x hx _ hl)

theorem Under.mono {lv : Nat → Nat} {held : Held} {cs ds : List Nat} (h : Under lv held cs) (hd : ∀ d ∈ ds, d ∈ cs) :
    Under lv held ds := fun x hx d hd' => h x hx d (hd d hd')

theorem Under.all {lv : Nat → Nat} {held : Held} {cs : List Nat} {c : Nat} (h : Under lv held cs) (hc : ∀ d ∈ cs, lv c < lv d) :
    Under lv ((mutexesOf c).reverse.map (fun l => (l, .excl)) ++ held) cs := by
  intro x hx d hd
  rcases mem_mutexes hx with ⟨j, e⟩ | hx
  · rw [e]; exact hc d hd
  · exact h x hx d hd

mutual
theorem Code.good (lv : Nat → Nat) (id : Nat) : ∀ (p : Code) (held : Held) (rest : List LAct), p.Ordered lv → Under lv held p.conts →
    Good lv held rest → Good lv held (p.plan id ++ rest)
  | .done, _, _, _, _, h => h
  | .shared c b next, held, rest, ho, hu, h => by
    have h2 := Code.good lv id next held rest ho.2.2 (hu.mono (by simp [Code.conts]; tauto)) h
    simp only [Code.plan, List.cons_append, List.append_assoc]
    refine ⟨hu.rank (by simp [Code.conts, Lock.addr]), ?_⟩
    refine Body.good lv id c b held _ _ ho.2.1 ho.1 (hu.mono (by simp [Code.conts]; tauto)) ⟨by simp, ?_⟩
    rw [List.erase_cons_head]; exact h2
  | .excl c inner next, held, rest, ho, hu, h => by
    have h2 := Code.good lv id next held rest ho.2.2 (hu.mono (by simp [Code.conts]; tauto)) h
    have h1 := fun rest' => Code.good lv id inner ((mutexesOf c).reverse.map (fun l => (l, .excl)) ++ held) rest' ho.2.1
      ((hu.mono (by simp [Code.conts]; tauto)).all ho.1)
    have := good_excl c (fun x hx i => hu.rank (l := .mutex c i) (by simp [Code.conts, Lock.addr]) x hx) h1 h2
    simpa only [Code.plan, List.append_assoc] using this
  | .both x y inner next, held, rest, ho, hu, h => by
    obtain ⟨o1, o2, o3, o4, o5⟩ := ho
    have h2 := Code.good lv id next held rest o5 (hu.mono (by simp [Code.conts]; tauto)) h
    have hx : ∀ h ∈ held, ∀ i, h.1.rank lv < (Lock.mutex x i).rank lv :=
      fun z hz i => hu.rank (l := .mutex x i) (by simp [Code.conts, Lock.addr]) z hz
    have hy : ∀ h ∈ held, ∀ i, h.1.rank lv < (Lock.mutex y i).rank lv :=
      fun z hz i => hu.rank (l := .mutex y i) (by simp [Code.conts, Lock.addr]) z hz
    have hi : Under lv held inner.conts := hu.mono (by simp [Code.conts]; tauto)
    simp only [Code.plan]
    split
    · next e =>
      subst e
      simp only [Nat.lt_irrefl, if_false]
      have h1 := fun rest' => Code.good lv id inner ((mutexesOf x).reverse.map (fun l => (l, .excl)) ++ held) rest' o4
        (hi.all fun d hd => (o1 d hd).1)
      simpa only [List.append_assoc] using good_excl x hx h1 h2
    · next hne =>
      split
      · next hlt =>
        have h1 := fun rest' => Code.good lv id inner ((mutexesOf y).reverse.map (fun l => (l, .excl)) ++
          ((mutexesOf x).reverse.map (fun l => (l, .excl)) ++ held)) rest' o4
          ((hi.all fun d hd => (o1 d hd).1).all fun d hd => (o1 d hd).2)
        simpa only [List.append_assoc] using good_two hlt (o2 hlt) (fun z hz i => ⟨hx z hz i, hy z hz i⟩) h1 h2
      · next hlt =>
        have hlt : y < x := by omega
        have h1 := fun rest' => Code.good lv id inner ((mutexesOf x).reverse.map (fun l => (l, .excl)) ++
          ((mutexesOf y).reverse.map (fun l => (l, .excl)) ++ held)) rest' o4
          ((hi.all fun d hd => (o1 d hd).2).all fun d hd => (o1 d hd).1)
        simpa only [List.append_assoc] using good_two hlt (o3 hlt) (fun z hz i => ⟨hy z hz i, hx z hz i⟩) h1 h2
theorem Body.good (lv : Nat → Nat) (id c : Nat) : ∀ (b : Body) (held : Held) (i : Nat) (rest : List LAct), b.Ordered lv →
    (∀ d ∈ b.conts, lv c < lv d) → Under lv held (c :: b.conts) →
    Good lv ((.mutex c i, .shared) :: held) rest → Good lv ((.mutex c i, .shared) :: held) (b.plan id c ++ rest)
  | .done, _, _, _, _, _, _, h => h
  | .user inner next, held, i, rest, ho, hc, hu, h => by
    have h2 := Body.good lv id c next held i rest ho.2 (fun d hd => hc d (by simp [Body.conts, hd]))
      (hu.mono (by simp [Body.conts]; tauto)) h
    simp only [Body.plan, List.append_assoc]
    refine Code.good lv id inner _ _ ho.1 ?_ h2
    intro x hx d hd
    have hd' : d ∈ (Body.user inner next).conts := by simp [Body.conts, hd]
    rcases List.mem_cons.1 hx with rfl | hx
    · exact hc d hd'
    · exact hu x hx d (List.mem_cons_of_mem _ hd')
  | .group g m inner next, held, i, rest, ho, hc, hu, h => by
    have h2 := Body.good lv id c next held i rest ho.2 (fun d hd => hc d (by simp [Body.conts, hd]))
      (hu.mono (by simp [Body.conts]; tauto)) h
    simp only [Body.plan, List.cons_append, List.append_assoc]
    refine ⟨fun x hx => ?_, ?_⟩
    · rcases List.mem_cons.1 hx with rfl | hx
      · exact mutex_lt_group _ _ _
      · exact hu.rank (l := .group c g) (by simp [Lock.addr]) x hx
    · refine Code.good lv id inner _ _ ho.1 ?_ ⟨by simp, ?_⟩
      · intro x hx d hd
        have hd' : d ∈ (Body.group g m inner next).conts := by simp [Body.conts, hd]
        rcases List.mem_cons.1 hx with rfl | hx
        · exact hc d hd'
        rcases List.mem_cons.1 hx with rfl | hx
        · exact hc d hd'
        · exact hu x hx d (List.mem_cons_of_mem _ hd')
      · rw [List.erase_cons_head]; exact h2
end

end Conc.Nested

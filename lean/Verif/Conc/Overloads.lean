/-
The public insertion functions of concurrent containers: how their arguments reach the one insertion routine, and the loops of the
range overloads.
Source: /repo/include/boost/unordered/detail/foa/tuple_rotate_right.hpp, detail/foa/concurrent_table.hpp:685-900, 1430-1611,
concurrent_flat_map.hpp:462-935 (concurrent_flat_set, concurrent_node_map and concurrent_node_set have the same functions).
-/
import Verif.Conc.Table
import Mathlib.Data.List.Rotate

namespace Conc.Overloads
open Conc.Tab
open Conc.Locking (Mode)
variable {α A K V : Type}

/-- `tuple_rotate_right<Offset>(x)`: `{std::get<(Is+sizeof...(Is)-Offset)%sizeof...(Is)>(x)...}` (tuple_rotate_right.hpp:28-45). -/
def rotateRight (off : Nat) (l : List α) : List α :=
  List.ofFn fun i : Fin l.length => l[(i.val + l.length - off) % l.length]'(Nat.mod_lt _ (by have := i.2; omega))

/-- An argument of a call: something an element is made from (`A`, including the tag `try_emplace_args_t{}`), or a callback. -/
inductive Arg (A K V : Type) where
  | val (a : A)
  | fn (f : K × V → V)

/-- The arguments an element is made from; `none` if a callback is among them (the call does not compile). -/
def vals : List (Arg A K V) → Option (List A)
  | [] => some []
  | .val a :: l => (vals l).map (a :: ·)
  | .fn _ :: _ => none

section
/- `mk` makes the element from constructor arguments, `tag` is `try_emplace_args_t{}`. -/
variable (mk : List A → Option (K × V)) (tag : A)

/-- `[](const value_type&){}` -/
def nop : Arg A K V := .fn (·.2)

/-- `emplace_and_visit_impl(access_mode,f1,f2,args...)` (concurrent_table.hpp:1597-1611), and `construct_and_emplace_and_visit`
(1496-1516), which makes the element first and retries with it after a rehash: the insertion `KOp.insert`. -/
def emplaceAndVisitImpl (m : Mode) : Arg A K V → Arg A K V → List (Arg A K V) → Option (KOp K V)
  | .fn f1, .fn f2, args => (vals args).bind fun as => (mk as).map fun x => .insert m x f2 f1
  | _, _, _ => none

/-- `emplace_or_visit_impl(access_mode,f,args...)` (concurrent_table.hpp:1587-1595), `construct_and_emplace_or_visit` (1486-1494). -/
def emplaceOrVisitImpl (m : Mode) (f : Arg A K V) (args : List (Arg A K V)) : Option (KOp K V) :=
  emplaceAndVisitImpl mk m nop f args

/-- `emplace_or_visit_flast` (concurrent_table.hpp:1549-1562), `construct_and_emplace_or_visit_flast` (1449-1460). -/
def orVisitFlast (m : Mode) (args : List (Arg A K V)) : Option (KOp K V) :=
  match rotateRight 1 args with
  | f :: rest => emplaceOrVisitImpl mk m f rest
  | _ => none

/-- `emplace_and_visit_flast` (concurrent_table.hpp:1574-1586), `construct_and_emplace_and_visit_flast` (1473-1485). -/
def andVisitFlast (m : Mode) (args : List (Arg A K V)) : Option (KOp K V) :=
  match rotateRight 2 args with
  | f1 :: f2 :: rest => emplaceAndVisitImpl mk m f1 f2 rest
  | _ => none

/-- `emplace_impl(args...)` (concurrent_table.hpp:1518-1523), `construct_and_emplace` (1431-1436). -/
def emplaceImpl (args : List (Arg A K V)) : Option (KOp K V) := emplaceOrVisitImpl mk .shared nop args

/-- The public functions. -/
inductive Fn where
  | emplace | emplaceOrVisit | emplaceOrCvisit | emplaceAndVisit | emplaceAndCvisit
  | tryEmplace | tryEmplaceOrVisit | tryEmplaceOrCvisit | tryEmplaceAndVisit | tryEmplaceAndCvisit
  | insert | insertOrVisit | insertOrCvisit | insertAndVisit | insertAndCvisit

/-- The insertion a call performs (concurrent_table.hpp:685-900; the public classes forward their arguments in order). -/
def dispatch : Fn → List (Arg A K V) → Option (KOp K V)
  | .emplace, as => emplaceImpl mk as
  | .emplaceOrVisit, as => orVisitFlast mk .excl as
  | .emplaceOrCvisit, as => orVisitFlast mk .shared as
  | .emplaceAndVisit, as => andVisitFlast mk .excl as
  | .emplaceAndCvisit, as => andVisitFlast mk .shared as
  | .tryEmplace, as => emplaceImpl mk (.val tag :: as)
  | .tryEmplaceOrVisit, as => orVisitFlast mk .excl (.val tag :: as)
  | .tryEmplaceOrCvisit, as => orVisitFlast mk .shared (.val tag :: as)
  | .tryEmplaceAndVisit, as => andVisitFlast mk .excl (.val tag :: as)
  | .tryEmplaceAndCvisit, as => andVisitFlast mk .shared (.val tag :: as)
  | .insert, [x] => emplaceImpl mk [x]
  | .insertOrVisit, [x, f] => emplaceAndVisitImpl mk .excl nop f [x]
  | .insertOrCvisit, [x, f] => emplaceAndVisitImpl mk .shared nop f [x]
  | .insertAndVisit, [x, f1, f2] => emplaceAndVisitImpl mk .excl f1 f2 [x]
  | .insertAndCvisit, [x, f1, f2] => emplaceAndVisitImpl mk .shared f1 f2 [x]
  | _, _ => none

/-- `insert_or_assign(k,obj)` of the maps: `try_emplace_or_visit(k,obj,[&](value_type& m){m.second=obj;})`
(concurrent_flat_map.hpp:504-526). `obj` is the mapped value the argument `a` converts to. -/
def insertOrAssign (k a : A) (obj : V) : Option (KOp K V) := dispatch mk tag .tryEmplaceOrVisit [.val k, .val a, .fn fun _ => obj]
end

/-- `insert(first,last)`, `insert_range`, `insert(initializer_list)` (concurrent_flat_map.hpp:474-502): `if (table_.emplace(*pos))
++count_elements`, given the answers of the calls in order. -/
def insertCount : List Nat → Nat → Nat
  | [], n => n
  | r :: rs, n => insertCount rs (if r ≠ 0 then n + 1 else n)

/-- `insert_or_[c]visit`, `insert_and_[c]visit` and `insert_range_*` with a range (concurrent_flat_map.hpp:543-575, 591-623,
641-680, 699-738): `for (; first != last; ++first, ++count_elements) table_.emplace_or_visit(*first, f)`. -/
def visitCount : List Nat → Nat → Nat
  | [], n => n
  | _ :: rs, n => visitCount rs (n + 1)

/-! ### lemmas -/

theorem rotateRight_append (xs fs : List α) : rotateRight fs.length (xs ++ fs) = fs ++ xs := by
  have h : rotateRight fs.length (xs ++ fs) = (xs ++ fs).rotate xs.length := by
    refine List.ext_getElem (by simp [rotateRight, Nat.add_comm]) fun i h1 h2 => ?_
    simp only [rotateRight, List.length_ofFn] at h1
    simp only [rotateRight, List.getElem_ofFn, List.getElem_rotate]
    congr 2
    simp only [List.length_append]
    omega
  rw [h, List.rotate_append_length_eq]

theorem vals_map (as : List A) : vals (as.map (Arg.val (K := K) (V := V))) = some as := by
  induction as with
  | nil => rfl
  | cons a as ih => simp only [List.map_cons, vals, ih]; rfl

theorem orVisitFlast_eq (mk : List A → Option (K × V)) (m : Mode) (as : List A) (f : K × V → V) :
    orVisitFlast mk m (as.map .val ++ [.fn f]) = (mk as).map fun x => .insert m x f (·.2) := by
  have := rotateRight_append (as.map (Arg.val (K := K) (V := V))) [.fn f]
  simp only [orVisitFlast, List.length_singleton] at this ⊢
  rw [this]
  simp [emplaceOrVisitImpl, emplaceAndVisitImpl, nop, vals_map]

theorem andVisitFlast_eq (mk : List A → Option (K × V)) (m : Mode) (as : List A) (f1 f2 : K × V → V) :
    andVisitFlast mk m (as.map .val ++ [.fn f1, .fn f2]) = (mk as).map fun x => .insert m x f2 f1 := by
  have := rotateRight_append (as.map (Arg.val (K := K) (V := V))) [.fn f1, .fn f2]
  simp only [andVisitFlast, List.length_cons, List.length_nil] at this ⊢
  rw [this]
  simp [emplaceAndVisitImpl, vals_map]

theorem insertCount_eq (rs : List Nat) (n : Nat) : insertCount rs n = n + (rs.filter (· ≠ 0)).length := by
  induction rs generalizing n with
  | nil => rfl
  | cons r rs ih =>
    simp only [insertCount, ih, List.filter_cons]
    by_cases h : r = 0 <;> simp [h]
    omega

theorem visitCount_eq (rs : List Nat) (n : Nat) : visitCount rs n = n + rs.length := by
  induction rs generalizing n with
  | nil => rfl
  | cons r rs ih => simp only [visitCount, ih, List.length_cons]; omega

end Conc.Overloads

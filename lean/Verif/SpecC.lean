/-
Abstract specification of the closed-addressing containers: unordered_map/set (`u = true`, unique keys) and
unordered_multimap/multiset (`u = false`). Imports nothing of the model.

A container object is a list of (key, payload) pairs read up to order. Where the C++ standard leaves a choice open (which of
several equivalent elements is found, iteration order) the specification is a relation.
-/
import Mathlib.Data.List.Forall2
import Verif.Spec

namespace SpecC
open Spec (Res Traits Lawful upd)

/-- An abstract container. `defined = false`: the elements were moved from one by one; their values are unspecified and the
object may only be destroyed, cleared, assigned to, swapped or constructed over. -/
structure Obj (K V : Type) where
  eq : K → K → Bool
  al : Nat
  elems : List (K × V)
  defined : Bool

/-- Calls on one container. Positions `i` stand for `std::next(c.begin(),i)`. -/
inductive LOp (K V : Type) where
  | insert (x : K × V)
  /-- `insert(hint,x)` / `emplace_hint`, the hint being at position `i` (`i = size()` is `end()`) -/
  | insertHint (i : Nat) (x : K × V)
  /-- insertion of a range; `fwd`: the iterators are forward iterators -/
  | insertRange (fwd : Bool) (xs : List (K × V))
  | insertOrAssign (k : K) (v : V)
  | index (k : K) (dflt : V)
  | at (k : K)
  | find (k : K)
  | count (k : K)
  | contains (k : K)
  | equalRange (k : K)
  | erase (k : K)
  /-- `it=next(begin(),i); x=*it; erase(it)`, reporting `x` -/
  | eraseAt (i : Nat)
  /-- `erase(next(begin(),i), next(begin(),i+n))` -/
  | eraseRange (i n : Nat)
  | extract (k : K)
  | eraseIf (pr : K × V → Bool)
  | clear
  | rehash (n : Nat)
  | reserve (n : Nat)
  /-- `max_load_factor(z)`, `z` in units of 2^-149, `none` = infinity -/
  | maxLoadFactor (z : Option Nat)
  | size
  | isEmpty
  | iterate

inductive Op (K V : Type) where
  | on (r : Nat) (o : LOp K V)
  | construct (r : Nat) (hash : K → Nat) (eq : K → K → Bool) (al n : Nat)
  | copyConstruct (r s al : Nat)
  | moveConstruct (r s : Nat)
  | moveConstructAlloc (r s al : Nat)
  | copyAssign (r s : Nat)
  | moveAssign (r s : Nat)
  | swap (r s : Nat)
  | merge (r s : Nat)
  /-- `nh=s.extract(k); r.insert(std::move(nh))`; reports whether `r` took the node -/
  | transfer (r s : Nat) (k : K)
  | equal (r s : Nat)

section
variable {K V : Type}

/-- Equivalent elements are adjacent: if an element has an equivalent one later, the next one is equivalent. -/
def Contig (eq : K → K → Bool) : List (K × V) → Prop
  | [] => True
  | a :: l => (∀ c ∈ l, eq a.1 c.1 = true → ∃ b, l.head? = some b ∧ eq a.1 b.1 = true) ∧ Contig eq l

/-- `==` on elements: an equivalence that implies equivalent keys. -/
structure EqLawful (eq : K → K → Bool) (veq : K × V → K × V → Bool) : Prop where
  refl : ∀ a, veq a a = true
  symm : ∀ a b, veq a b = true → veq b a = true
  trans : ∀ a b c, veq a b = true → veq b c = true → veq a c = true
  key : ∀ a b, veq a b = true → eq a.1 b.1 = true

/-- no element equivalent to `k` -/
def Absent (o : Obj K V) (k : K) : Prop := ∀ e ∈ o.elems, o.eq k e.1 = false

/-- `e` is an element equivalent to `k` -/
def Has (o : Obj K V) (k : K) (e : K × V) : Prop := e ∈ o.elems ∧ o.eq k e.1 = true

/-- insertion: with unique keys nothing changes if an equivalent element `e` is there -/
def Inserts (u : Bool) (o : Obj K V) (x : K × V) (o' : Obj K V) (e : K × V) (b : Bool) : Prop :=
  (u = true ∧ Has o x.1 e ∧ b = false ∧ o' = o) ∨
  ((u = true → Absent o x.1) ∧ e = x ∧ b = true ∧ o' = { o with elems := x :: o.elems })

/-- repeated insertion -/
inductive InsertsAll (u : Bool) : Obj K V → List (K × V) → Obj K V → Prop
  | nil (o) : InsertsAll u o [] o
  | cons {o o' o'' x xs e b} : Inserts u o x o' e b → InsertsAll u o' xs o'' → InsertsAll u o (x :: xs) o''

/-- Is answer `res` with final state `o'` allowed? -/
def LStep (u : Bool) (o : Obj K V) : LOp K V → Res K V → Obj K V → Prop
  | .insert x, res, o' => ∃ e b, Inserts u o x o' e b ∧ res = .ins e b
  | .insertHint _ x, res, o' => ∃ e b, Inserts u o x o' e b ∧ res = .elem (some e)
  | .insertRange _ xs, res, o' => InsertsAll u o xs o' ∧ res = .unit
  | .insertOrAssign k v, res, o' =>
    (∃ e, Has o k e ∧ res = .ins (e.1, v) false ∧
      o' = { o with elems := o.elems.map (fun e => if o.eq k e.1 then (e.1, v) else e) }) ∨
    (Absent o k ∧ res = .ins (k, v) true ∧ o' = { o with elems := (k, v) :: o.elems })
  | .index k d, res, o' =>
    (∃ e, Has o k e ∧ res = .val (some e.2) ∧ o' = o) ∨
    (Absent o k ∧ res = .val (some d) ∧ o' = { o with elems := (k, d) :: o.elems })
  | .at k, res, o' =>
    o' = o ∧ ((∃ e, Has o k e ∧ res = .val (some e.2)) ∨ (Absent o k ∧ res = .val none))
  | .find k, res, o' =>
    o' = o ∧ ((∃ e, Has o k e ∧ res = .elem (some e)) ∨ (Absent o k ∧ res = .elem none))
  | .count k, res, o' => o' = o ∧ res = .num (o.elems.countP (fun e => o.eq k e.1))
  | .contains k, res, o' => o' = o ∧ res = .bool (o.elems.any (fun e => o.eq k e.1))
  | .equalRange k, res, o' => o' = o ∧ ∃ l, res = .list l ∧ l.Perm (o.elems.filter (fun e => o.eq k e.1))
  | .erase k, res, o' =>
    res = .num (o.elems.countP (fun e => o.eq k e.1)) ∧ o' = { o with elems := o.elems.filter (fun e => !o.eq k e.1) }
  | .eraseAt _, res, o' => ∃ e rest, o.elems.Perm (e :: rest) ∧ res = .elem (some e) ∧ o' = { o with elems := rest }
  | .eraseRange _ n, res, o' =>
    ∃ gone rest, o.elems.Perm (gone ++ rest) ∧ gone.length = n ∧ res = .unit ∧ o' = { o with elems := rest }
  | .extract k, res, o' =>
    (∃ e rest, o.elems.Perm (e :: rest) ∧ o.eq k e.1 = true ∧ res = .elem (some e) ∧ o' = { o with elems := rest }) ∨
    (Absent o k ∧ res = .elem none ∧ o' = o)
  | .eraseIf pr, res, o' =>
    res = .num (o.elems.countP pr) ∧ o' = { o with elems := o.elems.filter (fun e => !pr e) }
  | .clear, res, o' => res = .unit ∧ o' = { o with elems := [], defined := true }
  | .rehash _, res, o' => res = .unit ∧ o' = o
  | .reserve _, res, o' => res = .unit ∧ o' = o
  | .maxLoadFactor _, res, o' => res = .unit ∧ o' = o
  | .size, res, o' => o' = o ∧ res = .num o.elems.length
  | .isEmpty, res, o' => o' = o ∧ res = .bool (decide (o.elems = []))
  | .iterate, res, o' => o' = o ∧ ∃ l, res = .list l ∧ l.Perm o.elems ∧ Contig o.eq l

/-- What the caller must respect. -/
def LPre (u : Bool) (o : Obj K V) : LOp K V → Prop
  | .clear => True
  | .insertHint i _ => o.defined = true ∧ i ≤ o.elems.length
  | .insertOrAssign _ _ => o.defined = true ∧ u = true
  | .index _ _ => o.defined = true ∧ u = true
  | .at _ => o.defined = true ∧ u = true
  | .eraseAt i => o.defined = true ∧ i < o.elems.length
  | .eraseRange i n => o.defined = true ∧ i + n ≤ o.elems.length
  | _ => o.defined = true

variable (u : Bool) (tr : Traits) (veq : K × V → K × V → Bool)

/-- Allowed answers and final states of a call. -/
def Step (s : Nat → Obj K V) : Op K V → Res K V → (Nat → Obj K V) → Prop
  | .on r o, res, s' => ∃ o', LStep u (s r) o res o' ∧ s' = upd s r o'
  | .construct r _ eq al _, res, s' => res = .unit ∧ s' = upd s r ⟨eq, al, [], true⟩
  | .copyConstruct r q al, res, s' => res = .unit ∧ s' = upd s r { s q with al := al }
  | .moveConstruct r q, res, s' => res = .unit ∧ s' = upd (upd s r (s q)) q { s q with elems := [] }
  | .moveConstructAlloc r q al, res, s' =>
    res = .unit ∧ s' = upd (upd s r { s q with al := al }) q
      (if al = (s q).al then { s q with elems := [] } else { s q with defined := false })
  | .copyAssign r q, res, s' =>
    res = .unit ∧ s' = if r = q then s else upd s r { s q with al := if tr.pocca then (s q).al else (s r).al }
  | .moveAssign r q, res, s' =>
    res = .unit ∧ s' = if r = q then s else
      upd (upd s r { s q with al := if tr.pocma then (s q).al else (s r).al }) q
        (if tr.pocma = true ∨ (s r).al = (s q).al then { s q with elems := [] } else { s q with defined := false })
  | .swap r q, res, s' => res = .unit ∧ s' = upd (upd s r (s q)) q (s r)
  | .merge r q, res, s' =>
    res = .unit ∧
    if r = q then s' = s
    else ∃ took kept, (s q).elems.Perm (took ++ kept) ∧
      -- unique keys: exactly the first element of each group of equivalent ones that `r` lacks is taken
      (u = true → (∀ e ∈ took, Absent (s r) e.1) ∧ took.Pairwise (fun a b => (s r).eq a.1 b.1 = false) ∧
        ∀ e ∈ kept, (∃ e', Has (s r) e.1 e') ∨ ∃ e' ∈ took, (s r).eq e.1 e'.1 = true) ∧
      (u = false → kept = []) ∧
      s' = upd (upd s r { s r with elems := took ++ (s r).elems }) q { s q with elems := kept }
  | .transfer r q k, res, s' =>
    (Absent (s q) k ∧ res = .bool false ∧ s' = s) ∨
    ∃ e rest o' f b, (s q).elems.Perm (e :: rest) ∧ (s q).eq k e.1 = true ∧ Inserts u (s r) e o' f b ∧ res = .bool b ∧
      s' = upd (upd s r o') q { s q with elems := rest }
  | .equal r q, res, s' =>
    s' = s ∧ ∃ b, res = .bool b ∧
      (b = true ↔ ∃ l, l.Perm (s q).elems ∧ List.Forall₂ (fun x y => veq x y = true) (s r).elems l)

/-- Preconditions. `copyAssign` excludes the case of a propagated, unequal allocator and an empty source: see
`C19_pocca_assign_breaks_container`. `merge` of a multi container with itself does not terminate. -/
def Pre (s : Nat → Obj K V) : Op K V → Prop
  | .on r o => LPre u (s r) o
  | .construct _ hash eq _ _ => Lawful hash eq
  | .copyConstruct r q _ => r ≠ q ∧ (s q).defined = true
  | .moveConstruct r q => r ≠ q ∧ (s q).defined = true
  | .moveConstructAlloc r q _ => r ≠ q ∧ (s q).defined = true
  | .copyAssign r q => (s q).defined = true ∧
      ¬ (r ≠ q ∧ tr.pocca = true ∧ (s r).al ≠ (s q).al ∧ (s q).elems = [])
  | .moveAssign _ q => (s q).defined = true
  | .swap r q => tr.pocs = true ∨ (s r).al = (s q).al
  | .merge r q => (s r).defined = true ∧ (s q).defined = true ∧ (s r).al = (s q).al ∧ (r = q → u = true)
  | .transfer r q _ => (s r).defined = true ∧ (s q).defined = true ∧ (s r).al = (s q).al ∧ r ≠ q
  | .equal r q => (s r).defined = true ∧ (s q).defined = true ∧ (s r).eq = (s q).eq ∧ EqLawful (s r).eq veq

/-- Allowed runs of a program. -/
inductive Run : (Nat → Obj K V) → List (Op K V) → List (Res K V) → (Nat → Obj K V) → Prop
  | nil (s) : Run s [] [] s
  | cons {s s' s'' op ops res outs} : Step u tr veq s op res s' → Run s' ops outs s'' →
      Run s (op :: ops) (res :: outs) s''

/-- The program respects all preconditions, whatever allowed answers it gets. -/
def Safe : List (Op K V) → (Nat → Obj K V) → Prop
  | [], _ => True
  | op :: ops, s => Pre u tr veq s op ∧ ∀ res s', Step u tr veq s op res s' → Safe ops s'

/-- Program start: every variable holds an empty container with allocator 0. -/
def start (eq : K → K → Bool) : Nat → Obj K V := fun _ => ⟨eq, 0, [], true⟩

end
end SpecC

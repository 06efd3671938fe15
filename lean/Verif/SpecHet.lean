/-
Heterogeneous ("transparent") lookup: calls that are given, instead of a key, a value of another type that the hash function and the
key equality of the container accept. Imports the abstract specification only.
-/
import Verif.Spec

namespace SpecHet
open Spec (Res)

/-- What the hash function and the key equality of a container say about values of type `Q`, and the key a `Q` is converted to when a
call constructs an element. `eqL q k` is `eq(q,k)`, `eqR k q` is `eq(k,q)`. -/
structure Het (K Q : Type) where
  hash : Q → Nat
  eqL : Q → K → Bool
  eqR : K → Q → Bool
  make : Q → K

/-- What the user must guarantee ([unord.req] on `ke`): both orders of comparison agree, equal values have equal hashes
(of type `std::size_t`), and if two of
`eq(q,a)`, `eq(q,b)`, `eq(a,b)` are true, so is the third. `hash`, `eq` are those of the container on its own keys. -/
structure Compat {K Q : Type} (hash : K → Nat) (eq : K → K → Bool) (H : Het K Q) : Prop where
  sides : ∀ q k, H.eqR k q = H.eqL q k
  same : ∀ q k, H.eqL q k = true → H.hash q = hash k
  bound : ∀ q, H.hash q < 2 ^ 64
  join : ∀ q a b, H.eqL q a = true → H.eqL q b = true → eq a b = true
  carry : ∀ q a b, H.eqL q a = true → eq a b = true → H.eqL q b = true

/-- The calls. -/
inductive Call (Q V : Type) where
  | find (q : Q)
  | contains (q : Q)
  | count (q : Q)
  | equalRange (q : Q)
  | at (q : Q)
  | erase (q : Q)
  | extract (q : Q)
  /-- `try_emplace(q,args...)`; for sets `insert(q)` -/
  | insert (q : Q) (v : V)
  /-- `try_emplace(hint,q,args...)`, `insert(hint,q)`, the hint being at position `i` (`i = size()` is `end()`) -/
  | insertHint (i : Nat) (q : Q) (v : V)
  | insertOrAssign (q : Q) (v : V)
  /-- `c[q]`, a new element getting `dflt` -/
  | index (q : Q) (dflt : V)

/-- Calls that construct an element need a convertible value whose key is equivalent to it; only containers with unique keys
(`u = true`) have them. A hint is a valid position. -/
def Pre {K Q V : Type} (u : Bool) (H : Het K Q) (l : List (K × V)) : Call Q V → Prop
  | .insertHint i q _ => u = true ∧ H.eqL q (H.make q) = true ∧ i ≤ l.length
  | .insert q _ => u = true ∧ H.eqL q (H.make q) = true
  | .insertOrAssign q _ => u = true ∧ H.eqL q (H.make q) = true
  | .index q _ => u = true ∧ H.eqL q (H.make q) = true
  | .at _ => u = true
  | _ => True

/-- The effect on the elements (a list up to order) and the answer of each call, in terms of the elements equal to `q`. -/
def Step {K Q V : Type} (H : Het K Q) (l : List (K × V)) : Call Q V → Res K V → List (K × V) → Prop
  | .find q, res, l' => l' = l ∧
    ((∃ e ∈ l, H.eqL q e.1 = true ∧ res = .elem (some e)) ∨ ((∀ e ∈ l, H.eqL q e.1 = false) ∧ res = .elem none))
  | .contains q, res, l' => l' = l ∧ res = .bool (l.any (fun e => H.eqL q e.1))
  | .count q, res, l' => l' = l ∧ res = .num (l.countP (fun e => H.eqL q e.1))
  | .equalRange q, res, l' => l' = l ∧ ∃ r, res = .list r ∧ r.Perm (l.filter (fun e => H.eqL q e.1))
  | .at q, res, l' => l' = l ∧
    ((∃ e ∈ l, H.eqL q e.1 = true ∧ res = .val (some e.2)) ∨ ((∀ e ∈ l, H.eqL q e.1 = false) ∧ res = .val none))
  | .erase q, res, l' => res = .num (l.countP (fun e => H.eqL q e.1)) ∧ l' = l.filter (fun e => !H.eqL q e.1)
  | .extract q, res, l' =>
    (∃ e rest, l.Perm (e :: rest) ∧ H.eqL q e.1 = true ∧ res = .elem (some e) ∧ l' = rest) ∨
    ((∀ e ∈ l, H.eqL q e.1 = false) ∧ res = .elem none ∧ l' = l)
  | .insert q v, res, l' =>
    (∃ e ∈ l, H.eqL q e.1 = true ∧ res = .ins e false ∧ l' = l) ∨
    ((∀ e ∈ l, H.eqL q e.1 = false) ∧ res = .ins (H.make q, v) true ∧ l' = (H.make q, v) :: l)
  | .insertHint _ q v, res, l' =>
    (∃ e ∈ l, H.eqL q e.1 = true ∧ res = .elem (some e) ∧ l' = l) ∨
    ((∀ e ∈ l, H.eqL q e.1 = false) ∧ res = .elem (some (H.make q, v)) ∧ l' = (H.make q, v) :: l)
  | .insertOrAssign q v, res, l' =>
    (∃ e ∈ l, H.eqL q e.1 = true ∧ res = .ins (e.1, v) false ∧ l' = l.map (fun e => if H.eqL q e.1 then (e.1, v) else e)) ∨
    ((∀ e ∈ l, H.eqL q e.1 = false) ∧ res = .ins (H.make q, v) true ∧ l' = (H.make q, v) :: l)
  | .index q d, res, l' =>
    (∃ e ∈ l, H.eqL q e.1 = true ∧ res = .val (some e.2) ∧ l' = l) ∨
    ((∀ e ∈ l, H.eqL q e.1 = false) ∧ res = .val (some d) ∧ l' = (H.make q, d) :: l)

end SpecHet

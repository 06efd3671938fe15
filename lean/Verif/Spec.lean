/-
Abstract specification of the unique-key containers (maps and sets) of the library. Imports nothing of the model.

A container object is a list of (key, payload) pairs, read up to order. Hash functions, capacities, `rehash` and
`reserve` play no role: a correct container answers as if they did not exist.
-/

namespace Spec

/-- An abstract container object: its key equivalence, the identity of its allocator, its elements (order irrelevant). -/
structure Obj (K V : Type) where
  eq : K → K → Bool
  al : Nat
  elems : List (K × V)

/-- Allocator propagation traits. -/
structure Traits where
  pocca : Bool
  pocma : Bool
  pocs : Bool

/-- What a user must supply as hash function and key equality. -/
structure Lawful {K : Type} (hash : K → Nat) (eq : K → K → Bool) : Prop where
  hash_lt : ∀ k, hash k < 2 ^ 64
  refl : ∀ k, eq k k = true
  symm : ∀ a b, eq a b = true → eq b a = true
  trans : ∀ a b c, eq a b = true → eq b c = true → eq a c = true
  compat : ∀ a b, eq a b = true → hash a = hash b

/-- Calls a program can make. `r`, `s` name container variables. -/
inductive Op (K V : Type) where
  /-- destroy what is in `r`, construct an empty container there -/
  | construct (r : Nat) (hash : K → Nat) (eq : K → K → Bool) (al n : Nat)
  | insert (r : Nat) (x : K × V)
  | insertRange (r : Nat) (xs : List (K × V))
  | insertOrAssign (r : Nat) (k : K) (v : V)
  /-- `r[k]`, where a new element gets payload `dflt`; returns the payload -/
  | index (r : Nat) (k : K) (dflt : V)
  | at (r : Nat) (k : K)
  | find (r : Nat) (k : K)
  | count (r : Nat) (k : K)
  | contains (r : Nat) (k : K)
  | erase (r : Nat) (k : K)
  /-- `if((it=r.find(k))!=r.end()) r.erase(it)` -/
  | eraseIt (r : Nat) (k : K)
  /-- `extract(k)` -/
  | extract (r : Nat) (k : K)
  | eraseIf (r : Nat) (pr : K × V → Bool)
  /-- `for(it=begin();it!=end();) if(pr(*it)) it=erase(it); else ++it;`, reporting the elements seen -/
  | eraseWalk (r : Nat) (pr : K × V → Bool)
  | clear (r : Nat)
  | rehash (r n : Nat)
  | reserve (r n : Nat)
  /-- destroy what is in `r`, copy-construct `s` there with allocator `al` -/
  | copyConstruct (r s al : Nat)
  | moveConstruct (r s : Nat)
  | moveConstructAlloc (r s al : Nat)
  | copyAssign (r s : Nat)
  | moveAssign (r s : Nat)
  | swap (r s : Nat)
  | merge (r s : Nat)
  | size (r : Nat)
  | isEmpty (r : Nat)
  /-- the elements seen by `for(it=begin();it!=end();++it)` -/
  | iterate (r : Nat)
  | equal (r s : Nat)

/-- Observable answers. -/
inductive Res (K V : Type) where
  | unit
  | bool (b : Bool)
  | num (n : Nat)
  /-- result of find/extract: the element or nothing -/
  | elem (e : Option (K × V))
  /-- result of at/operator[]; `none` = `std::out_of_range` thrown -/
  | val (v : Option V)
  /-- result of insertion: the element the returned iterator points to, and whether it is new -/
  | ins (e : K × V) (b : Bool)
  | list (l : List (K × V))
deriving DecidableEq

/-- Two answers agree: identical, except that iteration order is unspecified. -/
def Res.Agrees {K V : Type} : Res K V → Res K V → Prop
  | .list l, .list l' => l.Perm l'
  | a, b => a = b

@[refl] theorem Res.Agrees.refl {K V : Type} (a : Res K V) : a.Agrees a := by
  cases a <;> first | rfl | exact List.Perm.refl _

section
variable {K V : Type}

def lookup (o : Obj K V) (k : K) : Option (K × V) := o.elems.find? (fun e => o.eq k e.1)

def insert (o : Obj K V) (x : K × V) : Obj K V × Res K V :=
  match lookup o x.1 with
  | some e => (o, .ins e false)
  | none => ({ o with elems := x :: o.elems }, .ins x true)

def remove (o : Obj K V) (k : K) : Obj K V := { o with elems := o.elems.filter (fun e => !o.eq k e.1) }

def assign (o : Obj K V) (k : K) (v : V) : Obj K V :=
  { o with elems := o.elems.map (fun e => if o.eq k e.1 then (e.1, v) else e) }

/-- update one variable -/
def upd {α : Type} (s : Nat → α) (r : Nat) (x : α) : Nat → α := fun i => if i = r then x else s i

variable (tr : Traits) (veq : K × V → K × V → Bool)

/-- The effect and answer of each call. `veq` is `==` on whole elements. -/
def step : Op K V → (Nat → Obj K V) → (Nat → Obj K V) × Res K V
  | .construct r _ eq al _, s => (upd s r ⟨eq, al, []⟩, .unit)
  | .insert r x, s => let p := insert (s r) x; (upd s r p.1, p.2)
  | .insertRange r xs, s => (upd s r (xs.foldl (fun o x => (insert o x).1) (s r)), .unit)
  | .insertOrAssign r k v, s =>
    match lookup (s r) k with
    | some e => (upd s r (assign (s r) k v), .ins (e.1, v) false)
    | none => (upd s r (insert (s r) (k, v)).1, .ins (k, v) true)
  | .index r k d, s =>
    match lookup (s r) k with
    | some e => (s, .val (some e.2))
    | none => (upd s r (insert (s r) (k, d)).1, .val (some d))
  | .at r k, s => (s, .val ((lookup (s r) k).map Prod.snd))
  | .find r k, s => (s, .elem (lookup (s r) k))
  | .count r k, s => (s, .num (if (lookup (s r) k).isSome then 1 else 0))
  | .contains r k, s => (s, .bool (lookup (s r) k).isSome)
  | .erase r k, s => (upd s r (remove (s r) k), .num (if (lookup (s r) k).isSome then 1 else 0))
  | .eraseIt r k, s => (upd s r (remove (s r) k), .unit)
  | .extract r k, s => (upd s r (remove (s r) k), .elem (lookup (s r) k))
  | .eraseIf r pr, s =>
    (upd s r { s r with elems := (s r).elems.filter (fun e => !pr e) }, .num ((s r).elems.filter pr).length)
  | .eraseWalk r pr, s =>
    (upd s r { s r with elems := (s r).elems.filter (fun e => !pr e) }, .list (s r).elems)
  | .clear r, s => (upd s r { s r with elems := [] }, .unit)
  | .rehash _ _, s => (s, .unit)
  | .reserve _ _, s => (s, .unit)
  | .copyConstruct r q al, s => (upd s r { s q with al := al }, .unit)
  | .moveConstruct r q, s => (upd (upd s r (s q)) q { s q with elems := [] }, .unit)
  | .moveConstructAlloc r q al, s => (upd (upd s r { s q with al := al }) q { s q with elems := [] }, .unit)
  | .copyAssign r q, s => (upd s r { s q with al := if tr.pocca then (s q).al else (s r).al }, .unit)
  | .moveAssign r q, s =>
    if r = q then (s, .unit)
    else (upd (upd s r { s q with al := if tr.pocma then (s q).al else (s r).al }) q
      { s q with eq := (s r).eq, elems := [] }, .unit)
  | .swap r q, s => (upd (upd s r (s q)) q (s r), .unit)
  | .merge r q, s =>
    if r = q then (s, .unit)
    else (upd (upd s r { s r with elems := (s q).elems.filter (fun e => (lookup (s r) e.1).isNone) ++ (s r).elems })
      q { s q with elems := (s q).elems.filter (fun e => (lookup (s r) e.1).isSome) }, .unit)
  | .size r, s => (s, .num (s r).elems.length)
  | .isEmpty r, s => (s, .bool (decide ((s r).elems.length = 0)))
  | .iterate r, s => (s, .list (s r).elems)
  | .equal r q, s => (s, .bool (decide ((s r).elems.length = (s q).elems.length) &&
      (s r).elems.all (fun e => match lookup (s q) e.1 with | some e' => veq e e' | none => false)))

/-- What the caller must respect. -/
def Pre : Op K V → (Nat → Obj K V) → Prop
  | .construct _ hash eq _ _, _ => Lawful hash eq
  | .copyConstruct r q _, _ => r ≠ q
  | .moveConstruct r q, _ => r ≠ q
  | .moveConstructAlloc r q _, _ => r ≠ q
  | .swap r q, s => tr.pocs = true ∨ (s r).al = (s q).al
  | .merge r q, s => (s r).eq = (s q).eq
  | _, _ => True

/-- Run a program, collecting the answers. -/
def run : List (Op K V) → (Nat → Obj K V) → (Nat → Obj K V) × List (Res K V)
  | [], s => (s, [])
  | op :: ops, s =>
    let p := step tr veq op s
    let q := run ops p.1
    (q.1, p.2 :: q.2)

/-- Program start: every variable holds an empty container with allocator 0. -/
def start (eq : K → K → Bool) : Nat → Obj K V := fun _ => ⟨eq, 0, []⟩

/-- Every call of the program respects its precondition. -/
def PreAll : List (Op K V) → (Nat → Obj K V) → Prop
  | [], _ => True
  | op :: ops, s => Pre tr op s ∧ PreAll ops (step tr veq op s).1

end
end Spec

/-
Abstract specification of node ownership: every node is owned by one container, by one node handle, or does not exist (any
more). Imports nothing of the model. `Nat` names nodes, container variables, handle variables and allocators.
-/
import Verif.Spec

namespace SpecNode
open Spec (upd)
variable {K V : Type}

/-- Who owns a node. -/
inductive Owner where
  | cont (c : Nat)
  | hand (h : Nat)
deriving DecidableEq

/-- `own i = none`: there is no node `i`. `elem i`: its key and mapped value. A container has a key equality and an allocator.
`hal h`: the allocator stored in handle `h`, if any. -/
structure St (K V : Type) where
  own : Nat → Option Owner
  elem : Nat → K × V
  eq : Nat → K → K → Bool
  al : Nat → Nat
  hal : Nat → Option Nat

/-- Which library: `uniq` = no equivalent keys. `keep`: an emptied handle may still hold an allocator (closed-addressing
containers); otherwise exactly the non-empty handles hold one. Allocator traits. -/
structure Cfg where
  uniq : Bool
  keep : Bool
  pocma : Bool
  pocs : Bool

/-- Calls. `c`, `d` are container variables, `h`, `g` handle variables. -/
inductive Op (K V : Type) where
  /-- destroy the container in `c`, construct an empty one with the given functions and allocator -/
  | construct (c : Nat) (hash : K → Nat) (eq : K → K → Bool) (al : Nat)
  | emplace (c : Nat) (x : K × V)
  | erase (c : Nat) (k : K)
  | clear (c : Nat)
  /-- destroy the handle in `h`, construct it from `c.extract(k)` -/
  | extract (c h : Nat) (k : K)
  /-- `c.insert(std::move(h))`. If keys are unique the answer has a handle for a refused node; the handle in `g` is destroyed
  and constructed from that one. -/
  | insert (c h g : Nat)
  /-- `c.insert(next(c.begin(),i),std::move(h))` -/
  | insertHint (c i h : Nat)
  /-- destroy the handle in `g`, construct it from `std::move(h)` -/
  | moveHandle (g h : Nat)
  /-- `g=std::move(h)` -/
  | assignHandle (g h : Nat)
  | swapHandles (g h : Nat)
  /-- destroy the handle in `g`, construct an empty one -/
  | resetHandle (g : Nat)
  /-- `if(h) h.key()=k` -/
  | setKey (h : Nat) (k : K)
  /-- `if(h) h.mapped()=v` -/
  | setMapped (h : Nat) (v : V)
  /-- `c.merge(d)` -/
  | merge (c d : Nat)
  | swap (c d : Nat)
  /-- `c=std::move(d)` -/
  | moveAssign (c d : Nat)

/-- nodes of handle `h` / container `c` are handed to `o` (`none`: destroyed) -/
def give (own : Nat → Option Owner) (src : Owner) (o : Option Owner) : Nat → Option Owner :=
  fun i => if own i = some src then o else own i

/-- the nodes of two owners are exchanged -/
def exchange (own : Nat → Option Owner) (a b : Owner) : Nat → Option Owner :=
  fun i => if own i = some a then some b else if own i = some b then some a else own i

def Empty (s : St K V) (h : Nat) : Prop := ∀ i, s.own i ≠ some (.hand h)

/-- container `c` has no element equivalent to `k` -/
def Absent (s : St K V) (c : Nat) (k : K) : Prop := ∀ i, s.own i = some (.cont c) → s.eq c k (s.elem i).1 = false

def setElem (s : St K V) (h : Nat) (f : K × V → K × V) : St K V :=
  { s with elem := fun i => if s.own i = some (.hand h) then f (s.elem i) else s.elem i }

variable (cfg : Cfg)

/-- Allowed outcomes of a call; the answer says whether the node was inserted/extracted (`true` for other calls). -/
def Step (s : St K V) : Op K V → Bool → St K V → Prop
  | .construct c _ eq al, b, s' =>
    b = true ∧ s' = { s with own := give s.own (.cont c) none, eq := upd s.eq c eq, al := upd s.al c al }
  | .emplace c x, b, s' =>
    (cfg.uniq = true ∧ ¬ Absent s c x.1 ∧ b = false ∧ s' = s) ∨
    ((cfg.uniq = true → Absent s c x.1) ∧ b = true ∧
      ∃ i, s.own i = none ∧ s' = { s with own := upd s.own i (some (.cont c)), elem := upd s.elem i x })
  | .erase c k, b, s' =>
    b = true ∧ s' = { s with own := fun i => if s.own i = some (.cont c) ∧ s.eq c k (s.elem i).1 = true then none else s.own i }
  | .clear c, b, s' => b = true ∧ s' = { s with own := give s.own (.cont c) none }
  | .extract c h k, b, s' =>
    let o := give s.own (.hand h) none
    (Absent s c k ∧ b = false ∧ s' = { s with own := o, hal := upd s.hal h (if cfg.keep then some (s.al c) else none) }) ∨
    (b = true ∧ ∃ i, s.own i = some (.cont c) ∧ s.eq c k (s.elem i).1 = true ∧
      s' = { s with own := upd o i (some (.hand h)), hal := upd s.hal h (some (s.al c)) })
  | .insert c h g, b, s' =>
    -- the handle in `g` is replaced only if the call returns a handle
    let o := if cfg.uniq then give s.own (.hand g) none else s.own
    let hal := if cfg.uniq then upd s.hal g none else s.hal
    (Empty s h ∧ b = false ∧ s' = { s with own := o, hal := hal }) ∨
    (∃ i, s.own i = some (.hand h) ∧ cfg.uniq = true ∧ ¬ Absent s c (s.elem i).1 ∧ b = false ∧
      s' = { s with own := upd o i (some (.hand g)), hal := upd (upd hal g (s.hal h)) h none }) ∨
    (∃ i, s.own i = some (.hand h) ∧ (cfg.uniq = true → Absent s c (s.elem i).1) ∧ b = true ∧
      s' = { s with own := upd o i (some (.cont c)), hal := if cfg.keep then hal else upd hal h none })
  | .insertHint c _ h, b, s' =>
    (Empty s h ∧ b = false ∧ s' = s) ∨
    (∃ i, s.own i = some (.hand h) ∧ cfg.uniq = true ∧ ¬ Absent s c (s.elem i).1 ∧ b = false ∧ s' = s) ∨
    (∃ i, s.own i = some (.hand h) ∧ (cfg.uniq = true → Absent s c (s.elem i).1) ∧ b = true ∧
      s' = { s with own := upd s.own i (some (.cont c)), hal := if cfg.keep then s.hal else upd s.hal h none })
  | .moveHandle g h, b, s' =>
    b = true ∧ s' = { s with
      own := give (give s.own (.hand g) none) (.hand h) (some (.hand g))
      hal := upd (upd s.hal g (s.hal h)) h none }
  | .assignHandle g h, b, s' =>
    b = true ∧ s' =
      if g = h then
        { s with own := give s.own (.hand g) none,
                 hal := if cfg.keep = true ∧ cfg.pocma = false then s.hal else upd s.hal g none }
      else
        { s with
          own := give (give s.own (.hand g) none) (.hand h) (some (.hand g))
          hal := upd (upd s.hal g (s.hal h)) h
            (if cfg.keep = true ∧ s.hal g ≠ none ∧ cfg.pocma = false then s.hal h else none) }
  | .swapHandles g h, b, s' =>
    b = true ∧ s' = { s with
      own := exchange s.own (.hand g) (.hand h)
      hal := upd (upd s.hal g (s.hal h)) h (s.hal g) }
  | .resetHandle g, b, s' => b = true ∧ s' = { s with own := give s.own (.hand g) none, hal := upd s.hal g none }
  | .setKey h k, b, s' => b = true ∧ s' = setElem s h (fun e => (k, e.2))
  | .setMapped h v, b, s' => b = true ∧ s' = setElem s h (fun e => (e.1, v))
  | .merge c d, b, s' =>
    b = true ∧ ∃ took : Nat → Bool,
      (∀ i, took i = true → s.own i = some (.cont d)) ∧
      (cfg.uniq = false → ∀ i, s.own i = some (.cont d) → took i = true) ∧
      (cfg.uniq = true →
        -- taken: nothing equivalent is there, and one of each group of equivalent nodes
        (∀ i, took i = true → Absent s c (s.elem i).1) ∧
        (∀ i j, took i = true → took j = true → i ≠ j → s.eq c (s.elem i).1 (s.elem j).1 = false) ∧
        (∀ i, s.own i = some (.cont d) → took i = false →
          ¬ Absent s c (s.elem i).1 ∨ ∃ j, took j = true ∧ s.eq c (s.elem i).1 (s.elem j).1 = true)) ∧
      s' = { s with own := fun i => if took i then some (.cont c) else s.own i }
  | .swap c d, b, s' =>
    b = true ∧ s' = { s with
      own := exchange s.own (.cont c) (.cont d)
      eq := upd (upd s.eq c (s.eq d)) d (s.eq c)
      al := upd (upd s.al c (s.al d)) d (s.al c) }
  | .moveAssign c d, b, s' =>
    b = true ∧
    if c = d then s' = s
    else ∃ e, (e = s.eq c ∨ e = s.eq d) ∧ s' = { s with
      own := give (give s.own (.cont c) none) (.cont d) (some (.cont c))
      eq := upd (upd s.eq c (s.eq d)) d e
      al := upd s.al c (s.al d) }

/-- number of elements of a container, for hints: `i` nodes of `c` can be listed -/
def AtMost (s : St K V) (c i : Nat) : Prop :=
  ∃ l : List Nat, l.Nodup ∧ l.length = i ∧ ∀ j ∈ l, s.own j = some (.cont c)

/-- What the caller must respect. -/
def Pre (s : St K V) : Op K V → Prop
  | .construct _ hash eq _ => Spec.Lawful hash eq
  | .insert c h g => h ≠ g ∧ (Empty s h ∨ s.hal h = some (s.al c))
  | .insertHint c i h => AtMost s c i ∧ (Empty s h ∨ s.hal h = some (s.al c))
  | .moveHandle g h => g ≠ h
  | .assignHandle g h => s.hal g = none ∨ cfg.pocma = true ∨ s.hal g = s.hal h ∨ (cfg.keep = false ∧ s.hal h = none)
  | .swapHandles g h => s.hal g = none ∨ s.hal h = none ∨ cfg.pocs = true ∨ s.hal g = s.hal h
  | .merge c d => c ≠ d ∧ s.al c = s.al d ∧ (cfg.keep = false → s.eq c = s.eq d)
  | .swap c d => cfg.pocs = true ∨ s.al c = s.al d
  -- with unequal allocators that do not propagate, no node changes hands: elements are moved into new nodes
  | .moveAssign c d => cfg.pocma = true ∨ s.al c = s.al d
  | _ => True

inductive Run : St K V → List (Op K V) → List Bool → St K V → Prop
  | nil (s) : Run s [] [] s
  | cons {s s' s'' op ops b bs} : Step cfg s op b s' → Run s' ops bs s'' → Run s (op :: ops) (b :: bs) s''

/-- The program respects all preconditions, whatever allowed answers it gets. -/
def Safe : List (Op K V) → St K V → Prop
  | [], _ => True
  | op :: ops, s => Pre cfg s op ∧ ∀ b s', Step cfg s op b s' → Safe ops s'

/-- Program start: containers with allocator 0 and handles, all empty; there are no nodes. -/
def start (eq : K → K → Bool) (elem : Nat → K × V) : St K V := ⟨fun _ => none, elem, fun _ => eq, fun _ => 0, fun _ => none⟩

end SpecNode

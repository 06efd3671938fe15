/-
Archives with object tracking, as Boost.Serialization provides them (class `basic_oarchive`/`basic_iarchive`, an external library: this
file is what is assumed of it). Imports nothing of the model.

An object of a tracked class gets a number when it is saved first; saved again (same address), only the number is written. When an object
is loaded, a number not seen yet makes the address of the object being loaded known under that number; a number already known is
a reference to an object loaded before, and nothing else happens. A pointer is saved as the number of the object at its address. When it
is loaded, a known number gives the address it stands for; with an unknown number a new object would have to be created.
-/
namespace SpecTrack
variable {X A : Type}

/-- What an archive is made of: a count, an item, a tracked object (without content of its own), a null pointer, a pointer. -/
inductive Tok (X : Type) where
  | count (n : Nat)
  | item (x : X)
  | obj (id : Nat)
  | null
  | ptr (id : Nat)
  deriving DecidableEq, Repr

/-- The number of the object at `a`: the objects saved so far are numbered in their order. -/
def number [DecidableEq A] (a : A) : List A → Option Nat
  | [] => none
  | b :: l => if b = a then some 0 else (number a l).map (· + 1)

/-- The number under which an object at address `a` is saved, `objs` being the objects saved so far; the objects then. -/
def save [DecidableEq A] (objs : List A) (a : A) : Nat × List A :=
  match number a objs with
  | some i => (i, objs)
  | none => (objs.length, objs ++ [a])

/-- Saving a tracked object at address `a` writes `Tok.obj (save objs a).1`; saving a pointer: -/
def savePtr [DecidableEq A] (objs : List A) : Option A → Tok X × List A
  | none => (.null, objs)
  | some a => (.ptr (save objs a).1, (save objs a).2)

/-- An archive being loaded: the addresses known by number, the rest of the archive. -/
structure In (X A : Type) where
  objs : List A
  toks : List (Tok X)

/-- Loading a tracked object at address `a`; `none`: the archive has something else there. -/
def In.obj (i : In X A) (a : A) : Option (In X A) :=
  match i.toks with
  | .obj id :: ts => some ⟨if id < i.objs.length then i.objs else i.objs ++ [a], ts⟩
  | _ => none

/-- What loading a pointer ends with. -/
inductive Got (A : Type) where
  /-- null or an address -/
  | ptr (p : Option A)
  /-- an unknown number: an object is to be created -/
  | create
  /-- the archive has something else there -/
  | error
  deriving DecidableEq, Repr

/-- Loading a pointer. -/
def In.ptr (i : In X A) : Got A × In X A :=
  match i.toks with
  | .null :: ts => (.ptr none, ⟨i.objs, ts⟩)
  | .ptr id :: ts =>
    match i.objs[id]? with
    | some a => (.ptr (some a), ⟨i.objs, ts⟩)
    | none => (.create, ⟨i.objs, ts⟩)
  | _ => (.error, i)

end SpecTrack

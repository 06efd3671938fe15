/-
Specification of the statistics of the open-addressing containers (doc/modules/ROOT/pages/reference/stats.adoc): averages and
variances of lists of numbers, which data each call of `Spec.Op` records for each container, what `get_stats` answers. Imports
only the abstract container specification.
-/
import Verif.Spec
import Mathlib.Algebra.BigOperators.Group.List.Basic
import Mathlib.Data.Rat.Defs
import Mathlib.Algebra.Order.Field.Rat

namespace SpecStats
open Spec (Obj Op Res Traits upd)

/-- Arithmetic mean; 0 for no data. -/
def mean (l : List Rat) : Rat := if l = [] then 0 else l.sum / l.length

/-- Biased variance: the mean of the squared distances to the mean; 0 for no data. -/
def variance (l : List Rat) : Rat := mean (l.map (fun x => (x - mean l) ^ 2))

/-- The data still accounted for after `l` has been recorded since the last reset: everything, as long as there are fewer
than `2^64` data; then the count, which is a 64-bit number, starts again at 1. -/
def accounted {α : Type} (l : List α) : List α :=
  if l.length < 2 ^ 64 then l else l.drop (l.length - ((l.length - 1) % (2 ^ 64 - 1) + 1))

/-- A recorded datum: an insertion's probe length, or a lookup's outcome, probe length and number of comparisons. -/
inductive Sample where
  | ins (len : Nat)
  | look (found : Bool) (len cmps : Nat)
deriving DecidableEq

/-- At least one group is examined; an element is only found by comparing it. -/
def Sample.Sane : Sample → Prop
  | .ins len => 1 ≤ len
  | .look found len cmps => 1 ≤ len ∧ (found = true → 1 ≤ cmps)

/-- Average and variance of a sequence of numbers. -/
structure SeqSummary where
  average : Rat
  variance : Rat
deriving DecidableEq

/-- Count, and the summaries of the sequences recorded together. -/
structure Summary where
  count : Nat
  seqs : List SeqSummary
deriving DecidableEq

/-- Answer of `get_stats`. -/
structure StatsRes where
  insertion : Summary
  successful : Summary
  unsuccessful : Summary
deriving DecidableEq

def insLens (l : List Sample) : List Nat := l.filterMap (fun | .ins n => some n | _ => none)
def looks (b : Bool) (l : List Sample) : List (Nat × Nat) :=
  l.filterMap (fun | .look b' n c => if b' = b then some (n, c) else none | _ => none)

def summ (l : List Nat) : SeqSummary := ⟨mean (l.map (fun n : Nat => (n : Rat))), variance (l.map (fun n : Nat => (n : Rat)))⟩

/-- What `get_stats` must answer when `l` was recorded since the last reset: probe lengths of insertions; probe lengths and
numbers of comparisons of successful lookups; the same of unsuccessful ones. -/
def answer (l : List Sample) : StatsRes :=
  let i := accounted (insLens l)
  let s := accounted (looks true l)
  let u := accounted (looks false l)
  { insertion := ⟨i.length, [summ i]⟩,
    successful := ⟨s.length, [summ (s.map Prod.fst), summ (s.map Prod.snd)]⟩,
    unsuccessful := ⟨u.length, [summ (u.map Prod.fst), summ (u.map Prod.snd)]⟩ }

/-- How many data of each kind. -/
structure Cnt where
  ins : Nat
  suc : Nat
  uns : Nat
deriving DecidableEq

def cnt (l : List Sample) : Cnt := ⟨(insLens l).length, (looks true l).length, (looks false l).length⟩

variable {K V : Type}

/-- One lookup of `k` in `o`. -/
def Looks (o : Obj K V) (k : K) (d : Cnt) : Prop := d = if (Spec.lookup o k).isSome then ⟨0, 1, 0⟩ else ⟨0, 0, 1⟩

/-- Inserting an element with key `k` into `o`: one lookup; if the key is new, one insertion, and possibly every old element is
inserted again into a larger array. -/
def Inserts (o : Obj K V) (k : K) (d : Cnt) : Prop :=
  if (Spec.lookup o k).isSome then d = ⟨0, 1, 0⟩ else d = ⟨1, 0, 1⟩ ∨ d = ⟨1 + o.elems.length, 0, 1⟩

/-- Inserting a range, element by element. -/
def InsertsAll : Obj K V → List (K × V) → Cnt → Prop
  | _, [], d => d = ⟨0, 0, 0⟩
  | o, x :: xs, d => ∃ d1 d2, Inserts o x.1 d1 ∧ InsertsAll (Spec.insert o x).1 xs d2 ∧
      d = ⟨d1.ins + d2.ins, d1.suc + d2.suc, d1.uns + d2.uns⟩

/-- Only container `r` records, sane data whose numbers are as `P` says. -/
def Records (r : Nat) (l l' : Nat → List Sample) (P : Cnt → Prop) : Prop :=
  ∃ new, P (cnt new) ∧ (∀ s ∈ new, s.Sane) ∧ l' = upd l r (l r ++ new)

/-- What a call does to the data recorded by every container, given the containers `a` before the call. -/
def Recs (tr : Traits) (veq : K × V → K × V → Bool) (op : Op K V) (a : Nat → Obj K V) (l l' : Nat → List Sample) : Prop :=
  match op with
  | .construct r _ _ _ _ => l' = upd l r []
  | .insert r x => Records r l l' (Inserts (a r) x.1)
  | .insertRange r xs => Records r l l' (InsertsAll (a r) xs)
  | .insertOrAssign r k _ => Records r l l' (Inserts (a r) k)
  | .index r k _ => Records r l l' (Inserts (a r) k)
  | .at r k => Records r l l' (Looks (a r) k)
  | .find r k => Records r l l' (Looks (a r) k)
  | .count r k => Records r l l' (Looks (a r) k)
  | .contains r k => Records r l l' (Looks (a r) k)
  | .erase r k => Records r l l' (Looks (a r) k)
  | .eraseIt r k => Records r l l' (Looks (a r) k)
  | .extract r k => Records r l l' (Looks (a r) k)
  | .eraseIf _ _ => l' = l
  | .eraseWalk _ _ => l' = l
  | .clear _ => l' = l
  -- a rehash inserts every element again, or does not happen
  | .rehash r _ => Records r l l' (fun d => d = ⟨0, 0, 0⟩ ∨ d = ⟨(a r).elems.length, 0, 0⟩)
  | .reserve r _ => Records r l l' (fun d => d = ⟨0, 0, 0⟩ ∨ d = ⟨(a r).elems.length, 0, 0⟩)
  -- a copy starts new statistics; its elements are inserted one by one, or copied wholesale
  | .copyConstruct r q _ => Records r (upd l r []) l' (fun d => d = ⟨0, 0, 0⟩ ∨ d = ⟨(a q).elems.length, 0, 0⟩)
  -- moving a container moves its statistics, unless the elements have to be inserted one by one
  | .moveConstruct r q => l' = upd (upd l r (l q)) q []
  | .moveConstructAlloc r q al =>
    if al = (a q).al then l' = upd (upd l r (l q)) q []
    else Records r (upd (upd l r []) q []) l' (fun d => d = ⟨(a q).elems.length, 0, 0⟩)
  | .copyAssign r q =>
    if r = q then l' = l
    else Records r l l' (fun d => d = ⟨0, 0, 0⟩ ∨ d = ⟨(a q).elems.length, 0, 0⟩)
  | .moveAssign r q =>
    if r = q then l' = l
    else if tr.pocma = true ∨ (a r).al = (a q).al then l' = upd (upd l r (l q)) q []
    else Records r (upd l q []) l' (fun d => d = ⟨(a q).elems.length, 0, 0⟩)
  -- swapping containers does not swap their statistics
  | .swap _ _ => l' = l
  | .merge r q =>
    if r = q then Records r l l' (fun d => d = ⟨0, (a r).elems.length, 0⟩)
    else Records r l l' (fun d => (a q).elems.countP (fun e => (Spec.lookup (a r) e.1).isNone) ≤ d.ins ∧
      d.suc = (a q).elems.countP (fun e => (Spec.lookup (a r) e.1).isSome) ∧
      d.uns = (a q).elems.countP (fun e => (Spec.lookup (a r) e.1).isNone))
  | .size _ => l' = l
  | .isEmpty _ => l' = l
  | .iterate _ => l' = l
  -- `r == q` looks the elements of `r` up in `q`, until a difference shows
  | .equal r q =>
    Records q l l' (fun d => d.ins = 0 ∧ d.uns ≤ 1 ∧ d.suc + d.uns ≤ (a r).elems.length ∧
      ((a r).elems.length ≠ (a q).elems.length → d = ⟨0, 0, 0⟩) ∧
      ((Spec.step tr veq (.equal r q) a).2 = .bool true → d = ⟨0, (a r).elems.length, 0⟩))

/-- Calls of a program that also asks for statistics. -/
inductive SOp (K V : Type) where
  | op (o : Op K V)
  | getStats (r : Nat)
  | resetStats (r : Nat)

/-- Answers. -/
inductive SRes (K V : Type) where
  | res (r : Res K V)
  | stats (s : StatsRes)
  | unit

/-- The answers `outs` a program may give, started with the containers `a`, whose statistics hold the data `l`. -/
def Allowed (tr : Traits) (veq : K × V → K × V → Bool) : List (SOp K V) → (Nat → Obj K V) → (Nat → List Sample) →
    List (SRes K V) → Prop
  | [], _, _, outs => outs = []
  | .op o :: ops, a, l, outs => ∃ x rest, outs = .res x :: rest ∧ x.Agrees (Spec.step tr veq o a).2 ∧
      ∃ l', Recs tr veq o a l l' ∧ Allowed tr veq ops (Spec.step tr veq o a).1 l' rest
  | .getStats r :: ops, a, l, outs => ∃ rest, outs = .stats (answer (l r)) :: rest ∧ Allowed tr veq ops a l rest
  | .resetStats r :: ops, a, l, outs => ∃ rest, outs = .unit :: rest ∧ Allowed tr veq ops a (upd l r []) rest

/-- Every call respects its precondition. -/
def SPre (tr : Traits) (veq : K × V → K × V → Bool) : List (SOp K V) → (Nat → Obj K V) → Prop
  | [], _ => True
  | .op o :: ops, a => Spec.Pre tr o a ∧ SPre tr veq ops (Spec.step tr veq o a).1
  | _ :: ops, a => SPre tr veq ops a

end SpecStats

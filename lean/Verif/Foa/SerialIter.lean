/-
Serialization of iterators of the open-addressing containers.
Sources: /repo/include/boost/unordered/detail/foa/table.hpp:217-234, serialize_container.hpp:50-180, serialize_tracked_address.hpp:32-91.

What the archive does is `Verif/SpecTrack.lean`, the code common to all containers is `Verif/Serial/Track.lean`. Simplifications: addresses
within a container are offsets from the start of the metadata array (`ctrl`) and of the element array (`elem`), as in
`Verif/Foa/Iter.lean`; a session saves some containers and then some iterators, and loads in the same order.
-/
import Verif.Serial.Track
import Verif.Foa.Serial
import Verif.Foa.IterErase

namespace Foa
open Track SpecTrack
open SpecSer (Outcome)
variable {K V : Type}

/-- what the pointers `pc_` and `p_` of an iterator point to -/
inductive Addr where
  | ctrl (pc : Nat)
  | elem (p : Nat)
deriving DecidableEq, Repr

/-- `serialization_track(ar,it)` (table.hpp:217-224): the addresses given to the archive. -/
def It.tracked (it : It) : List Addr :=
  match it.p with
  | none => []
  | some p => [.ctrl it.pc, .elem p]

/-- `serialize` of an iterator of container `r` (table.hpp:228-234): the two pointers written, `pc_` being null if `p_` is. -/
def It.ptrs (r : Nat) (it : It) : List (Option (Nat × Addr)) :=
  match it.p with
  | none => [none, none]
  | some p => [some (r, .ctrl it.pc), some (r, .elem p)]

namespace Table

/-- Saving one container: count, and the elements with what `serialization_track` gives to the archive (serialize_container.hpp:50-70, 104-139). -/
def saveCont (regular : Bool) (t : Table K V) : Option (Nat × List ((K × V) × List Addr)) :=
  (t.saveTracked regular).map (fun s => (s.1.count, s.1.items.zip (s.2.map (fun p => (itAt p).tracked))))

/-- several containers -/
def saveConts (regular : Bool) : List (Table K V) → Option (List (Nat × List ((K × V) × List Addr)))
  | [] => some []
  | t :: ts => (t.saveCont regular).bind (fun c => (saveConts regular ts).map (c :: ·))

/-- Saving containers, then iterators (container number, iterator). -/
def saveSession (regular : Bool) (ts : List (Table K V)) (its : List (Nat × It)) : Option (List (Tok (K × V))) :=
  (saveConts regular ts).map (fun cs => Track.saveSession cs (its.map (fun i => i.2.ptrs i.1)))

/-- `clear(); reserve(s)` (serialize_container.hpp:86-87, 160-161). -/
def loadPrep (cfg : Cfg) (t : Table K V) (n : Nat) : Option (Table K V) := t.clear.reserve cfg n

/-- inserting a loaded item, and what is tracked then (serialize_container.hpp:92-97, 167-177). -/
def loadIns (cfg : Cfg) (t : Table K V) (x : K × V) : Option (Table K V × Option (List Addr)) :=
  match t.emplaceImpl cfg x with
  | none => none
  | some (t', p, true) => some (t', some (itAt p).tracked)
  | some (t', _, false) => some (t', none)

/-- Loading containers, then `n` iterators (each as the two pointers read). -/
def loadSession (cfg : Cfg) (n : Nat) (ts : List (Table K V)) (toks : List (Tok (K × V))) :
    Option (List (Table K V) × List (List (Option (Nat × Addr))) × Outcome) :=
  Track.loadSession (loadPrep cfg) (loadIns cfg) 2 n ts toks

end Table

/-! ### Facts -/

theorem loadLoop_inserts (cfg : Cfg) : ∀ (xs : List (K × V)) {t t' : Table K V} {tr : List Pos},
    Table.loadLoop cfg xs.length xs t = some (t', .done, tr) →
    Inserts (Table.loadIns cfg) t xs (tr.map (fun p => (itAt p).tracked)) t'
  | [], t, t', tr, h => by
    simp only [List.length_nil, Table.loadLoop, Option.some.injEq, Prod.mk.injEq] at h
    obtain ⟨rfl, _, rfl⟩ := h
    exact .nil _
  | x :: xs, t, t', tr, h => by
    simp only [List.length_cons, Table.loadLoop] at h
    split at h
    · cases h
    · cases h
    · rename_i t1 p e
      rw [Option.map_eq_some_iff] at h
      obtain ⟨⟨t2, o, tr'⟩, h1, h2⟩ := h
      simp only [Prod.mk.injEq] at h2
      obtain ⟨rfl, rfl, rfl⟩ := h2
      refine .cons ?_ (loadLoop_inserts cfg xs h1)
      simp only [Table.loadIns, e]

theorem itAt_inj {p q : Pos} (hp : p.2 < 15) (hq : q.2 < 15) (h : (itAt p).pc = (itAt q).pc ∨ (itAt p).p = (itAt q).p) : p = q := by
  obtain ⟨a, b⟩ := p
  obtain ⟨c, d⟩ := q
  simp only [itAt, Option.some.injEq] at h hp hq
  have : a = c ∧ b = d := by omega
  rw [this.1, this.2]

theorem assoc_pairs : ∀ {ps qs : List Pos} (xs : List (K × V)), ps.length = qs.length → xs.length = ps.length →
    (∀ p ∈ ps, p.2 < 15) → ∀ {p : Pos}, p ∈ ps → ∃ q, (p, q) ∈ ps.zip qs ∧
      assoc (.ctrl (itAt p).pc) (pairs (xs.zip (ps.map (fun p => (itAt p).tracked))) (qs.map (fun p => (itAt p).tracked))) =
        some (.ctrl (itAt q).pc) ∧
      assoc (.elem (15 * p.1 + p.2)) (pairs (xs.zip (ps.map (fun p => (itAt p).tracked))) (qs.map (fun p => (itAt p).tracked))) =
        some (.elem (15 * q.1 + q.2))
  | [], _, _, _, _, _, p, h => by cases h
  | _ :: _, [], _, h, _, _, _, _ => by cases h
  | _ :: _, _ :: _, [], _, h, _, _, _ => by cases h
  | p0 :: ps, q0 :: qs, x :: xs, h1, h2, hb, p, hp => by
    have hpr : pairs ((x :: xs).zip ((p0 :: ps).map (fun p => (itAt p).tracked))) ((q0 :: qs).map (fun p => (itAt p).tracked)) =
        (Addr.ctrl (itAt p0).pc, Addr.ctrl (itAt q0).pc) :: (Addr.elem (15 * p0.1 + p0.2), Addr.elem (15 * q0.1 + q0.2)) ::
          pairs (xs.zip (ps.map (fun p => (itAt p).tracked))) (qs.map (fun p => (itAt p).tracked)) := by
      simp only [List.map_cons, List.zip_cons_cons]
      rw [pairs_cons _ _ _ _ (by simp [It.tracked, itAt])]
      rfl
    rw [hpr]
    by_cases he : p = p0
    · subst he
      exact ⟨q0, by simp, by simp [assoc], by simp [assoc]⟩
    · have hmem : p ∈ ps := by
        rcases List.mem_cons.1 hp with h | h
        · exact absurd h he
        · exact h
      obtain ⟨q, e1, e2, e3⟩ := assoc_pairs (qs := qs) xs (by simpa using h1) (by simpa using h2) (fun p hp => hb p (by simp [hp])) hmem
      refine ⟨q, by simp [e1], ?_, ?_⟩
      · simp only [assoc, Addr.ctrl.injEq, reduceCtorEq, if_false]
        rw [if_neg]
        · exact e2
        · intro h
          exact he (itAt_inj (hb p hp) (hb p0 (by simp)) (Or.inl h.symm))
      · simp only [assoc, Addr.elem.injEq, reduceCtorEq, if_false]
        rw [if_neg]
        · exact e3
        · intro h
          exact he (itAt_inj (hb p hp) (hb p0 (by simp)) (Or.inr (by simp only [itAt, h])))

end Foa

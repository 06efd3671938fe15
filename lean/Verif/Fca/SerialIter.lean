/-
Serialization of iterators of the closed-addressing containers.
Sources: /repo/include/boost/unordered/detail/implementation.hpp:1055-1105 (iterator; 1158-1206 c_iterator is the same), detail/fca.hpp:293-326,
serialize_container.hpp:36-180, serialize_tracked_address.hpp:32-91.

What the archive does is `Verif/SpecTrack.lean`, the code common to all containers is `Verif/Serial/Track.lean`. An iterator consists of three
pointers: to the node, to the bucket, to the bucket group. Nodes have addresses here: the containers are tables whose mapped values carry
the address of the node (`V × Nat`). The node allocated for the `n`-th loaded element of a container gets the address `n`; bucket and group
addresses are indices. Iterators read from an archive may combine pointers that do not belong together, so their operations are modelled
on the three pointers as they are (`CIt`), not on the positions `Verif/Fca/Table.lean` uses.
-/
import Verif.Serial.Track
import Verif.Fca.Serial

namespace Fca
open Track SpecTrack
open SpecSer (Outcome)
variable {K V : Type}

/-- what the pointers of an iterator point to -/
inductive CAddr where
  | node (n : Nat)
  | bucket (b : Nat)
  | group (g : Nat)
deriving DecidableEq, Repr

/-- an iterator that is not `end()` (implementation.hpp:1055-1061): node address, bucket iterator -/
structure CIt where
  node : Nat
  itb : BIt
deriving DecidableEq, Repr

/-- `serialization_track(ar,it)` (implementation.hpp:1084-1092, fca.hpp:310-317; null pointers are not tracked, serialize_tracked_address.hpp:50). -/
def CIt.tracked (it : CIt) : List CAddr := .node it.node :: .bucket it.itb.p :: (it.itb.g.map CAddr.group).toList

/-- `serialize` of an iterator of container `r` (implementation.hpp:1096-1102, fca.hpp:320-326): the three pointers written, all null for the end
iterator. -/
def CIt.ptrs (r : Nat) : Option CIt → List (Option (Nat × CAddr))
  | none => [none, none, none]
  | some it => [some (r, .node it.node), some (r, .bucket it.itb.p), it.itb.g.map (fun g => (r, .group g))]

namespace Table

/-- the address of the node of an element -/
def addr (x : K × V × Nat) : Nat := x.2.2

/-- an element as it is in the archive -/
def plain (x : K × V × Nat) : K × V := (x.1, x.2.1)

/-- Where the node with address `n` is: bucket, place in its chain; buckets below `m` are searched. -/
def locate (chain : Nat → List (K × V × Nat)) (n : Nat) : Nat → Option (Nat × Nat)
  | 0 => none
  | m + 1 =>
    match locate chain n m with
    | some q => some q
    | none => ((chain m).findIdx? (fun x => addr x == n)).map (fun i => (m, i))

/-- `*it` (implementation.hpp:1066): looks at the node only. -/
def derefC (t : Table K (V × Nat)) (it : CIt) : Option (K × V) :=
  match locate t.b.chain it.node t.b.size with
  | none => none
  | some q => ((t.b.chain q.1)[q.2]?).map plain

/-- `++itb` (fca.hpp:293-308) for an arbitrary pair of pointers: if the bucket is not one of the group, `p-pbg->buckets` is no value between 0 and 63
and the shift in `reset_first_bits` (fca.hpp:222-225) is by 64 or more bits: undefined. -/
def incB (a : Gba (K × V × Nat)) (it : BIt) : Option BIt := if it.g = some (it.p / 64) then a.inc it else none

/-- `++it` (implementation.hpp:1076-1082): the next node of the chain; if there is none, the first node of the next bucket after `itb`. -/
def incC (t : Table K (V × Nat)) (it : CIt) : Option (Option CIt) :=
  match locate t.b.chain it.node t.b.size with
  | none => none
  | some q =>
    match (t.b.chain q.1)[q.2 + 1]? with
    | some y => some (some ⟨addr y, it.itb⟩)
    | none =>
      match incB t.b it.itb with
      | none => none
      | some itb =>
        match t.b.get itb with
        | none => none
        | some [] => some none
        | some (y :: _) => some (some ⟨addr y, itb⟩)

/-- `erase_node` (implementation.hpp:2245-2261): `++next`, then the node is looked for in the chain of the bucket of the iterator; if it is not
there, the loop gets to the null pointer at the end of the chain and dereferences it. The rest is as in `eraseNode`. -/
def eraseC (t : Table K (V × Nat)) (it : CIt) : Option (Table K (V × Nat)) :=
  match t.incC it, t.b.get it.itb with
  | some _, some l =>
    match l.findIdx? (fun x => addr x == it.node) with
    | none => none
    | some i => (t.eraseNode (it.itb, i)).map Prod.fst
  | _, _ => none

/-- Saving (serialize_container.hpp:64-68, 124-137): the elements met by iteration, with what `serialization_track` gives to the archive. -/
def walkC (a : Gba (K × V × Nat)) : Nat → It → Option (List ((K × V) × List CAddr))
  | _, none => some []
  | 0, some _ => none
  | f + 1, some q =>
    match a.deref q, a.incIt q with
    | some x, some it' => (walkC a f it').map ((plain x, (CIt.mk (addr x) q.1).tracked) :: ·)
    | _, _ => none

/-- Saving one container (serialize_container.hpp:50-70, 104-139). -/
def saveContC (t : Table K (V × Nat)) : Option (Nat × List ((K × V) × List CAddr)) :=
  (t.begin_.bind (walkC t.b t.size)).map (fun l => (t.size, l))

/-- several containers -/
def saveContsC : List (Table K (V × Nat)) → Option (List (Nat × List ((K × V) × List CAddr)))
  | [] => some []
  | t :: ts => t.saveContC.bind (fun c => (saveContsC ts).map (c :: ·))

/-- Saving containers, then iterators (container number, iterator). -/
def saveSessionC (ts : List (Table K (V × Nat))) (its : List (Nat × Option CIt)) : Option (List (Tok (K × V))) :=
  (saveContsC ts).map (fun cs => Track.saveSession cs (its.map (fun i => CIt.ptrs i.1 i.2)))

/-- `clear(); reserve(s)` (serialize_container.hpp:86-87, 160-161). -/
def loadPrepC (t : Table K (V × Nat)) (n : Nat) : Option (Table K (V × Nat)) := t.clear.bind (·.reserve n)

/-- inserting a loaded item, and what is tracked then (serialize_container.hpp:36-46, 92-97, 167-177). -/
def loadInsC (u : Bool) (t : Table K (V × Nat)) (x : K × V) : Option (Table K (V × Nat) × Option (List CAddr)) :=
  if u then
    match t.emplaceUnique (x.1, x.2, t.size) with
    | none => none
    | some (t', q, true) => (t'.b.deref q).map (fun e => (t', some (CIt.mk (addr e) q.1).tracked))
    | some (t', _, false) => some (t', none)
  else
    match t.emplaceEquiv (x.1, x.2, t.size) with
    | none => none
    | some (t', q) => (t'.b.deref q).map (fun e => (t', some (CIt.mk (addr e) q.1).tracked))

/-- Loading containers, then `n` iterators (each as the three pointers read). -/
def loadSessionC (u : Bool) (n : Nat) (ts : List (Table K (V × Nat))) (toks : List (Tok (K × V))) :
    Option (List (Table K (V × Nat)) × List (List (Option (Nat × CAddr))) × Outcome) :=
  Track.loadSession loadPrepC (loadInsC u) 3 n ts toks

end Table

/-! ### Facts -/
open Table

theorem locate_spec {chain : Nat → List (K × V × Nat)} {n : Nat} : ∀ {m b i : Nat}, locate chain n m = some (b, i) →
    b < m ∧ ∃ x, (chain b)[i]? = some x ∧ addr x = n
  | m + 1, b, i, h => by
    simp only [locate] at h
    split at h
    · rename_i q e
      cases h
      obtain ⟨h1, h2⟩ := locate_spec e
      exact ⟨by omega, h2⟩
    · rw [Option.map_eq_some_iff] at h
      obtain ⟨j, h1, h2⟩ := h
      cases h2
      rw [List.findIdx?_eq_some_iff_getElem] at h1
      obtain ⟨h2, h3, _⟩ := h1
      exact ⟨by omega, _, List.getElem?_eq_getElem h2, by simpa using h3⟩

theorem locate_none {chain : Nat → List (K × V × Nat)} {n : Nat} : ∀ {m : Nat}, locate chain n m = none →
    ∀ b < m, ∀ x ∈ chain b, addr x ≠ n
  | m + 1, h, b, hb, x, hx => by
    simp only [locate] at h
    split at h
    · cases h
    · rename_i e
      rw [Option.map_eq_none_iff, List.findIdx?_eq_none_iff] at h
      rcases Nat.lt_or_ge b m with h1 | h1
      · exact locate_none e b h1 x hx
      · have : b = m := by omega
        subst this
        simpa using h x hx

theorem nodup_contents_unique {a : Gba (K × V × Nat)} (hn : (a.contents.map addr).Nodup) {b b' i i' : Nat} {x x' : K × V × Nat}
    (hb : b < a.size) (hb' : b' < a.size) (h : (a.chain b)[i]? = some x) (h' : (a.chain b')[i']? = some x') (he : addr x = addr x') :
    b = b' ∧ i = i' := by
  unfold Gba.contents at hn
  rw [List.map_flatMap, List.nodup_flatMap] at hn
  obtain ⟨h1, h2⟩ := hn
  have hm : addr x ∈ (a.chain b).map addr := List.mem_map.2 ⟨x, List.mem_of_getElem? h, rfl⟩
  have hm' : addr x ∈ (a.chain b').map addr := List.mem_map.2 ⟨x', List.mem_of_getElem? h', he.symm⟩
  rw [List.pairwise_iff_getElem] at h2
  rcases Nat.lt_trichotomy b b' with hlt | hbb | hlt
  · have := h2 b b' (by simpa using hb) (by simpa using hb') hlt
    simp only [List.getElem_range] at this
    exact absurd hm' (fun hm' => this hm hm')
  · subst hbb
    refine ⟨rfl, ?_⟩
    have hnd := h1 b (List.mem_range.2 hb)
    have e1 : ((a.chain b).map addr)[i]? = some (addr x) := by simp [h]
    have e2 : ((a.chain b).map addr)[i']? = some (addr x) := by simp [h', he]
    have l1 : i < ((a.chain b).map addr).length := by
      rw [List.getElem?_eq_some_iff] at e1; exact e1.1
    exact (List.getElem?_inj l1 hnd).1 (e1.trans e2.symm)
  · have := h2 b' b (by simpa using hb') (by simpa using hb) hlt
    simp only [List.getElem_range] at this
    exact absurd hm (fun hm => this hm' hm)

/-- where a node is found -/
theorem locate_eq {a : Gba (K × V × Nat)} (hn : (a.contents.map addr).Nodup) {b i : Nat} {x : K × V × Nat} (hb : b < a.size)
    (h : (a.chain b)[i]? = some x) : locate a.chain (addr x) a.size = some (b, i) := by
  cases e : locate a.chain (addr x) a.size with
  | none => exact absurd rfl (locate_none e b hb x (List.mem_of_getElem? h))
  | some q =>
    obtain ⟨b', i'⟩ := q
    obtain ⟨h1, y, h2, h3⟩ := locate_spec e
    obtain ⟨rfl, rfl⟩ := nodup_contents_unique hn h1 hb h2 h h3
    rfl

/-- the iterator with its three pointers -/
def toC (a : Gba (K × V × Nat)) (q : BIt × Nat) : Option CIt := (a.deref q).map (fun e => ⟨addr e, q.1⟩)

/-- For an iterator to an element, `++` on the pointers is `++` of the table model. -/
theorem incC_eq {t : Table K (V × Nat)} (hs : SInv t) (hn : (t.contents.map addr).Nodup) {q : BIt × Nat} {x : K × V × Nat}
    (h : Node t.b q x) : ∃ nx, t.b.incIt q = some nx ∧ t.incC ⟨addr x, q.1⟩ = some (nx.bind (toC t.b)) := by
  obtain ⟨L, hg⟩ := hs.ginv_of_mem (Node.mem hs h)
  obtain ⟨pre, post, hat⟩ := h.at_ hg
  obtain ⟨nx, e1, e2⟩ := hat.inc hg
  refine ⟨nx, e1, ?_⟩
  obtain ⟨hq, hx⟩ := h
  have hlt : q.1.p < t.b.size := hg.nonempty_lt (fun e => by rw [e] at hx; simp at hx)
  unfold Table.incC
  rw [locate_eq hn hlt hx]
  dsimp only
  have hget : t.b.get q.1 = some (t.b.chain q.1.p) := Gba.get_of_le hg (Nat.le_of_lt hlt)
  unfold Gba.incIt at e1
  rw [hget] at e1
  dsimp only at e1
  split at e1
  · rename_i hl
    cases e1
    rw [List.getElem?_eq_getElem hl]
    simp only [Option.bind_some, toC, Gba.deref, hget, List.getElem?_eq_getElem hl, Option.map_some]
  · rename_i hl
    rw [List.getElem?_eq_none (by omega)]
    dsimp only
    unfold Table.incB
    rw [if_pos hq]
    split at e1
    · cases e1
    · rename_i it' e3
      simp only [e3]
      split at e1
      · cases e1
      · rename_i e4
        cases e1; rw [e4]; rfl
      · rename_i y l e4
        cases e1
        rw [e4]
        simp only [Option.bind_some, toC, Gba.deref, e4, List.getElem?_cons_zero, Option.map_some]

theorem derefC_eq {t : Table K (V × Nat)} (hn : (t.contents.map addr).Nodup) {b i : Nat} {x : K × V × Nat} (hb : b < t.b.size)
    (h : (t.b.chain b)[i]? = some x) (itb : BIt) : t.derefC ⟨addr x, itb⟩ = some (plain x) := by
  unfold Table.derefC
  rw [locate_eq hn hb h]
  simp [h]

/-- `erase` with an iterator to an element removes that element. -/
theorem eraseC_eq {t : Table K (V × Nat)} (hs : SInv t) (hn : (t.contents.map addr).Nodup) {q : BIt × Nat} {x : K × V × Nat}
    (h : Node t.b q x) : ∃ t', t.eraseC ⟨addr x, q.1⟩ = some t' ∧ Removed t [x] t' := by
  obtain ⟨L, hg⟩ := hs.ginv_of_mem (Node.mem hs h)
  obtain ⟨pre, post, hat⟩ := h.at_ hg
  obtain ⟨t', L', it', e1, e2, _⟩ := eraseNode_at hs hg hat
  obtain ⟨nx, e3, e4⟩ := incC_eq hs hn h
  obtain ⟨hq, hx⟩ := h
  have hlt : q.1.p < t.b.size := hg.nonempty_lt (fun e => by rw [e] at hx; simp at hx)
  refine ⟨t', ?_, e2⟩
  unfold Table.eraseC
  rw [e4, Gba.get_of_le hg (Nat.le_of_lt hlt)]
  dsimp only
  have hi : (t.b.chain q.1.p).findIdx? (fun y => addr y == addr x) = some q.2 := by
    cases e : (t.b.chain q.1.p).findIdx? (fun y => addr y == addr x) with
    | none =>
      rw [List.findIdx?_eq_none_iff] at e
      have := e x (List.mem_of_getElem? hx)
      simp at this
    | some j =>
      rw [List.findIdx?_eq_some_iff_getElem] at e
      obtain ⟨e5, e6, _⟩ := e
      have := nodup_contents_unique hn hlt hlt (List.getElem?_eq_getElem e5) hx (by simpa using e6)
      rw [this.2]
  rw [hi]
  dsimp only
  rw [show ((q.1, q.2) : BIt × Nat) = q from rfl, e1]
  rfl

/-- an element as saved: the item, and the pointers its iterator consists of -/
def enc (pos : K → Nat) (e : K × V × Nat) : (K × V) × List CAddr :=
  (plain e, [.node (addr e), .bucket (pos e.1), .group (pos e.1 / 64)])

theorem walkC_at {t : Table K (V × Nat)} {L : List Nat} (hg : t.b.Ginv L) (hp : Placed t.fns t.b) : ∀ (post pre : List (K × V × Nat)) (it : It)
    (f : Nat), t.b.At L it pre post → post.length ≤ f → Table.walkC t.b f it = some (post.map (enc t.pos)) := by
  intro post
  induction post with
  | nil =>
    intro pre it f hc _
    have := hc.none_iff.mpr rfl
    subst this
    unfold Table.walkC; rfl
  | cons x post ih =>
    intro pre it f hc hf
    obtain ⟨q, rfl⟩ := hc.some_of_cons
    obtain ⟨it', e1, e2⟩ := hc.inc hg
    obtain ⟨n1, n2⟩ := Node.of_at hc
    have hpos : t.pos x.1 = q.1.p := hp _ _ (List.mem_of_getElem? n2)
    cases f with
    | zero => simp at hf
    | succ f =>
      unfold Table.walkC
      rw [hc.deref hg, e1]
      dsimp only
      rw [ih _ it' f e2 (by simpa using hf)]
      simp only [Option.map_some, List.map_cons, enc, CIt.tracked, n1, Option.toList_some, hpos]

theorem saveContC_spec {t : Table K (V × Nat)} (hs : SInv t) (hp : Placed t.fns t.b) :
    ∃ l, t.iterate = some l ∧ l.Perm t.contents ∧ t.saveContC = some (l.length, l.map (enc t.pos)) := by
  obtain ⟨l, h1, h2, h3, _⟩ := iterate_spec hs
  refine ⟨l, h1, h2, ?_⟩
  rcases begin_spec hs with ⟨e1, e2⟩ | ⟨L, it, hg, e1, e2, e3, e4⟩
  · have hl : l = [] := by rw [e2] at h2; exact h2.eq_nil
    subst hl
    have hz : t.size = 0 := by rw [← h3]; rfl
    unfold Table.saveContC
    rw [e1, hz]
    rfl
  · have hl : l = t.b.elems L := by
      unfold Table.iterate at h1
      rw [e1] at h1
      have h5 := Gba.walk_at hg _ _ _ t.size e2 (Nat.le_of_eq e4)
      rw [Option.bind_some] at h1
      rw [h5] at h1
      exact (Option.some.inj h1).symm
    subst hl
    unfold Table.saveContC
    rw [e1, Option.bind_some, walkC_at hg hp _ _ _ t.size e2 (Nat.le_of_eq e4), h3]
    rfl

end Fca

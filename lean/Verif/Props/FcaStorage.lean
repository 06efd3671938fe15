/-
Property theorems C55 (memory blocks of closed-addressing containers and their node handles, with exceptions).
Model: `Verif/Fca/Storage.lean`.
-/
import Verif.Fca.StorageLemmas

namespace Props.FcaStorage
open _root_.FcaStorage

/-- The object `o` uses the block `b`: a container the array of its `size` buckets and the end bucket, the array of its bucket groups
(`N` buckets each) and one block per element, all obtained from its allocator; a node handle its node, obtained from its allocator. -/
def Uses (N : Nat) (o : Obj) (b : Block) : Prop :=
  match o with
  | .box t =>
    t.arr.bks ≠ 0 ∧ b = (t.arr.bks, .buckets, t.al, t.arr.size + 1) ∨
    t.arr.grs ≠ 0 ∧ b = (t.arr.grs, .groups, t.al, t.arr.size / N + 1) ∨
    ∃ p ∈ t.nodes, b = (p, .node, t.al, 1)
  | .hnd x => ∃ p al, x.p = some p ∧ x.a = some al ∧ b = (p, .node, al, 1)

theorem uses_iff {N : Nat} {o : Obj} (hg : GoodO (some o)) (b : Block) : Uses N o b ↔ b ∈ ocells N (some o) := by
  cases o with
  | box t =>
    simp only [Uses, ocells, Box.cells, Arr.cells, List.mem_append, List.mem_map, nodeCell]
    constructor
    · rintro (⟨h1, rfl⟩ | ⟨h1, rfl⟩ | ⟨p, hp, rfl⟩)
      · rw [if_neg h1]; exact Or.inl (Or.inl (by simp))
      · rw [if_neg h1]; exact Or.inl (Or.inr (by simp))
      · exact Or.inr ⟨p, hp, rfl⟩
    · rintro ((h1 | h1) | ⟨p, hp, rfl⟩)
      · split at h1
        · cases h1
        · rename_i h; exact Or.inl ⟨h, by simpa using h1⟩
      · split at h1
        · cases h1
        · rename_i h; exact Or.inr (Or.inl ⟨h, by simpa using h1⟩)
      · exact Or.inr (Or.inr ⟨p, hp, rfl⟩)
  | hnd x =>
    obtain ⟨xp, xa⟩ := x
    simp only [Uses, ocells, Hnd.cells]
    cases xp with
    | none => simp
    | some p =>
      cases xa with
      | none => exact absurd rfl (hg (by simp))
      | some al => simp [nodeCell]

/-- C55. Any program over `R` variables - closed-addressing containers and node handles; construction, destruction, copy, move,
assignment, swap, clear, rehash, insertion of elements, of ranges and of nodes, erasure, extraction, merging, any handle
operation - with any sizes and any propagation traits, where any allocation, any element constructor and any other user code may throw
(`may`):
* no faulty deallocation ever happens and no assertion about allocators fails (`run` would be `none` if a block were freed twice, with
  another allocator, with another size or as a block of another sort);
* afterwards no two live blocks have the same address;
* the live blocks are exactly the blocks used by the living objects, carrying the object's current allocator and size: nothing
  dangles, nothing is leaked - in particular by a call left by an exception;
* no block is used by two objects;
* no element occurs twice in a container;
* destroying the living objects frees every block. -/
theorem C55_blocks_freed_exactly_once (cfg : Cfg) (may : Kind → Nat → Bool) (R : Nat) (cs : List Call) :
    ∃ s thrown, run cfg may R cs init = some (s, thrown) ∧
      (s.heap.blocks.map Prod.fst).Nodup ∧
      (∀ r o b, s.vars r = some o → Uses cfg.N o b → b ∈ s.heap.blocks) ∧
      (∀ b ∈ s.heap.blocks, ∃ r < R, ∃ o, s.vars r = some o ∧ Uses cfg.N o b) ∧
      (∀ r q o o' b b', s.vars r = some o → s.vars q = some o' → Uses cfg.N o b → Uses cfg.N o' b' → b.1 = b'.1 → r = q ∧ b = b') ∧
      (∀ r t, s.vars r = some (.box t) → t.nodes.Nodup) ∧
      ∃ heap', finish cfg s.vars R s.heap = some heap' ∧ heap'.blocks = [] := by
  obtain ⟨s, bs, e, hi⟩ := run_inv (may := may) cs init (Inv.init cfg R)
  have hlt : ∀ r t, s.vars r = some t → r < R := by
    intro r t e
    by_contra hc
    rw [hi.out r (by omega)] at e
    cases e
  have hgo : ∀ r o, s.vars r = some o → GoodO (some o) := by
    intro r o e
    have := hi.good r
    rwa [e] at this
  have hmem : ∀ r t b, s.vars r = some t → Uses cfg.N t b → b ∈ s.heap.blocks := by
    intro r t b er hu
    refine hi.own.perm.symm.subset (List.mem_flatMap.2 ⟨r, List.mem_range.2 (hlt r t er), ?_⟩)
    rw [er]
    exact (uses_iff (hgo r t er) b).1 hu
  refine ⟨s, bs, e, hi.own.ok.nodup, hmem, ?_, ?_, ?_, finish_own hi.good R s.heap hi.own⟩
  · intro b hb
    obtain ⟨r, hr, hb⟩ := List.mem_flatMap.1 (hi.own.perm.subset hb)
    cases er : s.vars r with
    | none => simp only [er, ocells] at hb; cases hb
    | some t =>
      rw [er] at hb
      exact ⟨r, List.mem_range.1 hr, t, er, (uses_iff (hgo r t er) b).2 hb⟩
  · intro r q t x b b' er eq hu hu' hid
    have hbb : b = b' :=
      List.inj_on_of_nodup_map hi.own.ok.nodup (hmem r t b er hu) (hmem q x b' eq hu') hid
    refine ⟨?_, hbb⟩
    by_contra hne
    have hp := (hi.own2 (hlt r t er) (hlt q x eq) hne).perm
    rw [er, eq] at hp
    have hnd := (hp.map Prod.fst).nodup_iff.1 hi.own.ok.nodup
    simp only [List.map_append] at hnd
    have hd := (List.nodup_append.1 hnd).2.2
    refine hd b.1 (List.mem_map_of_mem ((uses_iff (hgo r t er) b).1 hu)) b'.1 ?_ hid
    exact List.mem_append_left _ (List.mem_map_of_mem ((uses_iff (hgo q x eq) b').1 hu'))
  · intro r t er
    have hp := (hi.own1 (hlt r _ er)).perm
    rw [er] at hp
    have hnd := (hp.map Prod.fst).nodup_iff.1 hi.own.ok.nodup
    simp only [ocells, Box.cells, List.map_append, List.map_map] at hnd
    have h2 := (List.nodup_append.1 (List.nodup_append.1 hnd).1).2.1
    have e2 : (Prod.fst ∘ nodeCell t.al) = id := by funext p; rfl
    rwa [e2, List.map_id] at h2

/-- C55. A container without bucket array has bucket count zero and no group array. -/
theorem C55_no_array_no_buckets (cfg : Cfg) (may : Kind → Nat → Bool) (R : Nat) (cs : List Call) {s : St} {thrown : List Bool}
    (h : run cfg may R cs init = some (s, thrown)) {r : Nat} {t : Box} (ht : s.vars r = some (.box t)) (he : t.arr.bks = 0) :
    t.arr.size = 0 ∧ t.arr.grs = 0 := by
  obtain ⟨s', bs, e, hi⟩ := run_inv (may := may) cs init (Inv.init cfg R)
  rw [h] at e
  cases e
  have := hi.good r
  rw [ht] at this
  have := this he
  rw [this]
  exact ⟨rfl, rfl⟩

/-! ### What the calls do -/

theorem run_reach {cfg : Cfg} {may : Kind → Nat → Bool} {R : Nat} {cs : List Call} {s : St} {thrown : List Bool}
    (h : run cfg may R cs init = some (s, thrown)) : Inv cfg R s := by
  obtain ⟨s', bs, e, hi⟩ := run_inv (may := may) cs init (Inv.init cfg R)
  rw [h] at e
  cases e
  exact hi

theorem box_of {s : St} {R r : Nat} {t : Box} (hr : r < R) (e : s.vars r = some (.box t)) : s.box R r = some t := by
  simp [St.box, hr, e]

theorem hnd_of {s : St} {R r : Nat} {x : Hnd} (hr : r < R) (e : s.vars r = some (.hnd x)) : s.hnd R r = some x := by
  simp [St.hnd, hr, e]

theorem inv_lt {cfg : Cfg} {R : Nat} {s : St} (hi : Inv cfg R s) {r : Nat} {o : Obj} (e : s.vars r = some o) : r < R := by
  by_contra hc
  rw [hi.out r (by omega)] at e
  cases e

theorem one_sat {cfg : Cfg} {R : Nat} {s s' : St} {b : Bool} {r : Nat} {f : Box → Heap → Out Box} {t : Box} (hi : Inv cfg R s)
    (e : s.vars r = some (.box t)) {P Q : Box → Heap → Prop}
    (hf : Has cfg s.heap t (all cfg.N R (setVar s.vars r none)) → (f t s.heap).Sat P Q) (hs : one R s r f = some (s', b)) :
    ∃ t', s'.vars = setVar s.vars r (some (.box t')) ∧ if b then Q t' s'.heap else P t' s'.heap := by
  have eb := box_of (inv_lt hi e) e
  unfold one at hs
  rw [eb] at hs
  simp only at hs
  have hf := hf (hi.has eb)
  generalize f t s.heap = o at hs hf
  match o, hf, hs with
  | .ok t' h', hf, hs => cases hs; exact ⟨t', rfl, hf⟩
  | .exc t' h', hf, hs => cases hs; exact ⟨t', rfl, hf⟩

theorem two_sat {cfg : Cfg} {R : Nat} {s s' : St} {b : Bool} {r q : Nat} {f : Box → Box → Heap → Out (Box × Box)} {t x : Box}
    (hi : Inv cfg R s) (e : s.vars r = some (.box t)) (e' : s.vars q = some (.box x)) (hne : r ≠ q) {P Q : Box × Box → Heap → Prop}
    (hf : Has2 cfg s.heap t x (all cfg.N R (setVar (setVar s.vars r none) q none)) → (f t x s.heap).Sat P Q) (hs : two R s r q f = some (s', b)) :
    ∃ t' x', s'.vars = setVar (setVar s.vars r (some (.box t'))) q (some (.box x')) ∧
      if b then Q (t', x') s'.heap else P (t', x') s'.heap := by
  have eb := box_of (inv_lt hi e) e
  have eb' := box_of (inv_lt hi e') e'
  unfold two at hs
  rw [eb, eb'] at hs
  simp only [if_neg hne] at hs
  have hf := hf (hi.has2 eb eb' hne)
  generalize f t x s.heap = o at hs hf
  match o, hf, hs with
  | .ok t' h', hf, hs => cases hs; exact ⟨t'.1, t'.2, rfl, hf⟩
  | .exc t' h', hf, hs => cases hs; exact ⟨t'.1, t'.2, rfl, hf⟩

theorem set_self {f : Nat → Option Obj} {r : Nat} {x : Option Obj} (h : f r = x) : setVar f r x = f := by
  funext q
  unfold setVar
  split
  · rename_i e; rw [e, h]
  · rfl

theorem set_at (f : Nat → Option Obj) (r : Nat) (x : Option Obj) : setVar f r x r = x := by simp [setVar]

theorem set_ne (f : Nat → Option Obj) {r p : Nat} (x : Option Obj) (h : p ≠ r) : setVar f r x p = f p := by
  unfold setVar; rw [if_neg h]

/-- The calls that construct an object. -/
def target : Call → Option Nat
  | .create r _ _ => some r
  | .fromRange r _ _ _ _ => some r
  | .copy r _ _ _ => some r
  | .move r _ => some r
  | .moveAl r _ _ _ => some r
  | .extract _ _ k => some k
  | _ => none

theorem build_exc {cfg : Cfg} {R : Nat} {s s' : St} {r q : Nat} {f : Box → Heap → Out (Option Box × Box)} (hi : Inv cfg R s)
    {P : Box → Option Box × Box → Heap → Prop}
    (hf : ∀ x l, Has cfg s.heap x l → (f x s.heap).Sat (P x) (fun a _ => a = (none, x)))
    (hs : build R s r q f = some (s', true)) : s'.vars = s.vars := by
  unfold build at hs
  cases e : s.box R q with
  | none => rw [e] at hs; cases hs
  | some x =>
    rw [e] at hs
    simp only at hs
    split at hs
    · rename_i hc
      have hf := hf x _ (hi.has e)
      generalize f x s.heap = o at hs hf
      match o, hf, hs with
      | .exc a h', hf, hs =>
        cases hs
        have hf : a = (none, x) := hf
        subst hf
        simp only [Option.map_none]
        rw [set_self (f := s.vars) hc.2, set_self (box_some e).2]
    · cases hs

/-- C55, exceptions in constructors and `extract`: no object comes to life, and every other object is what it was - also the source of
a copy, a move or an extraction. (`C55_blocks_freed_exactly_once`: nothing is leaked.) -/
theorem C55_throwing_constructor (cfg : Cfg) (may : Kind → Nat → Bool) (R : Nat) (cs : List Call) {s s' : St} {thrown : List Bool}
    (h : run cfg may R cs init = some (s, thrown)) (c : Call) (hc : target c ≠ none)
    (hs : step cfg may R s c = some (s', true)) : s'.vars = s.vars := by
  have hi := run_reach h
  have fresh : ∀ {r : Nat}, r < R → s.vars r = none → Own s.heap (all cfg.N R (setVar s.vars r none)) := by
    intro r hr e
    have := hi.own1 hr
    rwa [e] at this
  have c1 : ∀ {r : Nat} {o : Out (Option Box)} {P : Option Box → Heap → Prop} {l : List Block}, s.vars r = none →
      o.Sat P (fun a h' => a = none ∧ Own h' l) → on1 s r (o.map (fun t => t.map .box)) = some (s', true) → s'.vars = s.vars := by
    intro r o P l e ho hs
    match o, ho, hs with
    | .exc a h', ho, hs =>
      cases hs
      obtain ⟨rfl, _⟩ := ho
      exact set_self e
  cases c with
  | create r al n =>
    simp only [step] at hs
    split at hs
    · rename_i hc; exact c1 hc.2 (create_sat (fresh hc.1 hc.2)) hs
    · cases hs
  | fromRange r al n g xs =>
    simp only [step] at hs
    split at hs
    · rename_i hc; exact c1 hc.2 (fromRange_sat (fresh hc.1 hc.2)) hs
    · cases hs
  | copy r q al g =>
    simp only [step] at hs
    refine build_exc hi (P := fun _ _ _ => True) (fun x l hx => Out.Sat.map ((copy_sat hx.2).imp (fun _ _ _ => trivial) ?_)) hs
    rintro _ _ ⟨rfl, _⟩; rfl
  | move r q =>
    simp only [step] at hs
    exact build_exc hi (P := fun _ _ _ => True) (fun x l hx => (move_sat hx.2).imp (fun _ _ _ => trivial) (fun _ _ h => h.1)) hs
  | moveAl r q al g =>
    simp only [step] at hs
    exact build_exc hi (P := fun _ _ _ => True) (fun x l hx => (moveAl_sat hx).imp (fun _ _ _ => trivial) (fun _ _ h => h.1)) hs
  | extract r i k =>
    simp only [step] at hs
    cases e : s.box R r with
    | none => rw [e] at hs; cases hs
    | some t =>
      rw [e] at hs
      simp only at hs
      split at hs
      · rename_i hc
        have hf := extract_sat (may := may) (i := i) (hi.has e)
        generalize t.extract may i s.heap = o at hs hf
        match o, hf, hs with
        | .exc a h', hf, hs =>
          cases hs
          obtain ⟨rfl, _⟩ := hf
          simp only [Option.map_none]
          rw [set_self (f := s.vars) (box_some e).2, set_self hc.2]
      · cases hs
  | _ => exact absurd rfl hc

/-- The calls that insert one element into, or rehash, the container `r`. -/
def inserts (r : Nat) : Call → Prop
  | .emplaceKey r' _ _ => r' = r
  | .emplaceNode r' _ _ => r' = r
  | .rehash r' _ => r' = r
  | .insertNode r' _ _ _ => r' = r
  | _ => False

theorem insertNode_run {cfg : Cfg} {may : Kind → Nat → Bool} {R : Nat} {s s' : St} {b : Bool} (hi : Inv cfg R s) {r k : Nat} {dup : Bool}
    {g : Option Nat} {t : Box} {x : Hnd} (et : s.vars r = some (.box t)) (ex : s.vars k = some (.hnd x))
    (hx : x.p ≠ none → x.a = some t.al) (hs : step cfg may R s (.insertNode r k dup g) = some (s', b)) :
    ∃ t' x', s'.vars = setVar (setVar s.vars r (some (.box t'))) k (some (.hnd x')) ∧
      if b then x' = x ∧ t'.al = t.al ∧ t'.nodes <:+ t.nodes ∧ ((∀ n, may .user n = false) → t' = t)
      else t'.al = t.al ∧ x'.a = x.a ∧
        (∀ p, x.p = some p → if dup then t' = t ∧ x' = x else t'.nodes = p :: t.nodes ∧ x'.p = none) ∧
        (x.p = none → t' = t ∧ x' = x) := by
  have hr := inv_lt hi et
  have hk := inv_lt hi ex
  have hne : r ≠ k := by rintro rfl; rw [et] at ex; cases ex
  have ho := hi.own2 hr hk hne
  have hg := hi.good r
  rw [et] at ho hg
  rw [ex] at ho
  have hsat := insertNode_sat (may := may) (dup := dup) (g := g) hx hg ho
  simp only [step, box_of hr et, hnd_of hk ex] at hs
  rw [if_neg (fun h => h.2 (hx h.1))] at hs
  generalize t.insertNode cfg may x dup g s.heap = o at hs hsat
  match o, hsat, hs with
  | .ok a h', hsat, hs =>
    cases hs
    refine ⟨a.1, a.2, rfl, ?_⟩
    rw [if_neg (by simp)]
    refine ⟨hsat.1, hsat.2.1, hsat.2.2.1, fun hn => ?_⟩
    have := hsat.2.2.2.1 hn
    rw [this]
    exact ⟨rfl, rfl⟩
  | .exc a h', hsat, hs =>
    cases hs
    refine ⟨a.1, a.2, rfl, ?_⟩
    rw [if_pos rfl]
    exact ⟨hsat.1, hsat.2.1, hsat.2.2.1, hsat.2.2.2.1⟩

/-- C55, exceptions in the insertion of one element or node and in `rehash`/`reserve` of the container `r`: all other objects - also the
handle whose node was to be inserted - are what they were. If user code (hash, equality) does not throw, i.e. the exception comes from an
allocation or from the constructor of the element, the container has its arrays and its nodes too: nothing has changed. If user code throws, the
container still lives; it may have lost nodes (if the throw happened in the middle of a rehash), but has no other nodes. -/
theorem C55_throwing_insertion (cfg : Cfg) (may : Kind → Nat → Bool) (R : Nat) (cs : List Call) {s s' : St} {thrown : List Bool}
    (h : run cfg may R cs init = some (s, thrown)) (r : Nat) (c : Call) (hc : inserts r c) {t : Box}
    (ht : s.vars r = some (.box t)) (hs : step cfg may R s c = some (s', true)) :
    (∀ p, p ≠ r → s'.vars p = s.vars p) ∧
    (∃ t', s'.vars r = some (.box t') ∧ t'.al = t.al ∧ t'.nodes <:+ t.nodes) ∧
    ((∀ n, may .user n = false) → s'.vars = s.vars) := by
  have hi := run_reach h
  have fin : ∀ {t' : Box}, s'.vars = setVar s.vars r (some (.box t')) → t'.al = t.al → t'.nodes <:+ t.nodes →
      ((∀ n, may .user n = false) → t' = t) →
      (∀ p, p ≠ r → s'.vars p = s.vars p) ∧ (∃ t', s'.vars r = some (.box t') ∧ t'.al = t.al ∧ t'.nodes <:+ t.nodes) ∧
        ((∀ n, may .user n = false) → s'.vars = s.vars) := by
    intro t' e h1 h2 h3
    rw [e]
    refine ⟨fun p hp => set_ne _ _ hp, ⟨t', set_at _ _ _, h1, h2⟩, fun hf => ?_⟩
    rw [h3 hf]
    exact set_self ht
  cases c with
  | emplaceKey r' dup g =>
    cases hc
    simp only [step] at hs
    obtain ⟨t', e, hk⟩ := one_sat hi ht (fun hl => emplaceKey_sat hl) hs
    exact fin e hk.1.1 hk.1.2.2.1 hk.1.2.2.2
  | emplaceNode r' dup g =>
    cases hc
    simp only [step] at hs
    obtain ⟨t', e, hk⟩ := one_sat hi ht (fun hl => emplaceNode_sat hl) hs
    exact fin e hk.1.1 hk.1.2.2.1 hk.1.2.2.2
  | rehash r' g =>
    cases hc
    simp only [step] at hs
    obtain ⟨t', e, hk⟩ := one_sat hi ht (fun hl => grow_sat hl) hs
    exact fin e hk.1.1 hk.1.2.2.1 hk.1.2.2.2
  | insertNode r' k dup g =>
    cases hc
    have hr := inv_lt hi ht
    have hs0 := hs
    simp only [step, box_of hr ht] at hs
    cases ek : s.hnd R k with
    | none => rw [ek] at hs; cases hs
    | some x =>
      rw [ek] at hs
      simp only at hs
      split at hs
      · cases hs
      · rename_i hcc
        obtain ⟨hk, ex⟩ := hnd_some ek
        obtain ⟨t', x', e, h1, h2, h3, h4⟩ := insertNode_run hi ht ex
          (fun h => Classical.byContradiction (fun h' => hcc ⟨h, h'⟩)) hs0
        have hne : r ≠ k := by rintro rfl; rw [ht] at ex; cases ex
        rw [h1, set_comm _ hne, set_self ex] at e
        exact fin e h2 h3 h4
  | _ => exact hc.elim

/-- C55, exceptions in assignments: the source and all other objects are what they were, the target is still a container. -/
theorem C55_throwing_assignment (cfg : Cfg) (may : Kind → Nat → Bool) (R : Nat) (cs : List Call) {s s' : St} {thrown : List Bool}
    (h : run cfg may R cs init = some (s, thrown)) (r q : Nat) (g g' : Option Nat) (c : Call)
    (hc : c = .copyAssign r q g g' ∨ c = .moveAssign r q g) {t x : Box} (ht : s.vars r = some (.box t)) (hx : s.vars q = some (.box x))
    (hne : r ≠ q) (hs : step cfg may R s c = some (s', true)) :
    (∀ p, p ≠ r → s'.vars p = s.vars p) ∧ ∃ t', s'.vars r = some (.box t') := by
  have hi := run_reach h
  rcases hc with rfl | rfl
  · simp only [step] at hs
    obtain ⟨t', x', e, hk⟩ := two_sat (P := fun a _ => a.2 = x) (Q := fun a _ => a.2 = x) hi ht hx hne
      (fun hl => Out.Sat.map ((copyAssign_sat (l := x.cells cfg.N ++ _) ⟨hl.1, hl.2.2⟩).imp (fun _ _ _ => rfl) (fun _ _ _ => rfl))) hs
    rw [if_pos rfl] at hk
    simp only at hk
    rw [hk, set_comm _ hne, set_self hx] at e
    rw [e]
    exact ⟨fun p hp => set_ne _ _ hp, t', set_at _ _ _⟩
  · simp only [step] at hs
    obtain ⟨t', x', e, hk⟩ := two_sat hi ht hx hne (fun hl => moveAssign_sat hl.1 hl.2.1 hl.2.2) hs
    rw [if_pos rfl] at hk
    have hk := hk.1
    simp only at hk
    rw [hk, set_comm _ hne, set_self hx] at e
    rw [e]
    exact ⟨fun p hp => set_ne _ _ hp, t', set_at _ _ _⟩

/-- C55, stability of elements: a rehash keeps every node - no element is moved or copied, pointers and references stay valid - and an
insertion adds exactly one node to them. -/
theorem C55_growth_keeps_nodes (cfg : Cfg) (may : Kind → Nat → Bool) (R : Nat) (cs : List Call) {s s' : St} {thrown : List Bool}
    (h : run cfg may R cs init = some (s, thrown)) (r : Nat) (dup : Bool) (g : Option Nat) (c : Call)
    (hc : c = .rehash r g ∨ c = .emplaceKey r dup g ∨ c = .emplaceNode r dup g) {t : Box} (ht : s.vars r = some (.box t))
    (hs : step cfg may R s c = some (s', false)) :
    ∃ t', s'.vars = setVar s.vars r (some (.box t')) ∧ t'.al = t.al ∧
      (if c = .rehash r g ∨ dup = true then t'.nodes = t.nodes else ∃ p, t'.nodes = p :: t.nodes) := by
  have hi := run_reach h
  rcases hc with rfl | rfl | rfl
  · simp only [step] at hs
    obtain ⟨t', e, hk⟩ := one_sat hi ht (fun hl => grow_sat hl) hs
    exact ⟨t', e, hk.1, by rw [if_pos (Or.inl rfl)]; exact hk.2.1⟩
  · simp only [step] at hs
    obtain ⟨t', e, hk⟩ := one_sat hi ht (fun hl => emplaceKey_sat hl) hs
    refine ⟨t', e, hk.1, ?_⟩
    cases dup
    · rw [if_neg (by simp)]; exact hk.2.1
    · rw [if_pos (Or.inr rfl)]
      have := hk.2.1
      rw [if_pos rfl] at this
      rw [this]
  · simp only [step] at hs
    obtain ⟨t', e, hk⟩ := one_sat hi ht (fun hl => emplaceNode_sat hl) hs
    refine ⟨t', e, hk.1, ?_⟩
    cases dup
    · rw [if_neg (by simp)]; exact hk.2.1
    · rw [if_pos (Or.inr rfl)]
      have := hk.2.1
      rw [if_pos rfl] at this
      rw [this]

/-- C55, taking over: move construction, move assignment with a propagating or equal allocator, and `swap` hand over the arrays and the very
nodes - no element is moved or copied; a moved-from container owns nothing. -/
theorem C55_move_hands_over (cfg : Cfg) (may : Kind → Nat → Bool) (R : Nat) (cs : List Call) {s s' : St} {thrown : List Bool}
    (h : run cfg may R cs init = some (s, thrown)) (r q : Nat) (hr : r < R) (hne : r ≠ q) {x : Box} (hx : s.vars q = some (.box x)) :
    (s.vars r = none → step cfg may R s (.move r q) = some (s', false) →
      s'.vars = setVar (setVar s.vars r (some (.box x))) q (some (.box ⟨x.al, ⟨0, 0, 0⟩, []⟩))) ∧
    (∀ t g, s.vars r = some (.box t) → cfg.pocma = true ∨ t.al = x.al → step cfg may R s (.moveAssign r q g) = some (s', false) →
      s'.vars = setVar (setVar s.vars r (some (.box ⟨x.al, x.arr, x.nodes⟩))) q (some (.box ⟨x.al, ⟨0, 0, 0⟩, []⟩))) ∧
    (∀ t, s.vars r = some (.box t) → cfg.pocs = true ∨ t.al = x.al → step cfg may R s (.swap r q) = some (s', false) →
      s'.vars = setVar (setVar s.vars r (some (.box x))) q (some (.box t))) := by
  have hi := run_reach h
  refine ⟨?_, ?_, ?_⟩
  · intro hn hs
    simp only [step, build, box_of (inv_lt hi hx) hx, if_pos (And.intro hr hn)] at hs
    have hf := move_sat (may := may) (hi.has (box_of (inv_lt hi hx) hx)).2
    generalize x.move may s.heap = o at hs hf
    match o, hf, hs with
    | .ok a h', hf, hs =>
      cases hs
      obtain ⟨rfl, _⟩ := hf
      rfl
  · intro t g ht hc hs
    simp only [step] at hs
    obtain ⟨t', x', e, h1, h2, _⟩ := two_sat hi ht hx hne (fun hl => moveAssign_sat hl.1 hl.2.1 hl.2.2) hs
    simp only [if_pos hc] at h1 h2
    rw [e]
    obtain ⟨ta, tb, tc⟩ := t'
    simp only at h1 h2
    obtain ⟨h2, h3, h4⟩ := h2
    subst h2 h3 h4
    have : ta = x.al := by
      rw [h1]
      split
      · rfl
      · rename_i hp; exact hc.resolve_left hp
    rw [this]
    rfl
  · intro t ht hc hs
    simp only [step] at hs
    obtain ⟨t', x', e, h1, h2, h3, h4, h5, h6, _⟩ := two_sat hi ht hx hne
      (fun hl => by rw [if_pos hc]; exact swap_sat hc hl.2.2) hs
    rw [e]
    obtain ⟨ta, tb, tc⟩ := t'
    obtain ⟨xa, xb, xc⟩ := x'
    obtain ⟨a, b, c⟩ := t
    obtain ⟨a', b', c'⟩ := x
    simp only at h1 h2 h3 h4 h5 h6 hc
    subst h1 h2 h3 h4
    have e1 : ta = a' := by
      rw [h5]
      split
      · rfl
      · rename_i hp; exact hc.resolve_left hp
    have e2 : xa = a := by
      rw [h6]
      split
      · rfl
      · rename_i hp; exact (hc.resolve_left hp).symm
    rw [e1, e2]

/-- C55, merging: the nodes of both containers together stay the same - none is lost, doubled, moved or copied; a merge into a container
with equivalent keys takes all of them. A merge into a container with unique keys that throws (but not from user code) loses none either. -/
theorem C55_merge_keeps_nodes (cfg : Cfg) (may : Kind → Nat → Bool) (R : Nat) (cs : List Call) {s s' : St} {thrown : List Bool}
    (h : run cfg may R cs init = some (s, thrown)) (r q : Nat) (hne : r ≠ q) {t x : Box} (ht : s.vars r = some (.box t))
    (hx : s.vars q = some (.box x)) (ha : t.al = x.al) :
    (∀ g mask b, step cfg may R s (.mergeUnique r q g mask) = some (s', b) → b = false ∨ (∀ n, may .user n = false) →
      ∃ t' x', s'.vars = setVar (setVar s.vars r (some (.box t'))) q (some (.box x')) ∧
        (t'.nodes ++ x'.nodes).Perm (t.nodes ++ x.nodes)) ∧
    (∀ gs, step cfg may R s (.mergeMulti r q gs) = some (s', false) →
      ∃ t' x', s'.vars = setVar (setVar s.vars r (some (.box t'))) q (some (.box x')) ∧
        t'.nodes.Perm (t.nodes ++ x.nodes) ∧ x'.nodes = []) := by
  have hi := run_reach h
  refine ⟨?_, ?_⟩
  · intro g mask b hs hb
    simp only [step] at hs
    obtain ⟨t', x', e, hk⟩ := two_sat hi ht hx hne (fun hl => by rw [if_pos ha]; exact mergeUnique_sat ha hl) hs
    refine ⟨t', x', e, ?_⟩
    cases b
    · exact hk.2.2.2.1
    · exact hk.2.2.2.1 (hb.resolve_left (by simp))
  · intro gs hs
    simp only [step] at hs
    obtain ⟨t', x', e, hk⟩ := two_sat hi ht hx hne (fun hl => by rw [if_pos ha]; exact mergeMulti_sat ha hl) hs
    refine ⟨t', x', e, ?_, hk.2.2.2.1⟩
    rw [hk.2.2.2.2.1]
    exact ((List.reverse_perm _).append_right _).trans List.perm_append_comm

/-- C55, copies: copy construction and copy assignment that do not throw make as many new nodes as the source has, leave the source alone,
and give the target the allocator asked for, or the source's if it propagates on copy assignment, else its own. -/
theorem C55_copy (cfg : Cfg) (may : Kind → Nat → Bool) (R : Nat) (cs : List Call) {s s' : St} {thrown : List Bool}
    (h : run cfg may R cs init = some (s, thrown)) (r q : Nat) (hr : r < R) (hne : r ≠ q) {x : Box} (hx : s.vars q = some (.box x)) :
    (∀ al g, s.vars r = none → step cfg may R s (.copy r q al g) = some (s', false) →
      ∃ t', s'.vars = setVar s.vars r (some (.box t')) ∧ t'.al = al ∧ t'.nodes.length = x.nodes.length) ∧
    (∀ t g g', s.vars r = some (.box t) → step cfg may R s (.copyAssign r q g g') = some (s', false) →
      ∃ t', s'.vars = setVar s.vars r (some (.box t')) ∧ t'.al = (if cfg.pocca then x.al else t.al) ∧
        t'.nodes.length = x.nodes.length) := by
  have hi := run_reach h
  refine ⟨?_, ?_⟩
  · intro al g hn hs
    simp only [step, build, box_of (inv_lt hi hx) hx, if_pos (And.intro hr hn)] at hs
    have hf := copy_sat (cfg := cfg) (may := may) (x := x) (al := al) (g := g) (hi.has (box_of (inv_lt hi hx) hx)).2
    generalize x.copy cfg may al g s.heap = o at hs hf
    match o, hf, hs with
    | .ok a h', hf, hs =>
      cases hs
      obtain ⟨t', rfl, ⟨e1, e2⟩, _⟩ := hf
      refine ⟨t', ?_, e1, e2⟩
      simp only [Option.map_some]
      rw [set_comm _ hne, set_self hx]
  · intro t g g' ht hs
    simp only [step] at hs
    obtain ⟨t', x', e, hk⟩ := two_sat (Q := fun _ _ => True)
      (P := fun a _ => a.2 = x ∧ a.1.al = (if cfg.pocca then x.al else t.al) ∧ a.1.nodes.length = x.nodes.length) hi ht hx hne
      (fun hl => Out.Sat.map ((copyAssign_sat (l := x.cells cfg.N ++ _) ⟨hl.1, hl.2.2⟩).imp
        (fun _ _ h => ⟨rfl, h.1, h.2.1⟩) (fun _ _ _ => trivial))) hs
    rw [if_neg (by simp)] at hk
    obtain ⟨h1, h2, h3⟩ := hk
    simp only at h1 h2 h3
    refine ⟨t', ?_, h2, h3⟩
    rw [e, h1, set_comm _ hne, set_self hx]

/-- C55, node handles: extracting the node at `i` takes it, unmoved, into the handle, together with the container's allocator; inserting it
elsewhere (an equal allocator is required) puts that very node there; if an equivalent key is present, container and handle keep what
they have. -/
theorem C55_handles_carry_nodes (cfg : Cfg) (may : Kind → Nat → Bool) (R : Nat) (cs : List Call) {s s' : St} {thrown : List Bool}
    (h : run cfg may R cs init = some (s, thrown)) (r k : Nat) {t : Box} (ht : s.vars r = some (.box t)) :
    (∀ i, k < R → s.vars k = none → step cfg may R s (.extract r i k) = some (s', false) →
      s'.vars = setVar (setVar s.vars r (some (.box ⟨t.al, t.arr, t.nodes.eraseIdx i⟩))) k (some (.hnd ⟨t.nodes[i]?, some t.al⟩))) ∧
    (∀ p dup g, s.vars k = some (.hnd ⟨some p, some t.al⟩) → step cfg may R s (.insertNode r k dup g) = some (s', false) →
      if dup then s'.vars = s.vars
      else ∃ t', s'.vars = setVar (setVar s.vars r (some (.box t'))) k (some (.hnd ⟨none, some t.al⟩)) ∧ t'.al = t.al ∧
        t'.nodes = p :: t.nodes) := by
  have hi := run_reach h
  refine ⟨?_, ?_⟩
  · intro i hk hn hs
    have eb := box_of (inv_lt hi ht) ht
    simp only [step, eb, if_pos (And.intro hk hn)] at hs
    have hf := extract_sat (may := may) (i := i) (hi.has eb)
    generalize t.extract may i s.heap = o at hs hf
    match o, hf, hs with
    | .ok a h', hf, hs =>
      cases hs
      obtain ⟨rfl, _⟩ := hf
      rfl
  · intro p dup g hk hs
    obtain ⟨t', x', e, hh⟩ := insertNode_run hi ht hk (fun _ => rfl) hs
    rw [if_neg (by simp)] at hh
    have h3 := hh.2.2.1 p rfl
    cases dup
    · rw [if_neg (by simp)] at h3 ⊢
      obtain ⟨xp, xa⟩ := x'
      simp only at h3 hh
      obtain ⟨h3, rfl⟩ := h3
      obtain ⟨h1, rfl, _⟩ := hh
      exact ⟨t', e, h1, h3⟩
    · rw [if_pos rfl] at h3 ⊢
      rw [e, h3.1, h3.2, set_self (f := s.vars) ht, set_self hk]

/-! ### Calls that allocate nothing -/

/-- Calls that need no memory: destruction, move construction, `swap`, `clear`, erasure, extraction, all handle operations, and
`moveAssign` if the allocator propagates. -/
def frugal (cfg : Cfg) : Call → Prop
  | .destroy _ => True
  | .move _ _ => True
  | .swap _ _ => True
  | .clear _ => True
  | .erase _ _ => True
  | .eraseMany _ _ => True
  | .extract _ _ _ => True
  | .hNew _ => True
  | .hMove _ _ => True
  | .hAssign _ _ => True
  | .hSwap _ _ => True
  | .moveAssign _ _ _ => cfg.pocma = true
  | _ => False

/-- `h'` has no block that `h` has not, and nothing was allocated in between. -/
def Less (h h' : Heap) : Prop := h'.blocks ⊆ h.blocks ∧ h'.next = h.next

theorem Less.refl (h : Heap) : Less h h := ⟨fun _ h => h, rfl⟩
theorem Less.trans {a b c : Heap} (h : Less a b) (h' : Less b c) : Less a c := ⟨fun _ hx => h.1 (h'.1 hx), h'.2.trans h.2⟩
theorem Less.tick (h : Heap) : Less h h.ticked := ⟨fun _ h => h, rfl⟩

theorem free_less {h h' : Heap} {b : Block} (e : h.free b = some h') : Less h h' := by
  unfold Heap.free at e
  split at e
  · cases e; exact ⟨fun _ h => List.mem_of_mem_erase h, rfl⟩
  · cases e

theorem deleteNodes_less {al : Nat} : ∀ (ns : List Nat) {h h' : Heap}, deleteNodes al ns h = some h' → Less h h'
  | [], h, h', e => by cases e; exact .refl _
  | p :: ps, h, h', e => by
    simp only [deleteNodes] at e
    obtain ⟨m, e1, e2⟩ := Option.bind_eq_some_iff.1 e
    exact (free_less e1).trans (deleteNodes_less ps e2)

theorem dealloc_less {cfg : Cfg} {a : Arr} {al : Nat} {h h' : Heap} (e : a.dealloc cfg al h = some h') : Less h h' := by
  unfold Arr.dealloc at e
  obtain ⟨m, e1, e2⟩ := Option.bind_eq_some_iff.1 e
  have h1 : Less h m := by
    split at e1
    · cases e1; exact .refl _
    · exact free_less e1
  refine h1.trans ?_
  split at e2
  · cases e2; exact .refl _
  · exact free_less e2

theorem deleteBuckets_less {cfg : Cfg} {t : Box} {h h' : Heap} (e : t.deleteBuckets cfg h = some h') : Less h h' := by
  unfold Box.deleteBuckets at e
  obtain ⟨m, e1, e2⟩ := Option.bind_eq_some_iff.1 e
  exact (deleteNodes_less _ e1).trans (dealloc_less e2)

theorem hdestroy_less {x : Hnd} {h h' : Heap} (e : x.destroy h = some h') : Less h h' := by
  unfold Hnd.destroy at e
  split at e
  · cases e; exact .refl _
  · split at e
    · cases e
    · exact free_less e

/-- The heap a call ends with is less than `h`. -/
def Out.Less {α : Type} (h : Heap) : Out α → Prop
  | .ok _ h' => FcaStorage.Less h h'
  | .exc _ h' => FcaStorage.Less h h'
  | .bad => True

theorem Out.Less.map {α β : Type} {h : Heap} {o : Out α} {f : α → β} (ho : Out.Less h o) : Out.Less h (o.map f) := by
  cases o <;> exact ho

theorem okWith_less {α : Type} {a : α} {h : Heap} {o : Option Heap} (ho : ∀ h', o = some h' → Less h h') : Out.Less h (okWith a o) := by
  cases o with
  | none => trivial
  | some h' => exact ho h' rfl

theorem user_less {β : Type} {may : Kind → Nat → Bool} {h : Heap} {f g : Unit → Heap → Out β}
    (hf : ∀ h', Less h h' → Out.Less h (f () h')) (hg : ∀ h', Less h h' → Out.Less h (g () h')) : Out.Less h ((user may h).bind f g) := by
  unfold user
  split
  · exact hg _ (.tick h)
  · exact hf _ (.tick h)

theorem eraseLoop_less {may : Kind → Nat → Bool} {al : Nat} : ∀ (ns : List Nat) (mask : List Bool) (h : Heap),
    Out.Less h (eraseLoop may al ns mask h)
  | [], _, h => .refl h
  | p :: ps, mask, h => by
    simp only [eraseLoop]
    split
    · exact Less.tick h
    · split
      · split
        · trivial
        · rename_i h' e
          have h1 := (Less.tick h).trans (free_less e)
          have h2 := eraseLoop_less (may := may) (al := al) ps mask.tail h'
          revert h2
          cases eraseLoop may al ps mask.tail h' <;> intro h2
          · exact h1.trans h2
          · exact h1.trans h2
          · trivial
      · have h2 := eraseLoop_less (may := may) (al := al) ps mask.tail h.ticked
        revert h2
        cases eraseLoop may al ps mask.tail h.ticked <;> intro h2
        · exact (Less.tick h).trans h2
        · exact (Less.tick h).trans h2
        · trivial

theorem on1_less {s s' : St} {b : Bool} {r : Nat} {o : Out (Option Obj)} (ho : Out.Less s.heap o) (e : on1 s r o = some (s', b)) :
    Less s.heap s'.heap := by
  match o, ho, e with
  | .ok _ _, ho, e => cases e; exact ho
  | .exc _ _, ho, e => cases e; exact ho

theorem on2_less {s s' : St} {b : Bool} {r q : Nat} {o : Out (Option Obj × Option Obj)} (ho : Out.Less s.heap o)
    (e : on2 s r q o = some (s', b)) : Less s.heap s'.heap := by
  match o, ho, e with
  | .ok _ _, ho, e => cases e; exact ho
  | .exc _ _, ho, e => cases e; exact ho

theorem one_less {R : Nat} {s s' : St} {b : Bool} {r : Nat} {f : Box → Heap → Out Box} (hf : ∀ t, Out.Less s.heap (f t s.heap))
    (e : one R s r f = some (s', b)) : Less s.heap s'.heap := by
  unfold one at e
  split at e
  · cases e; exact .refl _
  · exact on1_less (hf _).map e

theorem two_less {R : Nat} {s s' : St} {b : Bool} {r q : Nat} {f : Box → Box → Heap → Out (Box × Box)}
    (hf : ∀ t x, Out.Less s.heap (f t x s.heap)) (e : two R s r q f = some (s', b)) : Less s.heap s'.heap := by
  unfold two at e
  split at e
  · split at e
    · cases e; exact .refl _
    · exact on2_less (hf _ _).map e
  · cases e; exact .refl _

theorem hTwo_less {R : Nat} {s s' : St} {b : Bool} {r q : Nat} {f : Hnd → Hnd → Heap → Out (Hnd × Hnd)}
    (hf : ∀ t x, Out.Less s.heap (f t x s.heap)) (e : hTwo R s r q f = some (s', b)) : Less s.heap s'.heap := by
  unfold hTwo at e
  split at e
  · split at e
    · cases e; exact .refl _
    · exact on2_less (hf _ _).map e
  · cases e; exact .refl _

theorem moveAssign_less {cfg : Cfg} {may : Kind → Nat → Bool} {t x : Box} {g : Option Nat} {h : Heap} (hp : cfg.pocma = true) :
    Out.Less h (t.moveAssign cfg may x g h) := by
  unfold Box.moveAssign
  refine user_less (fun h' hl => ?_) (fun h' hl => hl)
  rw [if_pos (Or.inl hp)]
  split
  · trivial
  · rename_i h1 e
    have hl1 := hl.trans (deleteBuckets_less e)
    unfold Box.moveBucketsFrom takeArr
    refine Out.Less.map ?_
    split
    · split
      · exact okWith_less (fun h2 e => hl1.trans (dealloc_less e))
      · trivial
    · split
      · exact okWith_less (fun h2 e => hl1.trans (dealloc_less e))
      · trivial

theorem tick_less {α : Type} {may : Kind → Nat → Bool} {h : Heap} {a c : α} :
    Out.Less h ((user may h).bind (fun _ h => .ok a h) (fun _ h => .exc c h)) :=
  user_less (fun _ h => h) (fun _ h => h)

/-- C55. The `frugal` calls allocate nothing: afterwards there is no block that was not there before. -/
theorem C55_no_allocation (cfg : Cfg) (may : Kind → Nat → Bool) (R : Nat) (s s' : St) (c : Call) (hc : frugal cfg c) (b : Bool)
    (hs : step cfg may R s c = some (s', b)) : s'.heap.blocks ⊆ s.heap.blocks ∧ s'.heap.next = s.heap.next := by
  show Less s.heap s'.heap
  cases c with
  | destroy r =>
    simp only [step] at hs
    split at hs
    · obtain ⟨h', e, e2⟩ := Option.map_eq_some_iff.1 hs
      cases e2; exact deleteBuckets_less e
    · obtain ⟨h', e, e2⟩ := Option.map_eq_some_iff.1 hs
      cases e2; exact hdestroy_less e
    · cases hs; exact .refl _
  | move r q =>
    simp only [step, build] at hs
    split at hs
    · cases hs; exact .refl _
    · split at hs
      · exact on2_less (Out.Less.map tick_less) hs
      · cases hs; exact .refl _
  | swap r q =>
    simp only [step] at hs
    refine two_less (fun t x => ?_) hs
    split
    · unfold Box.swap
      split
      · trivial
      · exact tick_less
    · exact Less.refl _
  | clear r =>
    simp only [step, Box.clear] at hs
    exact one_less (fun t => okWith_less (fun h e => deleteNodes_less _ e)) hs
  | erase r i =>
    simp only [step, Box.erase] at hs
    refine one_less (fun t => ?_) hs
    refine user_less (fun h hl => ?_) (fun h hl => hl)
    split
    · exact hl
    · exact okWith_less (fun h e => hl.trans (free_less e))
  | eraseMany r mask =>
    simp only [step, Box.eraseMany] at hs
    exact one_less (fun t => Out.Less.map (eraseLoop_less _ _ _)) hs
  | extract r i k =>
    simp only [step] at hs
    split at hs
    · cases hs; exact .refl _
    · split at hs
      · exact on2_less (Out.Less.map tick_less) hs
      · cases hs; exact .refl _
  | hNew k =>
    simp only [step] at hs
    split at hs
    · exact on1_less (o := .ok _ _) (Less.refl _) hs
    · cases hs; exact .refl _
  | hMove k j =>
    simp only [step] at hs
    split at hs
    · cases hs; exact .refl _
    · split at hs
      · exact on2_less (o := .ok _ _) (Less.refl _) hs
      · cases hs; exact .refl _
  | hAssign k j =>
    simp only [step] at hs
    refine hTwo_less (fun y x => ?_) hs
    split
    · unfold Hnd.assign
      split
      · exact okWith_less (fun h e => hdestroy_less e)
      · trivial
    · exact Less.refl _
  | hSwap k j =>
    simp only [step] at hs
    refine hTwo_less (fun y x => ?_) hs
    split
    · unfold Hnd.swap
      split
      · exact Less.refl _
      · trivial
    · exact Less.refl _
  | moveAssign r q g =>
    simp only [step] at hs
    exact two_less (fun t x => moveAssign_less hc) hs
  | _ => exact hc.elim

/-- C55. Destruction, `clear` and all handle operations throw nothing. -/
theorem C55_never_throws (cfg : Cfg) (may : Kind → Nat → Bool) (R : Nat) (s s' : St) (c : Call) (b : Bool)
    (hc : (∃ r, c = .destroy r ∨ c = .clear r ∨ c = .hNew r) ∨ ∃ k j, c = .hMove k j ∨ c = .hAssign k j ∨ c = .hSwap k j)
    (hs : step cfg may R s c = some (s', b)) : b = false := by
  have ow : ∀ {a : Obj} {r : Nat} {o : Option Heap}, on1 s r ((okWith (some a) o)) = some (s', b) → b = false := by
    intro a r o e
    cases o <;> cases e
    rfl
  rcases hc with ⟨r, rfl | rfl | rfl⟩ | ⟨k, j, rfl | rfl | rfl⟩ <;> simp only [step] at hs
  · split at hs
    · obtain ⟨h', e, e2⟩ := Option.map_eq_some_iff.1 hs; cases e2; rfl
    · obtain ⟨h', e, e2⟩ := Option.map_eq_some_iff.1 hs; cases e2; rfl
    · cases hs; rfl
  · unfold one at hs
    split at hs
    · cases hs; rfl
    · rename_i t _
      simp only [Box.clear] at hs
      generalize deleteNodes t.al t.nodes s.heap = o at hs
      cases o <;> cases hs
      rfl
  · split at hs <;> cases hs <;> rfl
  · split at hs
    · cases hs; rfl
    · split at hs <;> cases hs <;> rfl
  · unfold hTwo at hs
    split at hs
    · split at hs
      · cases hs; rfl
      · rename_i y x _ _ _
        simp only [Hnd.assign] at hs
        generalize y.destroy s.heap = o at hs
        split at hs
        · split at hs
          · cases o <;> cases hs
            rfl
          · cases hs
        · cases hs; rfl
    · cases hs; rfl
  · unfold hTwo at hs
    split at hs
    · split at hs
      · cases hs; rfl
      · simp only [Hnd.swap] at hs
        split at hs
        · split at hs
          · cases hs; rfl
          · cases hs
        · cases hs; rfl
    · cases hs; rfl

/-! ### Concrete runs -/

/-- 13 or 29 buckets, 4 per group; the allocator propagates on move assignment only. -/
def exCfg : Cfg := { sizeFor := fun n => if n ≤ 13 then 13 else 29, N := 4, pocma := true }

/-- Three insertions (the third finds its key), a rehash, an extraction into handle 2, a move assignment to a container with another allocator, insertion of
the handle's node there, a copy with a third allocator, destruction of the source. -/
def exCalls : List Call :=
  [.create 0 7 0, .emplaceKey 0 false (some 1), .emplaceKey 0 false none, .emplaceNode 0 true none, .rehash 0 (some 20), .create 1 9 5,
   .extract 0 0 2, .moveAssign 1 0 none, .insertNode 1 2 false none, .copy 3 1 5 none, .destroy 1]

/-- What a run ended with: blocks, objects, the calls that threw. -/
def view (R : Nat) (p : St × List Bool) : List Block × List (Option Obj) × List Bool := (p.1.heap.blocks, (List.range R).map p.1.vars, p.2)

set_option maxRecDepth 100000 in
set_option synthInstance.maxSize 100000 in
set_option synthInstance.maxHeartbeats 200000 in
/-- Nothing throws: the copy 3 has its own nodes; the nodes extracted, inserted and handed over are freed with container 1, and handle 2 is empty. -/
example : (run exCfg (fun _ _ => false) 4 exCalls init).map (view 4) =
    some ([(13, .node, 5, 1), (12, .node, 5, 1), (11, .groups, 5, 4), (10, .buckets, 5, 14)],
      [some (.box ⟨7, ⟨0, 0, 0⟩, []⟩), none, some (.hnd ⟨none, some 7⟩), some (.box ⟨5, ⟨13, 10, 11⟩, [13, 12]⟩)],
      [false, false, false, false, false, false, false, false, false, false, false]) := by
  decide +kernel

set_option maxRecDepth 100000 in
set_option synthInstance.maxSize 100000 in
set_option synthInstance.maxHeartbeats 200000 in
/-- The hash function throws for the second element of a rehash: the first one, node 4, is lost (deleted with the new array); the new arrays, blocks 6 and 7, are freed. -/
example : (run exCfg (fun k n => k == .user && n == 15) 4 (exCalls.take 5) init).map (view 4) =
    some ([(3, .groups, 7, 4), (2, .buckets, 7, 14), (1, .node, 7, 1)],
      [some (.box ⟨7, ⟨13, 2, 3⟩, [1]⟩), none, none, none], [false, false, false, false, true]) := by
  decide +kernel

set_option maxRecDepth 100000 in
set_option synthInstance.maxSize 100000 in
set_option synthInstance.maxHeartbeats 200000 in
/-- The allocation of the bucket groups throws in the first insertion: the buckets and the node are freed, the container is as before. -/
example : (run exCfg (fun k n => k == .alloc && n == 5) 4 (exCalls.take 2) init).map (view 4) =
    some ([], [some (.box ⟨7, ⟨0, 0, 0⟩, []⟩), none, none, none], [false, true]) := by
  decide +kernel

/-- Two containers with one allocator, merged, in both ways; a copy assignment to a third with another allocator, and a copy. -/
def exMerge : List Call :=
  [.create 0 7 0, .emplaceKey 0 false (some 1), .emplaceKey 0 false none, .create 1 7 0, .emplaceKey 1 false (some 1), .emplaceKey 1 false none,
   .mergeUnique 0 1 none [true, false], .mergeMulti 0 1 [none, none], .create 2 9 3, .emplaceNode 2 false none, .copyAssign 2 0 none none, .copy 3 0 5 none]
set_option maxRecDepth 100000 in
set_option synthInstance.maxSize 100000 in
set_option synthInstance.maxHeartbeats 200000 in
/-- From some time on the constructors of elements throw: the merges move nodes only and succeed, the copy assignment leaves an empty target (its element
was deleted before, what it had copied is deleted), the copy is not made, the source has all four nodes. -/
example : (run exCfg (fun k n => k == .value && decide (27 < n)) 4 exMerge init).map (view 4) =
    some ([(10, .groups, 9, 4), (9, .buckets, 9, 14), (8, .node, 7, 1), (7, .groups, 7, 4), (6, .buckets, 7, 14), (5, .node, 7, 1), (4, .node, 7, 1),
        (3, .groups, 7, 4), (2, .buckets, 7, 14), (1, .node, 7, 1)],
      [some (.box ⟨7, ⟨13, 2, 3⟩, [5, 8, 4, 1]⟩), some (.box ⟨7, ⟨13, 6, 7⟩, []⟩), some (.box ⟨9, ⟨13, 9, 10⟩, []⟩), none],
      [false, false, false, false, false, false, false, false, false, false, true, true]) := by
  decide +kernel

end Props.FcaStorage

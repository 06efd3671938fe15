/-
Property theorems C51 (memory blocks of plain and concurrent open-addressing containers, with exceptions and conversions).
Model: `Verif/Foa/Storage.lean`.
-/
import Verif.Foa.StorageLemmas

namespace Props.Storage
open _root_.Storage

/-- Container `t` uses the block `b`: the elements' block, or, for a concurrent container, the block of its access objects. -/
def Uses (t : Box) (b : Block) : Prop :=
  t.arr.elems = true ∧ (b = (t.arr.id, .elements, t.al, t.arr.k) ∨ t.conc = true ∧ b = (t.arr.acc, .accesses, t.al, t.arr.k))

theorem uses_iff (t : Box) (b : Block) : Uses t b ↔ b ∈ t.cells := by
  unfold Uses Box.cells cells
  cases t.arr.elems <;> cases t.conc <;> simp

/-- C51. Any program over `R` variables - plain and concurrent containers, any calls (construction, destruction, copy, move, assignment,
swap, growth, conversion in both directions), any sizes, any propagation traits, fancy pointers or not - where any allocation and
any user code may throw (`may`):
* no faulty deallocation ever happens (`run` would be `none` if a block were freed twice, with another allocator, with another
  size or as a block of the other sort);
* afterwards no two live blocks have the same address;
* the live blocks are exactly the blocks used by the living containers, carrying the container's current allocator and size: nothing
  dangles, nothing is leaked - in particular by a call left by an exception;
* no block is used by two containers;
* destroying the living containers frees every block. -/
theorem C51_blocks_freed_exactly_once (cfg : Cfg) (may : Nat → Bool) (R : Nat) (cs : List Call) :
    ∃ s thrown, run cfg may R cs init = some (s, thrown) ∧
      (s.heap.blocks.map Prod.fst).Nodup ∧
      (∀ r t b, s.vars r = some t → Uses t b → b ∈ s.heap.blocks) ∧
      (∀ b ∈ s.heap.blocks, ∃ r < R, ∃ t, s.vars r = some t ∧ Uses t b) ∧
      (∀ r q t x b b', s.vars r = some t → s.vars q = some x → Uses t b → Uses x b' → b.1 = b'.1 → r = q ∧ b = b') ∧
      ∃ heap', finish s.vars R s.heap = some heap' ∧ heap'.blocks = [] := by
  obtain ⟨s, bs, e, hi⟩ := run_inv (may := may) cs init (Inv.init cfg R)
  have hlt : ∀ r t, s.vars r = some t → r < R := by
    intro r t e
    by_contra hc
    rw [hi.out r (by omega)] at e
    cases e
  have hmem : ∀ r t b, s.vars r = some t → Uses t b → b ∈ s.heap.blocks := by
    intro r t b er hu
    refine hi.own.perm.symm.subset (List.mem_flatMap.2 ⟨r, List.mem_range.2 (hlt r t er), ?_⟩)
    rw [er]
    exact (uses_iff t b).1 hu
  refine ⟨s, bs, e, hi.own.ok.nodup, hmem, ?_, ?_, finish_own R s.heap hi.own⟩
  · intro b hb
    obtain ⟨r, hr, hb⟩ := List.mem_flatMap.1 (hi.own.perm.subset hb)
    cases er : s.vars r with
    | none => simp only [er, ocells] at hb; cases hb
    | some t =>
      simp only [er, ocells] at hb
      exact ⟨r, List.mem_range.1 hr, t, er, (uses_iff t b).2 hb⟩
  · intro r q t x b b' er eq hu hu' hid
    have hbb : b = b' :=
      List.inj_on_of_nodup_map hi.own.ok.nodup (hmem r t b er hu) (hmem q x b' eq hu') hid
    refine ⟨?_, hbb⟩
    by_contra hne
    have hp := (hi.own2 (hlt r t er) (hlt q x eq) hne er eq).perm
    have hnd := (hp.map Prod.fst).nodup_iff.1 hi.own.ok.nodup
    simp only [List.map_append] at hnd
    have hd := (List.nodup_append.1 hnd).2.2
    refine hd b.1 (List.mem_map_of_mem ((uses_iff t b).1 hu)) b'.1 ?_ hid
    exact List.mem_append_left _ (List.mem_map_of_mem ((uses_iff x b').1 hu'))

/-- C51. The static arrays stand in only for the smallest size (which is the size they have), and never with fancy pointers: the
groups and access objects a container may index are always there. -/
theorem C51_static_arrays (cfg : Cfg) (may : Nat → Bool) (R : Nat) (cs : List Call) {s : St} {thrown : List Bool}
    (h : run cfg may R cs init = some (s, thrown)) {r : Nat} {t : Box} (ht : s.vars r = some t) (he : t.arr.elems = false) :
    t.arr.k = cfg.groups 0 ∧ cfg.fancy = false := by
  obtain ⟨s', bs, e, hi⟩ := run_inv (may := may) cs init (Inv.init cfg R)
  rw [h] at e
  cases e
  exact hi.good r t ht he

/-! ### Exceptions -/

/-- The calls that are assignments. -/
def isAssign : Call → Bool
  | .copyAssign .. => true
  | .moveAssign .. => true
  | _ => false

theorem set_self {f : Nat → Option Box} {r : Nat} {x : Option Box} (h : f r = x) : setVar f r x = f := by
  funext q
  unfold setVar
  split
  · rename_i e; rw [e, h]
  · rfl

theorem on1_exc {s s' : St} {r : Nat} {o : Out (Option Box)} {P : Option Box → Heap → Prop}
    (hs : o.Sat P (fun x _ => x = s.vars r)) (h : on1 s r o = some (s', true)) : s'.vars = s.vars := by
  match o, hs, h with
  | .exc x _, hs, h =>
    cases h
    exact set_self hs.symm

theorem on2_exc {s s' : St} {r q : Nat} {o : Out (Option Box × Option Box)} {P : Option Box × Option Box → Heap → Prop}
    (hs : o.Sat P (fun x _ => x.1 = s.vars r ∧ x.2 = s.vars q)) (h : on2 s r q o = some (s', true)) : s'.vars = s.vars := by
  match o, hs, h with
  | .exc x _, hs, h =>
    cases h
    simp only
    rw [set_self hs.1.symm, set_self hs.2.symm]

/-- C51, strong guarantee: a constructor, conversion or rehash/growth that throws leaves every container with the storage it had (and no
container appears or disappears). -/
theorem C51_exception_changes_nothing (cfg : Cfg) (may : Nat → Bool) (R : Nat) (cs : List Call) {s s' : St} {thrown : List Bool}
    (h : run cfg may R cs init = some (s, thrown)) (c : Call) (hc : isAssign c = false)
    (hs : step cfg may R s c = some (s', true)) : s'.vars = s.vars := by
  obtain ⟨s0, bs, e, hi⟩ := run_inv (may := may) cs init (Inv.init cfg R)
  rw [h] at e
  cases e
  have T : ∀ {α : Type} {o : Out α} {P Q Q' : α → Heap → Prop}, o.Sat P Q → (∀ a h, Q a h → Q' a h) → o.Sat P Q' :=
    fun h h' => h.imp (fun _ _ => id) h'
  cases c with
  | create r conc al n =>
    simp only [step] at hs
    split at hs
    · rename_i hcc
      refine on1_exc (T (create_sat (hi.own0 hcc.1 hcc.2)) ?_) hs
      rintro a h ⟨rfl, _⟩; exact hcc.2.symm
    · cases hs
  | destroy r =>
    simp only [step] at hs
    split at hs
    · cases hs
    · simp at hs
  | copy r q al n =>
    simp only [step] at hs
    split at hs
    · cases hs
    · rename_i x e
      split at e
      · rename_i hcc
        refine on1_exc (T (copy_sat (hi.own0 hcc.1 hcc.2.2.2)) ?_) hs
        rintro a h ⟨rfl, _⟩; exact hcc.2.2.2.symm
      · cases e
  | move r q =>
    simp only [step] at hs
    split at hs
    · cases hs
    · rename_i x e
      split at e
      · rename_i hcc
        obtain ⟨hr, hq, hne, en⟩ := hcc
        refine on2_exc (Out.Sat.map (P := fun _ _ => True) ((move_sat (hi.own02 hr hq hne en e)).imp (fun _ _ _ => trivial) ?_)) hs
        rintro a h ⟨rfl, _⟩; exact ⟨en.symm, e.symm⟩
      · cases e
  | moveAl r q al n =>
    simp only [step] at hs
    split at hs
    · cases hs
    · rename_i x e
      split at e
      · rename_i hcc
        obtain ⟨hr, hq, hne, en⟩ := hcc
        refine on2_exc (Out.Sat.map (P := fun _ _ => True)
          ((moveAl_sat (hi.good q x e) (hi.own02 hr hq hne en e)).imp (fun _ _ _ => trivial) ?_)) hs
        rintro a h ⟨rfl, _⟩; exact ⟨en.symm, e.symm⟩
      · cases e
  | copyAssign r q n m => cases hc
  | moveAssign r q m => cases hc
  | swap r q =>
    simp only [step] at hs
    split at hs
    · split at hs
      · simp [on2] at hs
      · cases hs
    · cases hs
  | rehash r n =>
    simp only [step] at hs
    split at hs
    · cases hs
    · rename_i t e
      split at e
      · rename_i hr
        refine on1_exc (Out.Sat.map (P := fun _ _ => True)
          ((rehash_sat (hi.good r t e) (hi.own1 hr e)).imp (fun _ _ _ => trivial) ?_)) hs
        rintro a h ⟨rfl, _⟩; exact e.symm
      · cases e
  | emplaceGrow r n =>
    simp only [step] at hs
    split at hs
    · cases hs
    · rename_i t e
      split at e
      · rename_i hr
        refine on1_exc (Out.Sat.map (P := fun _ _ => True)
          ((emplaceGrow_sat (hi.good r t e) (hi.own1 hr e)).imp (fun _ _ _ => trivial) ?_)) hs
        rintro a h ⟨rfl, _⟩; exact e.symm
      · cases e
  | toConcurrent r q =>
    simp only [step] at hs
    split at hs
    · cases hs
    · rename_i x e
      split at e
      · rename_i hcc
        obtain ⟨hr, hq, hne, en⟩ := hcc
        split at hs
        · rename_i hx
          refine on2_exc (Out.Sat.map (P := fun _ _ => True)
            ((toConcurrent_sat hx (hi.good q x e) (hi.own02 hr hq hne en e)).imp (fun _ _ _ => trivial) ?_)) hs
          rintro a h ⟨rfl, _⟩; exact ⟨en.symm, e.symm⟩
        · cases hs
      · cases e
  | toPlain r q =>
    simp only [step] at hs
    split at hs
    · cases hs
    · rename_i x e
      split at e
      · rename_i hcc
        obtain ⟨hr, hq, hne, en⟩ := hcc
        split at hs
        · rename_i hx
          refine on2_exc (Out.Sat.map (P := fun _ _ => True)
            ((toPlain_sat hx (hi.good q x e) (hi.own02 hr hq hne en e)).imp (fun _ _ _ => trivial) ?_)) hs
          rintro a h ⟨rfl, _⟩; exact ⟨en.symm, e.symm⟩
        · cases hs
      · cases e

/-- C51, assignments: when an assignment throws, the source keeps its storage, all other containers too, and the target is still a
container of the same kind (possibly with other storage). -/
theorem C51_throwing_assignment (cfg : Cfg) (may : Nat → Bool) (R : Nat) (cs : List Call) {s s' : St} {thrown : List Bool}
    (h : run cfg may R cs init = some (s, thrown)) (r q n : Nat) (m : Option Nat) (c : Call)
    (hc : c = .copyAssign r q n m ∨ c = .moveAssign r q m) (hs : step cfg may R s c = some (s', true)) :
    (∀ p, p ≠ r → s'.vars p = s.vars p) ∧ ∃ t t', s.vars r = some t ∧ s'.vars r = some t' ∧ t'.conc = t.conc := by
  obtain ⟨s0, bs, e, hi⟩ := run_inv (may := may) cs init (Inv.init cfg R)
  rw [h] at e
  cases e
  rcases hc with rfl | rfl
  · simp only [step] at hs
    split at hs
    · rename_i t x e e'
      split at e
      · rename_i hcc
        obtain ⟨hr, hq, hne⟩ := hcc
        split at hs
        · rename_i hx
          have hsat := copyAssign_sat (may := may) (n := n) (m := m) hx (hi.good r t e) (hi.own1 hr e)
          generalize t.copyAssign cfg may x n m s.heap = o at hs hsat
          match o, hsat, hs with
          | .exc t' _, hsat, hs =>
            cases hs
            refine ⟨fun p hp => by simp only [setVar]; rw [if_neg hp], t, t', e, by simp [setVar], hsat.1⟩
        · cases hs
      · cases e
    · cases hs
  · simp only [step] at hs
    split at hs
    · rename_i t x e e'
      split at e
      · rename_i hcc
        obtain ⟨hr, hq, hne⟩ := hcc
        split at hs
        · rename_i hx
          have hsat := moveAssign_sat (may := may) (m := m) hx (hi.good r t e) (hi.good q x e') (hi.own2 hr hq hne e e')
          generalize t.moveAssign cfg may x m s.heap = o at hs hsat
          match o, hsat, hs with
          | .exc ⟨t', x'⟩ _, hsat, hs =>
            cases hs
            have hx' : x' = x ∧ t'.conc = t.conc := by
              rcases hsat with ⟨e, _⟩ | ⟨e, e2, _⟩
              · cases e; exact ⟨rfl, rfl⟩
              · exact ⟨e, e2⟩
            refine ⟨fun p hp => ?_, t, t', e, by simp [setVar, hne], hx'.2⟩
            by_cases hpq : p = q
            · subst hpq; simp [setVar, e', hx'.1]
            · simp [setVar, hpq, hp]
        · cases hs
      · cases e
    · cases hs

/-- C51. If no allocation and no user code throws, no call throws. -/
theorem C51_no_spurious_exception (cfg : Cfg) (R : Nat) (s s' : St) (c : Call) (b : Bool)
    (hs : step cfg (fun _ => false) R s c = some (s', b)) : b = false := by
  have n1 : ∀ al n h, ∃ a h', newElems cfg (fun _ => false) al n h = .ok (some a) h' := by
    intro al n h; unfold newElems; split <;> simp
  have n2 : ∀ al a h, ∃ a' h', newAccess cfg (fun _ => false) al a h = .ok (some a') h' := by
    intro al a h; unfold newAccess; split <;> simp
  have n3 : ∀ conc al n h, ∃ a h', newArrays cfg (fun _ => false) conc al n h = .ok (some a) h' := by
    intro conc al n h
    unfold newArrays
    obtain ⟨a, h', e⟩ := n1 al n h
    rw [e]
    simp only
    split
    · exact ⟨_, _, rfl⟩
    · obtain ⟨a', h'', e⟩ := n2 al a h'
      rw [e]
      exact ⟨_, _, rfl⟩
  -- a call that is not left by an exception
  let N : ∀ {α : Type}, Out α → Prop := fun o => o.Sat (fun _ _ => True) (fun _ _ => False) ∨ o = .bad
  have ok : ∀ {α : Type} (a : α) (o : Option Heap), N (okWith a o) := by
    intro α a o; cases o
    · exact Or.inr rfl
    · exact Or.inl trivial
  have okn : ∀ {α : Type} (a : α) (h : Heap), N (.ok a h) := fun _ _ => Or.inl trivial
  have t1 : ∀ {o : Out (Option Box)} {s s' : St} {r : Nat} {b : Bool}, N o → on1 s r o = some (s', b) → b = false := by
    intro o s s' r b hn h
    match o, hn, h with
    | .ok x _, _, h => cases h; rfl
    | .exc x _, hn, _ => rcases hn with hn | hn <;> cases hn
    | .bad, _, h => cases h
  have t2 : ∀ {o : Out (Option Box × Option Box)} {s s' : St} {r q : Nat} {b : Bool}, N o → on2 s r q o = some (s', b) →
      b = false := by
    intro o s s' r q b hn h
    match o, hn, h with
    | .ok x _, _, h => cases h; rfl
    | .exc x _, hn, _ => rcases hn with hn | hn <;> cases hn
    | .bad, _, h => cases h
  have tm : ∀ {α β : Type} {o : Out α} (f : α → β), N o → N (o.map f) := by
    intro α β o f hn
    rcases hn with hn | rfl
    · exact Or.inl (Out.Sat.map hn)
    · exact Or.inr rfl
  have crN : ∀ conc al n h, ∃ a h', create cfg (fun _ => false) conc al n h = .ok (some a) h' := by
    intro conc al n h
    unfold create
    obtain ⟨a, h', e⟩ := n3 conc al n h
    rw [e]
    exact ⟨_, _, rfl⟩
  have rhN : ∀ (t : Box) n h, N (t.rehash cfg (fun _ => false) n h) := by
    intro t n h
    unfold Box.rehash
    obtain ⟨a, h', e⟩ := n3 t.conc t.al n h
    rw [e]
    simp only [Box.rehashInto]
    exact ok _ _
  have nsN : ∀ (t : Box) n h, N (t.noshrinkReserve cfg (fun _ => false) n h) := by
    intro t n h
    unfold Box.noshrinkReserve
    cases n with
    | none => exact Or.inl trivial
    | some n =>
      obtain ⟨a, h', e⟩ := n3 t.conc t.al n h
      simp only [e]
      exact ok _ _
  cases c with
  | create r conc al n =>
    simp only [step] at hs
    split at hs
    · obtain ⟨a, h', e⟩ := crN conc al n s.heap
      rw [e] at hs
      exact t1 (okn _ _) hs
    · cases hs; rfl
  | destroy r =>
    simp only [step] at hs
    split at hs
    · cases hs; rfl
    · simp only [Option.map_eq_some_iff, Prod.mk.injEq] at hs
      obtain ⟨_, _, _, e⟩ := hs
      exact e.symm
  | copy r q al n =>
    simp only [step] at hs
    split at hs
    · cases hs; rfl
    · rename_i x _
      obtain ⟨a, h', e⟩ := crN x.conc al n s.heap
      simp only [Box.copy, e] at hs
      exact t1 (okn _ _) hs
  | move r q =>
    simp only [step] at hs
    split at hs
    · cases hs; rfl
    · rename_i x _
      obtain ⟨a, h', e⟩ := n3 x.conc x.al 0 s.heap
      simp only [Box.move, e] at hs
      exact t2 (tm _ (okn _ _)) hs
  | moveAl r q al n =>
    simp only [step] at hs
    split at hs
    · cases hs; rfl
    · rename_i x _
      refine t2 (tm _ ?_) hs
      obtain ⟨a, h', e⟩ := crN x.conc al 0 s.heap
      simp only [Box.moveAl, e]
      split
      · exact Or.inl trivial
      · have hn : N (a.reserve cfg (fun _ => false) n h') := by
          unfold Box.reserve
          cases n
          · exact Or.inl trivial
          · exact rhN _ _ _
        generalize a.reserve cfg (fun _ => false) n h' = o at hn
        match o, hn with
        | .ok _ _, _ => exact Or.inl trivial
        | .exc _ _, hn => rcases hn with hn | hn <;> cases hn
        | .bad, _ => exact Or.inr rfl
  | copyAssign r q n m =>
    simp only [step] at hs
    split at hs
    · rename_i t x _ _
      split at hs
      · refine t1 (tm _ ?_) hs
        unfold Box.copyAssign
        rw [if_neg (by simp)]
        have hn : N (if cfg.pocca = true ∧ t.al ≠ x.al then
            match newArrays cfg (fun _ => false) x.conc x.al n s.heap.ticked with
            | .bad => Out.bad
            | .exc _ h => .exc t h
            | .ok none _ => .bad
            | .ok (some a) h => okWith { t with arr := a, al := x.al } (deleteArrays t.conc t.al t.arr h)
          else .ok (if cfg.pocca then { t with al := x.al } else t) s.heap.ticked) := by
          split
          · obtain ⟨a, h', e⟩ := n3 x.conc x.al n s.heap.ticked
            rw [e]
            exact ok _ _
          · exact Or.inl trivial
        revert hn
        generalize (if cfg.pocca = true ∧ t.al ≠ x.al then
            match newArrays cfg (fun _ => false) x.conc x.al n s.heap.ticked with
            | .bad => Out.bad
            | .exc _ h => .exc t h
            | .ok none _ => .bad
            | .ok (some a) h => okWith { t with arr := a, al := x.al } (deleteArrays t.conc t.al t.arr h)
          else .ok (if cfg.pocca then { t with al := x.al } else t) s.heap.ticked) = o
        intro hn
        match o, hn with
        | .exc _ _, hn => rcases hn with hn | hn <;> cases hn
        | .bad, _ => exact Or.inr rfl
        | .ok t1 h1, _ =>
          have hn := nsN t1 m h1
          simp only
          generalize t1.noshrinkReserve cfg (fun _ => false) m h1 = o at hn
          match o, hn with
          | .ok _ _, _ => exact Or.inl trivial
          | .exc _ _, hn => rcases hn with hn | hn <;> cases hn
          | .bad, _ => exact Or.inr rfl
      · cases hs; rfl
    · cases hs; rfl
  | moveAssign r q m =>
    simp only [step] at hs
    split at hs
    · rename_i t x _ _
      split at hs
      · refine t2 (tm _ ?_) hs
        unfold Box.moveAssign
        split
        · obtain ⟨a, h', e⟩ := n3 x.conc x.al 0 s.heap
          rw [e]
          exact ok _ _
        · have hn := nsN t m s.heap
          generalize t.noshrinkReserve cfg (fun _ => false) m s.heap = o at hn
          match o, hn with
          | .ok _ _, _ => exact Or.inl trivial
          | .exc _ _, hn => rcases hn with hn | hn <;> cases hn
          | .bad, _ => exact Or.inr rfl
      · cases hs; rfl
    · cases hs; rfl
  | swap r q =>
    simp only [step] at hs
    split at hs
    · split at hs
      · exact t2 (okn _ _) hs
      · cases hs; rfl
    · cases hs; rfl
  | rehash r n =>
    simp only [step] at hs
    split at hs
    · cases hs; rfl
    · exact t1 (tm _ (rhN _ _ _)) hs
  | emplaceGrow r n =>
    simp only [step] at hs
    split at hs
    · cases hs; rfl
    · rename_i t _
      refine t1 (tm _ ?_) hs
      unfold Box.emplaceGrow
      obtain ⟨a, h', e⟩ := n3 t.conc t.al n s.heap
      rw [e]
      simp only [Box.rehashInto]
      exact ok _ _
  | toConcurrent r q =>
    simp only [step] at hs
    split at hs
    · cases hs; rfl
    · rename_i x _
      split at hs
      · refine t2 (tm _ ?_) hs
        unfold Box.toConcurrent
        obtain ⟨a, h', e⟩ := n3 false x.al 0 s.heap
        rw [e]
        simp only
        rw [if_neg (by simp)]
        obtain ⟨a, h', e⟩ := n2 x.al x.arr h'.ticked
        rw [e]
        exact Or.inl trivial
      · cases hs; rfl
  | toPlain r q =>
    simp only [step] at hs
    split at hs
    · cases hs; rfl
    · rename_i x _
      split at hs
      · refine t2 (tm _ ?_) hs
        unfold Box.toPlain
        obtain ⟨a, h', e⟩ := n3 true x.al 0 s.heap
        rw [e]
        simp only
        rw [if_neg (by simp)]
        exact ok _ _
      · cases hs; rfl

/-! ### Conversions -/

theorem newArrays_zero (cfg : Cfg) (may : Nat → Bool) (hf : cfg.fancy = false) (conc : Bool) (al : Nat) (h : Heap) :
    newArrays cfg may conc al 0 h = .ok (some ⟨cfg.groups 0, false, 0, 0⟩) h := by
  unfold newArrays newElems newAccess
  rw [if_pos ⟨hf, rfl⟩]
  simp only
  split
  · rfl
  · rw [if_pos ⟨hf, trivial⟩]

theorem failed {α : Type} {a : α} {o : Option Heap} {P Q P' : α → Heap → Prop} (h : (failWith a o).Sat P Q) :
    (failWith a o).Sat P' (fun _ _ => True) := by
  cases o
  · exact h
  · exact trivial

/-- C51, conversion of a plain container to a concurrent one and back (`conc` says which): if it does not throw, the new container
takes over the very block of elements of the source - no element is moved or copied, references to elements stay valid - and its
allocator and size; the source lives on with empty arrays, which with raw pointers take no memory. -/
theorem C51_conversion_takes_over_the_elements (cfg : Cfg) (may : Nat → Bool) (R : Nat) (cs : List Call) {s s' : St}
    {thrown : List Bool} (h : run cfg may R cs init = some (s, thrown)) (r q : Nat) (hr : r < R) (hq : q < R) (hne : r ≠ q)
    (hrn : s.vars r = none) {x : Box} (hx : s.vars q = some x) (c : Call)
    (hc : c = .toConcurrent r q ∧ x.conc = false ∨ c = .toPlain r q ∧ x.conc = true)
    (hs : step cfg may R s c = some (s', false)) :
    ∃ t x', s'.vars r = some t ∧ s'.vars q = some x' ∧ t.conc = !x.conc ∧ t.al = x.al ∧ t.arr.id = x.arr.id ∧
      t.arr.elems = x.arr.elems ∧ t.arr.k = x.arr.k ∧ x'.conc = x.conc ∧ x'.al = x.al ∧
      (cfg.fancy = false → x'.arr.elems = false) ∧ ∀ p, p ≠ r → p ≠ q → s'.vars p = s.vars p := by
  obtain ⟨s0, bs, e, hi⟩ := run_inv (may := may) cs init (Inv.init cfg R)
  rw [h] at e
  cases e
  have fin : ∀ (o : Out (Option Box × Box)),
      o.Sat (fun a _ => ∃ t, a.1 = some t ∧ t.conc = (!x.conc) ∧ t.al = x.al ∧ t.arr.k = x.arr.k ∧ t.arr.elems = x.arr.elems ∧
        t.arr.id = x.arr.id ∧ a.2.conc = x.conc ∧ a.2.al = x.al ∧ (cfg.fancy = false → a.2.arr.elems = false))
        (fun _ _ => True) → on2 s r q (o.map (fun y => (y.1, some y.2))) = some (s', false) →
      ∃ t x', s'.vars r = some t ∧ s'.vars q = some x' ∧ t.conc = (!x.conc) ∧ t.al = x.al ∧ t.arr.id = x.arr.id ∧
        t.arr.elems = x.arr.elems ∧ t.arr.k = x.arr.k ∧ x'.conc = x.conc ∧ x'.al = x.al ∧
        (cfg.fancy = false → x'.arr.elems = false) ∧ ∀ p, p ≠ r → p ≠ q → s'.vars p = s.vars p := by
    intro o ho hs
    match o, ho, hs with
    | .ok ⟨a1, a2⟩ h', ho, hs =>
      obtain ⟨t, e, h1, h2, h3, h4, h5, h6, h7, h8⟩ := ho
      simp only at e
      subst e
      cases hs
      refine ⟨t, a2, by simp [setVar, hne], by simp [setVar], h1, h2, h5, h4, h3, h6, h7, h8, fun p hp hp' => ?_⟩
      simp only [setVar]
      rw [if_neg hp', if_neg hp]
  have hg := hi.good q x hx
  have ho := hi.own02 hr hq hne hrn hx
  rcases hc with ⟨rfl, hxc⟩ | ⟨rfl, hxc⟩
  · simp only [step] at hs
    rw [if_pos ⟨hr, hq, hne, hrn⟩, hx] at hs
    simp only [hxc, if_true] at hs
    refine fin _ ?_ hs
    have hsat := toConcurrent_sat (may := may) hxc hg ho
    by_cases hf : cfg.fancy = false
    · have hz := newArrays_zero cfg may hf false x.al s.heap
      unfold Box.toConcurrent at hsat ⊢
      rw [hz] at hsat ⊢
      simp only at hsat ⊢
      split at hsat
      · rename_i hm; rw [if_pos hm]; exact failed hsat
      · rename_i hm
        rw [if_neg hm]
        generalize newAccess cfg may x.al x.arr s.heap.ticked = o at hsat ⊢
        match o, hsat with
        | .ok (some a) h', hsat =>
          obtain ⟨t, e, h1, h2, h3, h4, h5, h6, h7, h8, _⟩ := hsat
          exact ⟨t, e, by rw [h1, hxc]; rfl, h2, h3, h4, h5, h7.trans hxc.symm, h8, fun _ => rfl⟩
        | .exc _ _, hsat => exact failed hsat
    · refine hsat.imp ?_ (fun _ _ _ => trivial)
      rintro a h' ⟨t, e, h1, h2, h3, h4, h5, h6, h7, h8, _⟩
      exact ⟨t, e, by rw [h1, hxc]; rfl, h2, h3, h4, h5, h7.trans hxc.symm, h8, fun h => absurd h hf⟩
  · simp only [step] at hs
    rw [if_pos ⟨hr, hq, hne, hrn⟩, hx] at hs
    simp only [hxc, if_true] at hs
    refine fin _ ?_ hs
    have hsat := toPlain_sat (may := may) hxc hg ho
    by_cases hf : cfg.fancy = false
    · have hz := newArrays_zero cfg may hf true x.al s.heap
      unfold Box.toPlain at hsat ⊢
      rw [hz] at hsat ⊢
      simp only at hsat ⊢
      split at hsat
      · rename_i hm; rw [if_pos hm]; exact failed hsat
      · rename_i hm
        rw [if_neg hm]
        generalize deleteAccess x.al x.arr s.heap.ticked = o at hsat ⊢
        match o, hsat with
        | some h', hsat =>
          obtain ⟨t, e, h1, h2, h3, h4, h5, h6, h7, h8, _⟩ := hsat
          exact ⟨t, e, by rw [h1, hxc]; rfl, h2, h3, h4, h5, h7.trans hxc.symm, h8, fun _ => rfl⟩
        | none, hsat => cases hsat
    · refine hsat.imp ?_ (fun _ _ _ => trivial)
      rintro a h' ⟨t, e, h1, h2, h3, h4, h5, h6, h7, h8, _⟩
      exact ⟨t, e, by rw [h1, hxc]; rfl, h2, h3, h4, h5, h7.trans hxc.symm, h8, fun h => absurd h hf⟩

/-- C51. Converting a concurrent container to a plain one allocates nothing (raw pointers). -/
theorem C51_to_plain_allocates_nothing (cfg : Cfg) (may : Nat → Bool) (hf : cfg.fancy = false) (R : Nat) (s s' : St) (b : Bool)
    (r q : Nat) (hs : step cfg may R s (.toPlain r q) = some (s', b)) :
    s'.heap.next = s.heap.next ∧ ∀ c ∈ s'.heap.blocks, c ∈ s.heap.blocks := by
  have hfree : ∀ {h h' : Heap} {c : Block}, h.free c = some h' → h'.next = h.next ∧ ∀ c ∈ h'.blocks, c ∈ h.blocks := by
    intro h h' c hh
    unfold Heap.free at hh
    split at hh
    · cases hh; exact ⟨rfl, fun d hd => List.mem_of_mem_erase hd⟩
    · cases hh
  simp only [step] at hs
  split at hs
  · cases hs; exact ⟨rfl, fun _ h => h⟩
  · rename_i x e
    split at hs
    · unfold Box.toPlain at hs
      rw [newArrays_zero cfg may hf] at hs
      simp only at hs
      split at hs
      · simp only [deleteArrays, deleteAccess, deleteElems, Bool.false_eq_true, if_false, if_true, Option.bind_some, failWith,
          Out.map, on2, Option.some.injEq, Prod.mk.injEq] at hs
        rw [← hs.1]
        exact ⟨rfl, fun _ h => h⟩
      · unfold deleteAccess at hs
        split at hs
        · cases hd : s.heap.ticked.free (x.arr.acc, Part.accesses, x.al, x.arr.k) with
          | none => rw [hd] at hs; cases hs
          | some h' =>
            rw [hd] at hs
            cases hs
            exact hfree (h := s.heap.ticked) hd
        · cases hs
          exact ⟨rfl, fun _ h => h⟩
    · cases hs; exact ⟨rfl, fun _ h => h⟩

/-! ### Concrete runs -/

/-- Group counts of a table with 15 slots per group, sizes powers of two from 2. -/
def exCfg : Cfg := { groups := fun n => if n ≤ 30 then 2 else if n ≤ 60 then 4 else 8, pocma := true }

/-- A plain container grows, is converted to a concurrent one, which grows and is moved and converted back. -/
def exCalls : List Call :=
  [.create 0 false 7 0, .emplaceGrow 0 1, .toConcurrent 1 0, .emplaceGrow 1 40, .create 2 true 9 10, .moveAssign 2 1 none,
   .toPlain 3 2, .copy 4 3 9 33, .swap 1 2]

set_option synthInstance.maxSize 100000 in
set_option synthInstance.maxHeartbeats 200000 in
/-- Nothing throws: the plain container 3 has the grown block of elements (address 3; its access objects, address 4, are freed), its
copy 4 another one. -/
example : ((run exCfg (fun _ => false) 5 exCalls init).map
    (fun p => (p.1.heap.blocks, (p.1.vars 3).map (fun t => (t.conc, t.al, t.arr.id, t.arr.k)), p.2.any id))) =
      some ([(7, .elements, 9, 4), (3, .elements, 7, 4)], some (false, 7, 3, 4), false) := by
  decide +kernel

set_option synthInstance.maxSize 100000 in
set_option synthInstance.maxHeartbeats 200000 in
/-- The allocation of the access objects during the conversion throws: the elements stay with the plain container 0. The move
assignment from variable 1 then has no source and is skipped. -/
example : ((run exCfg (fun n => n == 4) 5 exCalls init).map
    (fun p => (p.1.heap.blocks, (p.1.vars 0).map (fun t => (t.arr.id, t.arr.k)), (p.1.vars 1).isSome, p.2))) =
      some ([(4, .elements, 9, 4), (2, .elements, 9, 2), (1, .elements, 7, 2)], some (1, 2), false,
        [false, false, true, false, false, false, false, false, false]) := by
  decide +kernel

set_option synthInstance.maxSize 100000 in
set_option synthInstance.maxHeartbeats 200000 in
/-- The second allocation of a growing concurrent container throws: the first one is freed again. -/
example : ((run exCfg (fun n => n == 6) 5 (exCalls.take 4) init).map
    (fun p => (p.1.heap.blocks, p.1.heap.next, (p.1.vars 1).map (fun t => (t.conc, t.arr.id, t.arr.acc, t.arr.k)), p.2))) =
      some ([(2, .accesses, 7, 2), (1, .elements, 7, 2)], 4, some (true, 1, 2, 2), [false, false, false, true]) := by
  decide +kernel

end Props.Storage

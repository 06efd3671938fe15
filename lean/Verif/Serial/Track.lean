/-
Serialization of containers together with their iterators: the part common to open- and closed-addressing containers.
Sources: /repo/include/boost/unordered/detail/serialize_container.hpp, /repo/include/boost/unordered/detail/serialize_tracked_address.hpp.

`A` are addresses. What depends on the container - insertion and the addresses that make up an iterator - is a parameter here. Programs
are of the form: save containers, then iterators; load containers, then iterators. Archives given to the loading code are those written
by the saving code (`Verif/Foa/Serial.lean`, `Verif/Fca/Serial.lean` deal with arbitrary ones). The items themselves are not tracked.
-/
import Verif.SpecSer
import Verif.SpecTrack
import Mathlib.Data.List.Basic

namespace Track
open SpecTrack
open SpecSer (Outcome)
variable {X A T : Type}

/-- The calls of `track_address` (serialize_tracked_address.hpp:44-58) for one element when saving. -/
def saveObjs [DecidableEq A] : List A → List A → List (Tok X) × List A
  | [], objs => ([], objs)
  | a :: as, objs =>
    let r := saveObjs as (save objs a).2
    (.obj (save objs a).1 :: r.1, r.2)

/-- The loops of `load_or_save_unordered_set<Set,true>`, `..._map<Map,true>` (serialize_container.hpp:64-68, 124-137): every element with the
addresses its iterator consists of (`serialization_track`). -/
def saveElems [DecidableEq A] : List (X × List A) → List A → List (Tok X) × List A
  | [], objs => ([], objs)
  | e :: es, objs =>
    ((.item e.1 :: (saveObjs e.2 objs).1) ++ (saveElems es (saveObjs (X := X) e.2 objs).2).1, (saveElems es (saveObjs (X := X) e.2 objs).2).2)

/-- Saving a container (serialize_container.hpp:50-70, 104-139): the count, then the loop. -/
def saveCont [DecidableEq A] (n : Nat) (es : List (X × List A)) (objs : List A) : List (Tok X) × List A :=
  (.count n :: (saveElems es objs).1, (saveElems es objs).2)

/-- `track_address` for one element when loading. -/
def loadObjs : List A → In X A → Option (In X A)
  | [], i => some i
  | a :: as, i => (i.obj a).bind (loadObjs as)

/-- The loops of `load_or_save_unordered_set<Set,false>`, `..._map<Map,false>` (serialize_container.hpp:89-98, 163-178), `n` rounds to go.
`ins` inserts an item and gives the addresses the iterator of the new element consists of (`none`: there was an equivalent element). -/
def loadLoop (ins : T → X → Option (T × Option (List A))) : Nat → In X A → T → Option (T × In X A × Outcome)
  | 0, i, t => some (t, i, .done)
  | n + 1, i, t =>
    match i.toks with
    | .item x :: ts =>
      match ins t x with
      | none => none
      | some (t', none) => some (t', ⟨i.objs, ts⟩, .badArchive)
      | some (t', some as) =>
        match loadObjs as ⟨i.objs, ts⟩ with
        | none => some (t', ⟨i.objs, ts⟩, .archiveError)
        | some i' => loadLoop ins n i' t'
    | _ => some (t, i, .archiveError)

/-- Loading a container (serialize_container.hpp:72-100, 141-180): `prep` is `clear` and `reserve(count)`. -/
def loadCont (prep : T → Nat → Option T) (ins : T → X → Option (T × Option (List A))) (i : In X A) (t : T) :
    Option (T × In X A × Outcome) :=
  match i.toks with
  | .count n :: ts => (prep t n).bind (loadLoop ins n ⟨i.objs, ts⟩)
  | _ => some (t, i, .archiveError)

/-- `serialize_tracked_address` when saving (serialize_tracked_address.hpp:60-74), for the pointers an iterator consists of. -/
def savePtrs [DecidableEq A] : List (Option A) → List A → List (Tok X) × List A
  | [], objs => ([], objs)
  | p :: ps, objs =>
    let r := savePtrs ps (savePtr (X := X) objs p).2
    ((savePtr objs p).1 :: r.1, r.2)

/-- `serialize_tracked_address` when loading (serialize_tracked_address.hpp:76-91), for `n` pointers: an unknown number makes the archive
construct a `serialization_tracker`, which throws `bad_archive_exception` (serialize_tracked_address.hpp:34-40). -/
def loadPtrs : Nat → In X A → (List (Option A) × Outcome) × In X A
  | 0, i => (([], .done), i)
  | n + 1, i =>
    match i.ptr with
    | (.ptr p, i') => (((p :: (loadPtrs n i').1.1), (loadPtrs n i').1.2), (loadPtrs n i').2)
    | (.create, i') => (([], .badArchive), i')
    | (.error, i') => (([], .archiveError), i')

/-- Saving iterators, each given by its pointers. -/
def saveIters [DecidableEq A] : List (List (Option A)) → List A → List (Tok X) × List A
  | [], objs => ([], objs)
  | p :: ps, objs =>
    let r := savePtrs (X := X) p objs
    let r' := saveIters ps r.2
    (r.1 ++ r'.1, r'.2)

/-- Loading `n` iterators of `w` pointers each. -/
def loadIters (w : Nat) : Nat → In X A → List (List (Option A)) × Outcome
  | 0, _ => ([], .done)
  | n + 1, i =>
    match loadPtrs w i with
    | ((p, .done), i') => (p :: (loadIters w n i').1, (loadIters w n i').2)
    | ((_, out), _) => ([], out)

/-! ### Sessions

Containers are numbered; an address is the number of the container it belongs to and an address `B` within. -/
variable {B : Type}

/-- the address `b` within container `r` -/
def tag (r : Nat) (b : B) : Nat × B := (r, b)

/-- Saving containers, the first one having number `r`: for each the count and the elements with their addresses. -/
def saveConts [DecidableEq B] : Nat → List (Nat × List (X × List B)) → List (Nat × B) → List (Tok X) × List (Nat × B)
  | _, [], objs => ([], objs)
  | r, c :: cs, objs =>
    let p := saveCont c.1 (c.2.map (fun e => (e.1, e.2.map (tag r)))) objs
    let q := saveConts (r + 1) cs p.2
    (p.1 ++ q.1, q.2)

/-- `ins` of container `r` -/
def tagIns (r : Nat) (ins : T → X → Option (T × Option (List B))) (t : T) (x : X) : Option (T × Option (List (Nat × B))) :=
  (ins t x).map (fun q => (q.1, q.2.map (fun bs => bs.map (tag r))))

/-- Loading containers, the first one having number `r`. -/
def loadConts (prep : T → Nat → Option T) (ins : T → X → Option (T × Option (List B))) : Nat → List T → In X (Nat × B) →
    Option (List T × In X (Nat × B) × Outcome)
  | _, [], i => some ([], i, .done)
  | r, t :: ts, i =>
    match loadCont prep (tagIns r ins) i t with
    | none => none
    | some (t', i', .done) => (loadConts prep ins (r + 1) ts i').map (fun q => (t' :: q.1, q.2))
    | some (t', i', out) => some (t' :: ts, i', out)

/-- Saving containers, then iterators (given by their pointers), to a new archive. -/
def saveSession [DecidableEq B] (cs : List (Nat × List (X × List B))) (its : List (List (Option (Nat × B)))) : List (Tok X) :=
  let p := saveConts 0 cs []
  p.1 ++ (saveIters (X := X) its p.2).1

/-- Loading containers, then `n` iterators of `w` pointers each. -/
def loadSession (prep : T → Nat → Option T) (ins : T → X → Option (T × Option (List B))) (w n : Nat) (ts : List T) (toks : List (Tok X)) :
    Option (List T × List (List (Option (Nat × B))) × Outcome) :=
  match loadConts prep ins 0 ts ⟨[], toks⟩ with
  | none => none
  | some (ts', i, .done) => some (ts', loadIters w n i)
  | some (ts', _, out) => some (ts', [], out)

/-! ### Facts -/

/-- the first pair with `a` -/
def assoc [DecidableEq A] (a : A) : List (A × A) → Option A
  | [] => none
  | p :: P => if p.1 = a then some p.2 else assoc a P

/-- What is known after saving and loading: `P` lists, in order, the tracked addresses on both sides. A known address of the saving side stands
for what it was paired with first. -/
structure Sync [DecidableEq A] (so li : List A) (P : List (A × A)) : Prop where
  len : li.length = so.length
  get : ∀ a i, number a so = some i → li[i]? = assoc a P
  dom : ∀ a, number a so = none → assoc a P = none

variable [DecidableEq A]

theorem number_lt : ∀ {l : List A} {a : A} {i : Nat}, number a l = some i → i < l.length
  | [], a, i, h => by cases h
  | b :: l, a, i, h => by
    simp only [number] at h
    split at h
    · cases h; simp
    · obtain ⟨j, hj, rfl⟩ := Option.map_eq_some_iff.1 h
      have := number_lt hj
      simp only [List.length_cons]; omega

theorem number_append {l : List A} {a b : A} :
    number a (l ++ [b]) = (number a l).or (if b = a then some l.length else none) := by
  induction l with
  | nil => simp [number]
  | cons c l ih =>
    simp only [List.cons_append, number]
    split
    · simp
    · rw [ih]
      cases number a l with
      | some i => simp
      | none => simp only [Option.none_or, Option.map_none, List.length_cons]; split <;> simp

theorem lookup_append {P Q : List (A × A)} {a : A} : assoc a (P ++ Q) = (assoc a P).or (assoc a Q) := by
  induction P with
  | nil => simp [assoc]
  | cons p P ih =>
    simp only [List.cons_append, assoc]
    split <;> simp [ih]

theorem lookup_one (x y a : A) : assoc a [(x, y)] = if x = a then some y else none := by
  simp [assoc]

theorem Sync.nil : Sync ([] : List A) [] [] := ⟨rfl, (fun _ _ h => by cases h), fun _ _ => rfl⟩

theorem Sync.obj {so li : List A} {P : List (A × A)} (h : Sync so li P) (a b : A) (ts : List (Tok X)) :
    ∃ li', In.obj ⟨li, .obj (save so a).1 :: ts⟩ b = some ⟨li', ts⟩ ∧ Sync (save so a).2 li' (P ++ [(a, b)]) := by
  unfold save
  cases e : number a so with
  | some i =>
    refine ⟨li, ?_, h.len, ?_, ?_⟩
    · simp only [In.obj]
      rw [if_pos (by rw [h.len]; exact number_lt e)]
    · intro c j hc
      rw [lookup_append, lookup_one, h.get c j hc]
      by_cases hac : a = c
      · subst hac
        have h1 := h.get a i e
        have : li[i]? ≠ none := by
          have := number_lt e
          rw [← h.len] at this
          simp [this]
        rw [h1] at this
        cases h2 : assoc a P with
        | none => exact absurd h2 this
        | some y => simp
      · rw [if_neg hac]; simp
    · intro c hc
      rw [lookup_append, h.dom c hc, lookup_one, if_neg]; · simp
      rintro rfl
      rw [e] at hc; cases hc
  | none =>
    refine ⟨li ++ [b], ?_, by simp [h.len], ?_, ?_⟩
    · simp only [In.obj]
      rw [if_neg (by rw [h.len]; omega)]
    · intro c j hc
      rw [number_append] at hc
      rw [lookup_append, lookup_one]
      cases hn : number c so with
      | some i =>
        rw [hn] at hc
        cases hc
        have hl : j < li.length := by rw [h.len]; exact number_lt hn
        rw [List.getElem?_append_left hl, h.get c j hn]
        have : li[j]? ≠ none := by simp [hl]
        rw [h.get c j hn] at this
        cases h2 : assoc c P with
        | none => exact absurd h2 this
        | some y => simp
      | none =>
        rw [hn] at hc
        simp only [Option.none_or] at hc
        split at hc
        · rename_i hac
          cases hc
          rw [h.dom c hn, if_pos hac, ← h.len]
          simp
        · cases hc
    · intro c hc
      rw [number_append] at hc
      rw [lookup_append, lookup_one]
      cases hn : number c so with
      | some i => rw [hn] at hc; cases hc
      | none =>
        rw [hn] at hc
        simp only [Option.none_or] at hc
        split at hc
        · cases hc
        · rename_i hac; rw [h.dom c hn, if_neg hac]; rfl

theorem Sync.objs : ∀ {as bs : List A} {so li : List A} {P : List (A × A)}, Sync so li P → as.length = bs.length → ∀ (ts : List (Tok X)),
    ∃ li', loadObjs bs ⟨li, (saveObjs as so).1 ++ ts⟩ = some ⟨li', ts⟩ ∧
      Sync (saveObjs as so : List (Tok X) × List A).2 li' (P ++ as.zip bs)
  | [], [], so, li, P, h, _, ts => ⟨li, rfl, by simpa [saveObjs] using h⟩
  | a :: as, b :: bs, so, li, P, h, hl, ts => by
    obtain ⟨l1, e1, h1⟩ := h.obj (X := X) a b ((saveObjs as (save so a).2).1 ++ ts)
    obtain ⟨l2, e2, h2⟩ := Sync.objs h1 (by simpa using hl) ts
    refine ⟨l2, ?_, ?_⟩
    · simp only [saveObjs, List.cons_append, loadObjs]
      rw [e1]
      exact e2
    · simpa [saveObjs] using h2

theorem Sync.ptr {so li : List A} {P : List (A × A)} (h : Sync so li P) (p : Option A) (ts : List (Tok X))
    (hp : ∀ a, p = some a → assoc a P ≠ none) :
    In.ptr ⟨li, (savePtr so p).1 :: ts⟩ = (.ptr (p.bind (fun a => assoc a P)), ⟨li, ts⟩) ∧ (savePtr so p : Tok X × List A).2 = so := by
  cases p with
  | none => exact ⟨rfl, rfl⟩
  | some a =>
    cases e : number a so with
    | none => exact absurd (h.dom a e) (hp a rfl)
    | some i =>
      simp only [savePtr, save, e, In.ptr, h.get a i e, Option.bind_some]
      cases h2 : assoc a P with
      | none => exact absurd h2 (hp a rfl)
      | some y => exact ⟨rfl, trivial⟩

theorem Sync.known {so li : List A} {P : List (A × A)} (h : Sync so li P) {a : A} {i : Nat} (e : number a so = some i) :
    assoc a P ≠ none := by
  rw [← h.get a i e]
  have := number_lt e
  rw [← h.len] at this
  simp [this]

theorem Sync.stray {so li : List A} {P : List (A × A)} (h : Sync so li P) {a : A} (ha : assoc a P = none) (ts : List (Tok X)) :
    In.ptr ⟨li, (savePtr so (some a)).1 :: ts⟩ = (.create, ⟨li, ts⟩) := by
  cases e : number a so with
  | some i => exact absurd ha (h.known e)
  | none =>
    simp only [savePtr, save, e, In.ptr]
    rw [List.getElem?_eq_none (Nat.le_of_eq h.len)]

theorem Sync.ptrs : ∀ {ps : List (Option A)} {so li : List A} {P : List (A × A)}, Sync so li P → (∀ a, some a ∈ ps → assoc a P ≠ none) →
    ∀ (ts : List (Tok X)), loadPtrs ps.length ⟨li, (savePtrs ps so).1 ++ ts⟩ =
      ((ps.map (fun p => p.bind (fun a => assoc a P)), .done), ⟨li, ts⟩) ∧ (savePtrs ps so : List (Tok X) × List A).2 = so
  | [], so, li, P, h, _, ts => ⟨rfl, rfl⟩
  | p :: ps, so, li, P, h, hp, ts => by
    obtain ⟨e1, e2⟩ := h.ptr (X := X) p ((savePtrs ps so).1 ++ ts) (fun a e => hp a (by simp [e]))
    obtain ⟨e3, e4⟩ := Sync.ptrs h (fun a ha => hp a (List.mem_cons_of_mem _ ha)) ts
    refine ⟨?_, ?_⟩
    · simp only [List.length_cons, savePtrs, e2, List.cons_append, loadPtrs, e1, e3, List.map_cons]
    · simp only [savePtrs, e2, e4]

/-- Loading what was saved: if inserting the items one after the other gives the iterators `bs`, the archive and the loading side stay
synchronized. -/
inductive Inserts (ins : T → X → Option (T × Option (List A))) : T → List X → List (List A) → T → Prop
  | nil (t : T) : Inserts ins t [] [] t
  | cons {t t1 t2 : T} {x : X} {xs : List X} {b : List A} {bs : List (List A)} : ins t x = some (t1, some b) → Inserts ins t1 xs bs t2 →
      Inserts ins t (x :: xs) (b :: bs) t2

/-- the tracked addresses of both sides -/
def pairs (es : List (X × List A)) (bs : List (List A)) : List (A × A) := (es.map Prod.snd).flatten.zip bs.flatten

omit [DecidableEq A] in
theorem pairs_cons (e : X × List A) (es : List (X × List A)) (b : List A) (bs : List (List A)) (h : e.2.length = b.length) :
    pairs (e :: es) (b :: bs) = e.2.zip b ++ pairs es bs := by
  unfold pairs
  simp only [List.map_cons, List.flatten_cons]
  rw [List.zip_append h]

theorem Sync.loop {ins : T → X → Option (T × Option (List A))} : ∀ {es : List (X × List A)} {bs : List (List A)} {t t' : T}
    {so li : List A} {P : List (A × A)}, Sync so li P → Inserts ins t (es.map Prod.fst) bs t' →
    List.Forall₂ (fun (e : X × List A) b => e.2.length = b.length) es bs → ∀ (ts : List (Tok X)),
    ∃ li', loadLoop ins es.length ⟨li, (saveElems es so).1 ++ ts⟩ t = some (t', ⟨li', ts⟩, .done) ∧
      Sync (saveElems es so).2 li' (P ++ pairs es bs)
  | [], _, t, t', so, li, P, h, hi, _, ts => by
    cases hi
    exact ⟨li, rfl, by simpa [pairs, saveElems] using h⟩
  | e :: es, _, t, t', so, li, P, h, hi, hl, ts => by
    cases hi with
    | cons h1 h2 =>
      cases hl with
      | cons hl1 hl2 =>
        rename_i t1 b bs
        obtain ⟨l1, e1, s1⟩ := h.objs (X := X) hl1 ((saveElems es (saveObjs (X := X) e.2 so).2).1 ++ ts)
        obtain ⟨l2, e2, s2⟩ := Sync.loop s1 h2 hl2 ts
        refine ⟨l2, ?_, ?_⟩
        · simp only [saveElems, List.length_cons, List.cons_append, List.append_assoc, loadLoop, h1, e1]
          exact e2
        · rw [pairs_cons _ _ _ _ hl1, ← List.append_assoc]
          exact s2

theorem Sync.cont {prep : T → Nat → Option T} {ins : T → X → Option (T × Option (List A))} {es : List (X × List A)} {bs : List (List A)}
    {t t0 t' : T} {so li : List A} {P : List (A × A)} (h : Sync so li P) (hp : prep t es.length = some t0)
    (hi : Inserts ins t0 (es.map Prod.fst) bs t') (hl : List.Forall₂ (fun (e : X × List A) b => e.2.length = b.length) es bs)
    (ts : List (Tok X)) :
    ∃ li', loadCont prep ins ⟨li, (saveCont es.length es so).1 ++ ts⟩ t = some (t', ⟨li', ts⟩, .done) ∧
      Sync (saveCont es.length es so).2 li' (P ++ pairs es bs) := by
  obtain ⟨l1, e1, s1⟩ := h.loop hi hl ts
  refine ⟨l1, ?_, s1⟩
  simp only [saveCont, List.cons_append, loadCont, hp, Option.bind_some]
  exact e1

theorem Sync.iters {w : Nat} : ∀ {ps : List (List (Option A))} {so li : List A} {P : List (A × A)}, Sync so li P →
    (∀ p ∈ ps, p.length = w ∧ ∀ a, some a ∈ p → assoc a P ≠ none) → ∀ (n : Nat) (ts : List (Tok X)),
    loadIters w (ps.length + n) ⟨li, (saveIters ps so).1 ++ ts⟩ =
      (ps.map (fun p => p.map (fun p => p.bind (fun a => assoc a P))) ++ (loadIters w n ⟨li, ts⟩).1, (loadIters w n ⟨li, ts⟩).2) ∧
      (saveIters ps so : List (Tok X) × List A).2 = so
  | [], so, li, P, h, _, n, ts => by simp [saveIters]
  | p :: ps, so, li, P, h, hp, n, ts => by
    obtain ⟨h1, h2⟩ := hp p (by simp)
    obtain ⟨e1, e2⟩ := h.ptrs h2 ((saveIters ps so).1 ++ ts)
    obtain ⟨e3, e4⟩ := Sync.iters h (fun q hq => hp q (List.mem_cons_of_mem _ hq)) n ts
    rw [h1] at e1
    refine ⟨?_, ?_⟩
    · rw [show (p :: ps).length + n = (ps.length + n) + 1 by simp only [List.length_cons]; omega]
      simp only [saveIters, e2, List.append_assoc, loadIters, e1, e3, List.map_cons, List.cons_append]
    · simp only [saveIters, e2, e4]

theorem saveIters_append (ps qs : List (List (Option A))) (so : List A) :
    saveIters (X := X) (ps ++ qs) so =
      ((saveIters (X := X) ps so).1 ++ (saveIters (X := X) qs (saveIters (X := X) ps so).2).1, (saveIters (X := X) qs (saveIters (X := X) ps so).2).2) := by
  induction ps generalizing so with
  | nil => simp [saveIters]
  | cons p ps ih => simp only [List.cons_append, saveIters, ih, List.append_assoc]

/-! ### Sessions -/

/-- Loading one container: from `t`, with the elements `es` in the archive, the loading code gets to `t'`, the new elements having the
addresses `bs`. -/
structure Loaded {B : Type} (prep : T → Nat → Option T) (ins : T → X → Option (T × Option (List B))) (t : T) (es : List (X × List B))
    (t' : T) (bs : List (List B)) : Prop where
  load : ∃ t0, prep t es.length = some t0 ∧ Inserts ins t0 (es.map Prod.fst) bs t'
  len : List.Forall₂ (fun (e : X × List B) b => e.2.length = b.length) es bs

section sessions
variable {B : Type} [DecidableEq B]

omit [DecidableEq B] in
theorem Inserts.tagged {ins : T → X → Option (T × Option (List B))} {t t' : T} {xs : List X} {bs : List (List B)} (r : Nat)
    (h : Inserts ins t xs bs t') : Inserts (tagIns r ins) t xs (bs.map (fun b => b.map (tag r))) t' := by
  induction h with
  | nil t => exact .nil t
  | cons h1 _ ih => exact .cons (by simp [tagIns, h1]) ih

omit [DecidableEq B] in
theorem zip_map_map {α β γ δ : Type} (f : α → γ) (g : β → δ) : ∀ (l : List α) (m : List β),
    (l.map f).zip (m.map g) = (l.zip m).map (fun p => (f p.1, g p.2))
  | [], _ => rfl
  | _ :: _, [] => rfl
  | a :: l, b :: m => by simp [zip_map_map f g l m]

omit [DecidableEq B] in
theorem pairs_tag (r : Nat) (es : List (X × List B)) (bs : List (List B)) :
    pairs (es.map (fun e => (e.1, e.2.map (tag r)))) (bs.map (fun b => b.map (tag r))) =
      (pairs es bs).map (fun p => (tag r p.1, tag r p.2)) := by
  unfold pairs
  rw [← zip_map_map, List.map_flatten, List.map_flatten]
  simp only [List.map_map]
  rfl

theorem lookup_tag (r r' : Nat) (a : B) : ∀ (P : List (B × B)),
    assoc (r', a) (P.map (fun p => (tag r p.1, tag r p.2))) = if r = r' then (assoc a P).map (tag r) else none
  | [] => by simp [assoc]
  | p :: P => by
    simp only [List.map_cons, assoc]
    rw [lookup_tag r r' a P]
    simp only [tag, Prod.mk.injEq]
    by_cases h : r = r'
    · subst h
      simp only [if_true, true_and]
      split <;> rfl
    · simp [h]

/-- where the saved address `a` of container `r` leads, the containers from number `r0` on being as listed -/
def target (r0 : Nat) : List (List (X × List B)) → List (List (List B)) → Nat × B → Option (Nat × B)
  | es :: ess, bs :: bss, q => if q.1 = r0 then (assoc q.2 (pairs es bs)).map (tag r0) else target (r0 + 1) ess bss q
  | _, _, _ => none

theorem target_lt {r0 : Nat} : ∀ {ess : List (List (X × List B))} {bss : List (List (List B))} {q : Nat × B}, q.1 < r0 →
    target r0 ess bss q = none
  | [], _, _, _ => by simp [target]
  | _ :: _, [], _, _ => by simp [target]
  | es :: ess, bs :: bss, q, h => by
    simp only [target]
    rw [if_neg (by omega), target_lt (by omega)]

theorem target_get {r0 : Nat} : ∀ {ess : List (List (X × List B))} {bss : List (List (List B))} {r : Nat} {a : B}
    {es : List (X × List B)} {bs : List (List B)}, ess[r]? = some es → bss[r]? = some bs →
    target r0 ess bss (r0 + r, a) = (assoc a (pairs es bs)).map (tag (r0 + r))
  | [], _, r, a, es, bs, h, _ => by simp at h
  | _ :: _, [], r, a, es, bs, _, h => by simp at h
  | e :: ess, b :: bss, 0, a, es, bs, h1, h2 => by
    simp only [List.getElem?_cons_zero, Option.some.injEq] at h1 h2
    subst h1 h2
    simp [target]
  | e :: ess, b :: bss, r + 1, a, es, bs, h1, h2 => by
    simp only [List.getElem?_cons_succ] at h1 h2
    simp only [target]
    rw [if_neg (by omega), show r0 + (r + 1) = (r0 + 1) + r by omega]
    exact target_get h1 h2

theorem target_ge {r0 : Nat} : ∀ {ess : List (List (X × List B))} {bss : List (List (List B))} {q : Nat × B}, r0 + ess.length ≤ q.1 →
    target r0 ess bss q = none
  | [], _, _, _ => by simp [target]
  | _ :: _, [], _, _ => by simp [target]
  | es :: ess, bs :: bss, q, h => by
    simp only [List.length_cons] at h
    simp only [target]
    rw [if_neg (by omega), target_ge (by omega)]

/-- all containers -/
inductive AllLoaded (prep : T → Nat → Option T) (ins : T → X → Option (T × Option (List B))) : List T → List (List (X × List B)) →
    List T → List (List (List B)) → Prop
  | nil : AllLoaded prep ins [] [] [] []
  | cons {t t' : T} {es : List (X × List B)} {bs : List (List B)} {ts ts' : List T} {ess : List (List (X × List B))}
      {bss : List (List (List B))} : Loaded prep ins t es t' bs → AllLoaded prep ins ts ess ts' bss →
      AllLoaded prep ins (t :: ts) (es :: ess) (t' :: ts') (bs :: bss)

theorem Sync.conts {prep : T → Nat → Option T} {ins : T → X → Option (T × Option (List B))} {ts ts' : List T}
    {ess : List (List (X × List B))} {bss : List (List (List B))} (hl : AllLoaded prep ins ts ess ts' bss) :
    ∀ {so li : List (Nat × B)} {P : List ((Nat × B) × (Nat × B))} (r : Nat), Sync so li P → ∀ (toks : List (Tok X)),
    ∃ li' P', loadConts prep ins r ts ⟨li, (saveConts r (ess.map (fun es => (es.length, es))) so).1 ++ toks⟩ = some (ts', ⟨li', toks⟩, .done) ∧
      Sync (saveConts r (ess.map (fun es => (es.length, es))) so).2 li' (P ++ P') ∧ ∀ q, assoc q P' = target r ess bss q := by
  induction hl with
  | nil => intro so li P r h toks; exact ⟨li, [], rfl, by simpa [saveConts] using h, fun q => rfl⟩
  | @cons t t' es bs ts ts' ess bss h1 _ ih =>
    intro so li P r h toks
    obtain ⟨⟨t0, e0, hi⟩, hlen⟩ := h1
    have hlen' : List.Forall₂ (fun (e : X × List (Nat × B)) b => e.2.length = b.length) (es.map (fun e => (e.1, e.2.map (tag r))))
        (bs.map (fun b => b.map (tag r))) := by
      clear hi e0
      induction hlen with
      | nil => exact .nil
      | cons hh _ ih2 => exact .cons (by simpa using hh) ih2
    have hi' := hi.tagged r
    have hfst : (es.map (fun e => (e.1, e.2.map (tag r)))).map Prod.fst = es.map Prod.fst := by simp
    rw [← hfst] at hi'
    have hll : (es.map (fun e => (e.1, e.2.map (tag r)))).length = es.length := by simp
    obtain ⟨l1, e1, s1⟩ := h.cont (prep := prep) (t := t) (by rw [hll]; exact e0) hi' hlen'
      ((saveConts (r + 1) (ess.map (fun es => (es.length, es))) (saveCont es.length (es.map (fun e => (e.1, e.2.map (tag r)))) so).2).1 ++ toks)
    rw [hll] at e1 s1
    obtain ⟨l2, P2, e2, s2, hP⟩ := ih (r + 1) s1 toks
    refine ⟨l2, (pairs es bs).map (fun p => (tag r p.1, tag r p.2)) ++ P2, ?_, ?_, ?_⟩
    · simp only [List.map_cons, saveConts, loadConts, List.append_assoc, e1, e2, Option.map_some]
    · rw [pairs_tag] at s2
      simp only [List.map_cons, saveConts]
      rw [← List.append_assoc]
      exact s2
    · intro q
      obtain ⟨q1, q2⟩ := q
      rw [lookup_append, lookup_tag, hP]
      simp only [target]
      by_cases hq : r = q1
      · subst hq
        rw [if_pos rfl, if_pos rfl, target_lt (by simp)]
        simp
      · rw [if_neg hq, if_neg (Ne.symm hq)]; rfl

/-- Every loaded iterator consists of what its saved pointers lead to. -/
theorem session_eq {prep : T → Nat → Option T} {ins : T → X → Option (T × Option (List B))} {ts ts' : List T}
    {ess : List (List (X × List B))} {bss : List (List (List B))} (hl : AllLoaded prep ins ts ess ts' bss) (w : Nat)
    (its : List (List (Option (Nat × B)))) (hw : ∀ p ∈ its, p.length = w ∧ ∀ q, some q ∈ p → target 0 ess bss q ≠ none) :
    loadSession prep ins w its.length ts (saveSession (ess.map (fun es => (es.length, es))) its) =
      some (ts', its.map (fun p => p.map (fun o => o.bind (target 0 ess bss))), .done) := by
  obtain ⟨li, P, e1, s1, hP⟩ := Sync.conts hl 0 Sync.nil
    (saveIters its (saveConts 0 (ess.map (fun es => (es.length, es))) []).2).1
  rw [List.nil_append] at s1
  have hw' : ∀ p ∈ its, p.length = w ∧ ∀ a, some a ∈ p → assoc a P ≠ none := fun p hp =>
    ⟨(hw p hp).1, fun a ha => by rw [hP]; exact (hw p hp).2 a ha⟩
  obtain ⟨e2, _⟩ := s1.iters (X := X) hw' 0 []
  simp only [loadSession, saveSession]
  rw [e1]
  simp only [List.append_nil, Nat.add_zero, loadIters] at e2
  simp only [e2, Option.some.injEq, Prod.mk.injEq, true_and, and_true]
  refine List.map_congr_left fun p _ => List.map_congr_left fun o _ => ?_
  cases o with
  | none => rfl
  | some a => exact hP a

/-- An iterator with an address of no saved container: the iterators before it are loaded, then `bad_archive_exception`. -/
theorem session_stray {prep : T → Nat → Option T} {ins : T → X → Option (T × Option (List B))} {ts ts' : List T}
    {ess : List (List (X × List B))} {bss : List (List (List B))} (hl : AllLoaded prep ins ts ess ts' bss) (w : Nat)
    (its its2 : List (List (Option (Nat × B)))) (hw : ∀ p ∈ its, p.length = w ∧ ∀ q, some q ∈ p → target 0 ess bss q ≠ none)
    (q : Nat × B) (ps : List (Option (Nat × B))) (hps : ps.length + 1 = w) (hq : target 0 ess bss q = none) :
    loadSession prep ins w (its.length + (its2.length + 1)) ts
        (saveSession (ess.map (fun es => (es.length, es))) (its ++ (some q :: ps) :: its2)) =
      some (ts', its.map (fun p => p.map (fun o => o.bind (target 0 ess bss))), .badArchive) := by
  obtain ⟨li, P, e1, s1, hP⟩ := Sync.conts hl 0 Sync.nil
    (saveIters (its ++ (some q :: ps) :: its2) (saveConts 0 (ess.map (fun es => (es.length, es))) []).2).1
  rw [List.nil_append] at s1
  have hw' : ∀ p ∈ its, p.length = w ∧ ∀ a, some a ∈ p → assoc a P ≠ none := fun p hp =>
    ⟨(hw p hp).1, fun a ha => by rw [hP]; exact (hw p hp).2 a ha⟩
  obtain ⟨e2, e3⟩ := s1.iters (X := X) hw' (its2.length + 1)
    (saveIters ((some q :: ps) :: its2) (saveConts 0 (ess.map (fun es => (es.length, es))) []).2).1
  simp only [loadSession, saveSession]
  rw [e1]
  simp only [saveIters_append, e3]
  rw [e2]
  have e4 := s1.stray (X := X) (a := q) (by rw [hP]; exact hq)
  subst hps
  simp only [saveIters, loadIters, savePtrs, List.cons_append, loadPtrs, e4]
  simp only [List.append_nil, Option.some.injEq, Prod.mk.injEq, true_and, and_true]
  refine List.map_congr_left fun p _ => List.map_congr_left fun o _ => ?_
  cases o with
  | none => rfl
  | some a => exact hP a

end sessions

end Track

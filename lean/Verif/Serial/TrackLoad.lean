/-
Loading arbitrary archives when addresses are tracked (`Verif/Serial/Track.lean`): nothing is assumed of the archive but that it is made up
of a count and items, each followed by the right number of tracked objects; the numbers of these are arbitrary.
-/
import Verif.Serial.Track

namespace Track
open SpecTrack
open SpecSer (Outcome Loads NoDup)
variable {K V T A : Type}

/-- items, each followed by tracked objects with the given numbers -/
def spell {X : Type} : List (X × List Nat) → List (Tok X)
  | [] => []
  | x :: xs => .item x.1 :: (x.2.map .obj ++ spell xs)

theorem loadObjs_any {X : Type} (ts : List (Tok X)) : ∀ (as : List A) (ids : List Nat) (objs : List A), as.length = ids.length →
    ∃ objs', loadObjs as ⟨objs, ids.map .obj ++ ts⟩ = some ⟨objs', ts⟩
  | [], [], objs, _ => ⟨objs, rfl⟩
  | a :: as, id :: ids, objs, h => by
    simp only [List.map_cons, List.cons_append, loadObjs, In.obj, Option.bind_some]
    exact loadObjs_any ts as ids _ (by simpa using h)

/-- What is needed of inserting a loaded item: `I t l` says that the container `t` holds the items `l`. -/
def InsOk (u : Bool) (eq : K → K → Bool) (w : Nat) (ins : T → K × V → Option (T × Option (List A))) (I : T → List (K × V) → Prop) : Prop :=
  ∀ t pre x, I t pre →
    (∃ t' as, ins t x = some (t', some as) ∧ as.length = w ∧ I t' (pre ++ [x]) ∧ (u = true → ∀ e ∈ pre, eq e.1 x.1 = false)) ∨
    (∃ t', ins t x = some (t', none) ∧ I t' pre ∧ u = true ∧ ∃ e ∈ pre, eq x.1 e.1 = true)

theorem loadLoop_any {u : Bool} {eq : K → K → Bool} {w : Nat} {ins : T → K × V → Option (T × Option (List A))} {I : T → List (K × V) → Prop}
    (hI : InsOk u eq w ins I) : ∀ (n : Nat) (xs : List ((K × V) × List Nat)) (pre : List (K × V)) (objs : List A) (t : T), I t pre →
    (∀ x ∈ xs, x.2.length = w) → (u = true → NoDup eq pre) →
    ∃ t' i' out l, loadLoop ins n ⟨objs, spell xs⟩ t = some (t', i', out) ∧ I t' l ∧
      Loads u eq ⟨pre.length + n, pre ++ xs.map Prod.fst⟩ out l := by
  intro n
  induction n with
  | zero =>
    intro xs pre objs t ht _ hd
    refine ⟨t, ⟨objs, spell xs⟩, .done, pre, rfl, ht, .done (by simp) (fun hu => ?_) ?_⟩
    · simpa using hd hu
    · simp
  | succ n ih =>
    intro xs pre objs t ht hw hd
    cases xs with
    | nil =>
      refine ⟨t, ⟨objs, []⟩, .archiveError, pre, rfl, ht, .short (by simp) (fun hu => ?_) (by simp)⟩
      simpa using hd hu
    | cons x xs =>
      rcases hI t pre x.1 ht with ⟨t', as, e, hl, ht', hn⟩ | ⟨t', e, ht', hu, he⟩
      · obtain ⟨objs', ho⟩ := loadObjs_any (spell xs) as x.2 objs (by rw [hl, hw x (by simp)])
        obtain ⟨t2, i2, out, l, f1, f2, f3⟩ := ih xs (pre ++ [x.1]) objs' t' ht' (fun y hy => hw y (by simp [hy])) (by
          intro hu
          refine List.pairwise_append.2 ⟨hd hu, List.pairwise_singleton _ _, fun a ha b hb => ?_⟩
          rw [List.mem_singleton.1 hb]
          exact hn hu a ha)
        refine ⟨t2, i2, out, l, ?_, f2, ?_⟩
        · simp only [spell, loadLoop, e, ho]
          exact f1
        · have h1 : (pre ++ [x.1]) ++ xs.map Prod.fst = pre ++ (x :: xs).map Prod.fst := by simp
          have h2 : (pre ++ [x.1]).length + n = pre.length + (n + 1) := by simp; omega
          rw [h1, h2] at f3
          exact f3
      · refine ⟨t', ⟨objs, x.2.map .obj ++ spell xs⟩, .badArchive, pre, ?_, ht', ?_⟩
        · simp only [spell, loadLoop, e]
        · refine .dup pre.length x.1 (by simp) (by simp) hu (by simpa using hd hu) ?_ (by simp)
          obtain ⟨y, hy, he⟩ := he
          exact ⟨y, by simpa using hy, he⟩

/-- a session that loads one container and no iterators -/
theorem loadSession_one {X B : Type} {prep : T → Nat → Option T} {ins : T → X → Option (T × Option (List B))} {w n : Nat} {t t0 t' : T}
    {toks : List (Tok X)} {i' : In X (Nat × B)} {out : Outcome} (hp : prep t n = some t0)
    (hl : loadLoop (tagIns 0 ins) n ⟨[], toks⟩ t0 = some (t', i', out)) :
    loadSession prep ins w 0 [t] (.count n :: toks) = some ([t'], [], out) := by
  simp only [loadSession, loadConts, loadCont, hp, Option.bind_some, hl]
  cases out <;> rfl

theorem InsOk.tagged {u : Bool} {eq : K → K → Bool} {w : Nat} {ins : T → K × V → Option (T × Option (List A))} {I : T → List (K × V) → Prop}
    (h : InsOk u eq w ins I) (r : Nat) : InsOk u eq w (tagIns r ins) I := by
  intro t pre x ht
  rcases h t pre x ht with ⟨t', as, e, hl, h1, h2⟩ | ⟨t', e, h1, h2⟩
  · exact .inl ⟨t', as.map (tag r), by simp [tagIns, e], by simpa using hl, h1, h2⟩
  · exact .inr ⟨t', by simp [tagIns, e], h1, h2⟩

end Track

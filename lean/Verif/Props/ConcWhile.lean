/-
C66: `visit_while` on a concurrent container: the answer, the early stop, completeness when it answers `true`.
-/
import Verif.Conc.TabWhile
import Verif.Props.ConcTable

namespace Props.ConcWhile
open Foa SpecT Conc.Tab
open Conc.Locking (Mode)
open Props.ConcTable

variable {K V : Type}

/-- The `bool` returned: the model answers 1 for `return false`, 0 for `return true`. -/
def saidTrue (r : Nat) : Bool := r == 0

/-- In step `l` thread `t` passes element `y` to the callback of its pass. -/
def Calls (σ : Nat → State K V) (who : Nat → Nat) (t l : Nat) (y : K × V) : Prop := who l = t ∧ Passes (σ l) t y

/-- Element `y` after a callback that leaves `v` as its mapped value: a callback with shared access cannot write. -/
def after (m : Mode) (y : K × V) (v : V) : K × V :=
  match m with
  | .excl => (y.1, v)
  | .shared => y

section
variable {cfg : Cfg} {f : Fns K} (hf : f.Lawful) {al c : Nat} {σ : Nat → State K V} {who : Nat → Nat} {n : Nat}
  (h0 : Reach cfg f al c (σ 0)) (hr : Run cfg σ who n) {t : Nat} {m : Mode} {p : K × V → Bool} {w : K × V → V} {a b r : Nat}
  (he : Executes σ t (visitWhile m p w) a b r) (hb : b ≤ n)
include hf h0 hr he hb

theorem course {i : Nat} (hi : a + i ≤ b) :
    (((σ (a + i)).pc t).sofar = 0 ∧ ∀ l, a ≤ l → l < a + i → ∀ y, Calls σ who t l y → p y = true) ∨
    (((σ (a + i)).pc t).sofar = 1 ∧ ∃ l, a ≤ l ∧ l < a + i ∧ (∃ y, Calls σ who t l y ∧ p y = false) ∧
      (∀ l', a ≤ l' → l' < l → ∀ y, Calls σ who t l' y → p y = true) ∧
      ∀ l', l < l' → l' < a + i → ∀ y, ¬ Calls σ who t l' y) := by
  have hle := he.le
  have hi0 := h0.inv hf
  have hia := hr.inv hi0 a (by omega)
  rcases while_run (Run.sub hr he.le hb) hia he.called
    (fun i hi r' hq => he.running (a + i) (by omega) (by omega) r' hq) i (by omega) with
    ⟨h1, h2⟩ | ⟨_, h1, l, hl, h3, ⟨y, h4, h5⟩, h6, h7⟩
  · refine .inl ⟨h1, fun l h3 h4 y hy => ?_⟩
    have := h2 (l - a) (by omega)
    simp only [Nat.add_sub_cancel' h3] at this
    exact this hy.1 y hy.2
  · refine .inr ⟨h1, a + l, by omega, by omega, ⟨y, ⟨h3, h4⟩, h5⟩, fun l' h8 h9 z hz => ?_, fun l' h8 h9 z hz => ?_⟩
    · have := h6 (l' - a) (by omega)
      simp only [Nat.add_sub_cancel' h8] at this
      exact this hz.1 z hz.2
    · have h10 : a ≤ l' := by omega
      have := h7 (l' - a) (by omega) (by omega)
      simp only [Nat.add_sub_cancel' h10] at this
      exact this hz.1 z hz.2

/-- `visit_while` returns `true` iff every call of its callback returned `true`, and `false` iff one returned `false`. -/
theorem C66_answer :
    (saidTrue r = true ↔ ∀ l, a ≤ l → l < b → ∀ y, Calls σ who t l y → p y = true) ∧
    (saidTrue r = false ↔ ∃ l y, a ≤ l ∧ l < b ∧ Calls σ who t l y ∧ p y = false) := by
  have hle := he.le
  have key := course hf h0 hr he hb (i := b - a) (by omega)
  rw [Nat.add_sub_cancel' he.le, he.returned] at key
  rcases key with ⟨h1, h2⟩ | ⟨h1, l, h2, h3, ⟨y, h4, h5⟩, _⟩
  · have h1 : r = 0 := h1
    subst h1
    refine ⟨⟨fun _ => h2, fun _ => rfl⟩, ⟨(fun h => by cases h), ?_⟩⟩
    rintro ⟨l, y, h3, h4, h5, h6⟩
    rw [h2 l h3 h4 y h5] at h6; cases h6
  · have h1 : r = 1 := h1
    subst h1
    refine ⟨⟨(fun h => by cases h), fun h => ?_⟩, ⟨fun _ => ⟨l, y, h2, h3, h4, h5⟩, fun _ => rfl⟩⟩
    rw [h l h2 h3 y h4] at h5; cases h5

/-- After a call that returned `false` the callback is not called again. -/
theorem C66_stops_at_false {l : Nat} (hl : a ≤ l) (hlb : l < b) {y : K × V} (hy : Calls σ who t l y) (hp : p y = false) :
    ∀ l', l < l' → l' < b → ∀ z, ¬ Calls σ who t l' z := by
  intro l' h1 h2 z hz
  have hle := he.le
  have key := course hf h0 hr he hb (i := b - a) (by omega)
  rw [Nat.add_sub_cancel' he.le] at key
  rcases key with ⟨_, h3⟩ | ⟨_, k, h3, h4, _, h6, h7⟩
  · rw [h3 l hl hlb y hy] at hp; cases hp
  · rcases Nat.lt_trichotomy l k with h | rfl | h
    · rw [h6 l hl h y hy] at hp; cases hp
    · exact h7 l' h1 h2 z hz
    · exact h7 l h hlb y hy

/-- When `visit_while` returns `true`, every key present from its call to its return was passed to the callback exactly once. -/
theorem C66_true_means_all (ht : saidTrue r = true) {k : K} (hp : ∀ i, a ≤ i → i ≤ b → Present f.eq (Elems (σ i)) k) :
    ∃ l, a ≤ l ∧ l < b ∧ PassesKey f.eq σ who t k l ∧ ∀ l', a ≤ l' → l' < b → PassesKey f.eq σ who t k l' → l' = l := by
  have hall := (C66_answer hf h0 hr he hb).1.1 ht
  refine C44_present_visited_once hf h0 hr he hb (fun l h1 h2 h3 y v d h4 h5 => ?_) hp
  rw [if_pos (hall l h1 h2 y ⟨h3, h4⟩)] at h5
  cases h5

/-- Whatever it returns, no key present all the time is passed twice. -/
theorem C66_never_twice {k : K} (hp : ∀ i, a ≤ i → i ≤ b → Present f.eq (Elems (σ i)) k) {l l' : Nat} (h1 : a ≤ l) (h2 : l < b)
    (h3 : a ≤ l') (h4 : l' < b) (h5 : PassesKey f.eq σ who t k l) (h6 : PassesKey f.eq σ who t k l') : l = l' := by
  have hle := he.le
  have hi0 := h0.inv hf
  have hia := hr.inv hi0 a (by omega)
  have hfa : (σ a).mem.tab.fns = f := (hr.fns hi0 a (by omega)).trans (h0.fns hf)
  have hsub := Run.sub hr he.le hb
  have key : ∀ {l l' : Nat}, a ≤ l → l < l' → l' < b → PassesKey f.eq σ who t k l → PassesKey f.eq σ who t k l' → False := by
    intro l l' h1 h2 h3 h5 h6
    obtain ⟨hw', y, hy, hye⟩ := h6
    have hsub' : Run cfg (fun i => σ (a + i)) (fun i => who (a + i)) (l' - a) :=
      ⟨fun i hi => hsub.step i (by omega), fun i hi => hsub.nowrap i (by omega)⟩
    have := while_once hsub' (t := t) (md := m) (act := fun y => if p y then .go (w y) 0 else .stop (w y) 1) hia he.called
      (fun i hi r' hq => he.running (a + i) (by omega) (by omega) r' hq) (k := k)
      (fun i hi => by rw [Nat.add_zero, hfa]; exact hp (a + i) (by omega) (by omega))
      (fun i hi hu z v d hz hv => by
        have hpz : p z = false := by
          by_contra hc
          rw [if_pos (by simpa using hc)] at hv
          cases hv
        exact C66_stops_at_false hf h0 hr he hb (l := a + i) (by omega) (by omega) ⟨hu, hz⟩ hpz l' (by omega) h3 y ⟨hw', hy⟩)
      (y := y) (by simp only [Nat.add_sub_cancel' (show a ≤ l' by omega)]; exact hy) (by rw [Nat.add_zero, hfa]; exact hye)
      (l - a) (by omega)
    refine this ⟨by simp only [Nat.add_sub_cancel' h1]; exact h5.1, ?_⟩
    obtain ⟨_, z, hz, hze⟩ := h5
    exact ⟨z, by simp only [Nat.add_sub_cancel' h1]; exact hz, by simp only [Nat.add_zero, hfa]; exact hze⟩
  rcases Nat.lt_trichotomy l l' with h | h | h
  · exact absurd (key h1 h h4 h5 h6) id
  · exact h
  · exact absurd (key h3 h h2 h6 h5) id

/-- No step of `visit_while` changes the contents but for the mapped value of the element passed, and that only when the callback
has write access. -/
theorem C66_effect {l : Nat} (hl : a ≤ l) (hlb : l < b) (hw : who l = t) :
    (Same (Elems (σ l)) (Elems (σ (l + 1))) ∧ ∀ y, ¬ Calls σ who t l y) ∨
    ∃ y, Calls σ who t l y ∧ Replaced (Elems (σ l)) (Elems (σ (l + 1))) y (after m y (w y)) := by
  rcases C44_pass_effect hf h0 hr he hb hl hlb hw with ⟨h1, h2⟩ | ⟨y, h1, h2⟩
  · exact .inl ⟨h1, fun y h => h2 y h.2⟩
  · refine .inr ⟨y, ⟨hw, h1⟩, ?_⟩
    split at h2 <;> rename_i hv <;> split at hv <;> cases hv <;> cases m <;> exact h2

end

/-! ### concrete runs: keys 1 and 2 are there, thread 1 erases 2 in the meantime -/

/-- never says `false` -/
def exWhile : Op Nat Nat := visitWhile .shared (fun y => y.1 != 7) Prod.snd
/-- says `false` at key 1 and writes -/
def exStop : Op Nat Nat := visitWhile .excl (fun y => y.1 != 1) fun y => y.2 + 5

def exWhileRun : List (Ev Nat Nat) := go 0 2 ++ go 1 17 ++ go 0 6 ++ go 1 7
def exStopRun : List (Ev Nat Nat) := go 0 2 ++ go 1 17 ++ go 0 3 ++ go 1 7

/-- The element the next step of thread `t` passes. -/
def passed (s : State K V) (t : Nat) : Option (K × V) :=
  match s.pc t with
  | .swAt _ _ g (j :: _) _ => s.mem.slot g j
  | _ => none

theorem passed_iff {s : State K V} {t : Nat} {y : K × V} : passed s t = some y ↔ Passes s t y := by
  unfold passed
  constructor
  · intro h
    split at h
    · rename_i hq; exact ⟨_, _, _, _, _, _, hq, h⟩
    · cases h
  · rintro ⟨_, _, _, _, _, _, hq, hy⟩
    simp only [hq, hy]

set_option maxRecDepth 100000 in
theorem exWhile_run : Run {} ((ex3 exWhile).trace {} exWhileRun) (who exWhileRun) 32 ∧
    Executes ((ex3 exWhile).trace {} exWhileRun) 0 exWhile 0 25 0 :=
  ⟨ran (by decide +kernel), executes (ex3_reach _).2 (by decide +kernel) (by decide +kernel)⟩

set_option maxRecDepth 100000 in
theorem exStop_run : Run {} ((ex3 exStop).trace {} exStopRun) (who exStopRun) 29 ∧
    Executes ((ex3 exStop).trace {} exStopRun) 0 exStop 0 22 1 :=
  ⟨ran (by decide +kernel), executes (ex3_reach _).2 (by decide +kernel) (by decide +kernel)⟩

set_option maxRecDepth 100000 in
/-- Hypotheses of `C66_answer`, `C66_true_means_all`, `C66_effect`: a pass that answers `true` and has passed key 1 in step 20. -/
example : exF.Lawful ∧ Reach {} exF 0 20 ((ex3 exWhile).trace {} exWhileRun 0) ∧
    Run {} ((ex3 exWhile).trace {} exWhileRun) (who exWhileRun) 32 ∧
    Executes ((ex3 exWhile).trace {} exWhileRun) 0 (visitWhile .shared (fun y => y.1 != 7) Prod.snd) 0 25 0 ∧ saidTrue 0 = true ∧
    (∀ i, 0 ≤ i → i ≤ 25 → Present exF.eq (Elems ((ex3 exWhile).trace {} exWhileRun i)) 1) ∧
    ∃ l, l < 25 ∧ Calls ((ex3 exWhile).trace {} exWhileRun) (who exWhileRun) 0 l (1, 10) := by
  refine ⟨exF_lawful, (ex3_reach _).1, exWhile_run.1, exWhile_run.2, rfl,
    fun i _ hi => present_of (g := 0) (j := 0) (v := 10) ?_, ?_⟩
  · have : ∀ i < 26, ((ex3 exWhile).trace {} exWhileRun i).mem.slot 0 0 = some (1, 10) := by decide +kernel
    exact this i (by omega)
  · have : ∃ l < 25, who exWhileRun l = 0 ∧ passed ((ex3 exWhile).trace {} exWhileRun l) 0 = some (1, 10) := by decide +kernel
    obtain ⟨l, h1, h2, h3⟩ := this
    exact ⟨l, h1, h2, passed_iff.1 h3⟩

set_option maxRecDepth 100000 in
/-- Hypotheses of `C66_stops_at_false`, `C66_never_twice`: the pass is stopped at key 1; key 2 is there until then. -/
example : exF.Lawful ∧ Reach {} exF 0 20 ((ex3 exStop).trace {} exStopRun 0) ∧
    Run {} ((ex3 exStop).trace {} exStopRun) (who exStopRun) 29 ∧
    Executes ((ex3 exStop).trace {} exStopRun) 0 (visitWhile .excl (fun y => y.1 != 1) fun y => y.2 + 5) 0 22 1 ∧
    (∃ l, l < 22 ∧ Calls ((ex3 exStop).trace {} exStopRun) (who exStopRun) 0 l (1, 10)) ∧
    ((ex3 exStop).trace {} exStopRun 22).mem.slot 0 0 = some (1, 15) := by
  refine ⟨exF_lawful, (ex3_reach _).1, exStop_run.1, exStop_run.2, ?_, by decide +kernel⟩
  have : ∃ l < 22, who exStopRun l = 0 ∧ passed ((ex3 exStop).trace {} exStopRun l) 0 = some (1, 10) := by decide +kernel
  obtain ⟨l, h1, h2, h3⟩ := this
  exact ⟨l, h1, h2, passed_iff.1 h3⟩

end Props.ConcWhile

/-
A callback that stops a pass over the whole of a concurrent container stops it (part of C44).
-/
import Verif.Props.ConcTable

namespace Conc.Tab
open Foa
variable {K V : Type}

/-- The thread is leaving its call. -/
def Pc.leaving : Pc K V → Prop
  | .unlock _ _ _ | .leave _ | .done _ => True
  | _ => False

theorem StepBy.leaving {cfg : Cfg} {s s' : State K V} {t : Nat} (h : StepBy cfg t s s') (hd : ∀ r, s.pc t ≠ .done r)
    (hp : (s.pc t).leaving) : (s'.pc t).leaving := by
  cases h with
  | @quiet pc' h =>
    rw [State.set_pc, upd_self]
    generalize s.pc t = p at h hp hd
    cases h with
    | callAgain r o => exact absurd rfl (hd r)
    | unlock _ _ _ => trivial
    | leave _ => trivial
    | _ => exact absurd hp id
  | @eff m' pc' h =>
    generalize s.pc t = p at h hp
    cases h <;> exact absurd hp id
  | @alone m' pc' ho h =>
    generalize s.pc t = p at h hp
    cases h <;> exact absurd hp id

/-- The step in which the callback says stop. -/
theorem StepBy.stops_pass {cfg : Cfg} {s s' : State K V} {t : Nat} (h : StepBy cfg t s s') {m : Conc.Locking.Mode}
    {act : K × V → Verdict V} {g j : Nat} {js : List Nat} {r : Nat} {y : K × V} {v : V} {d : Nat}
    (hp : s.pc t = .swAt m act g (j :: js) r) (hy : s.mem.slot g j = some y) (ha : act y = .stop v d) : (s'.pc t).leaving := by
  cases h with
  | @quiet pc' h =>
    rw [hp] at h
    cases h with
    | swBad _ _ _ _ _ _ hn => rw [hy] at hn; cases hn
  | @eff m' pc' h =>
    rw [State.set_pc, upd_self]
    rw [hp] at h
    cases h with
    | swGo _ _ _ _ _ _ y' v' a' hy' ha' => rw [hy] at hy'; cases hy'; rw [ha] at ha'; cases ha'
    | swStop => trivial
    | swErase _ _ _ _ _ y' hy' ha' => rw [hy] at hy'; cases hy'; rw [ha] at ha'; cases ha'
    | swEraseWrap _ _ _ _ _ y' hy' ha' => rw [hy] at hy'; cases hy'; rw [ha] at ha'; cases ha'
  | @alone m' pc' ho h => rw [hp] at h; cases h

theorem not_passes_leaving {s : State K V} {t : Nat} (h : (s.pc t).leaving) (y : K × V) : ¬ Passes s t y := by
  rintro ⟨m, act, g, j, js, r, hp, _⟩
  rw [hp] at h; exact h

end Conc.Tab

namespace Props.ConcTable
open Conc.Tab Foa SpecT
open Conc.Locking (Mode)
variable {K V : Type}

/-- After the callback has said stop, the pass passes it no other element. -/
theorem C44_pass_stops {cfg : Cfg} {f : Fns K} (hf : f.Lawful) {al c : Nat} {σ : Nat → State K V} {who : Nat → Nat}
    {n : Nat} (h0 : Reach cfg f al c (σ 0)) (hr : Run cfg σ who n) {t : Nat} {m : Mode} {act : K × V → Verdict V} {a b r : Nat}
    (he : Executes σ t (.sweep m act) a b r) (hb : b ≤ n) {l : Nat} (hl : a ≤ l) (hlb : l < b) (hw : who l = t) {y : K × V}
    {v : V} {d : Nat} (hy : Passes (σ l) t y) (ha : act y = .stop v d) :
    ∀ l', l < l' → l' ≤ b → ∀ z, ¬ Passes (σ l') t z := by
  have hi0 := h0.inv hf
  have hle := he.le
  have hia := hr.inv hi0 a (by omega)
  have hs := Run.sweeping (Run.sub hr he.le hb) (t := t) (md := m) (act := act) hia he.called
    (fun i hi r' hq => he.running (a + i) (by omega) (by omega) r' hq) (l - a) (by omega)
  simp only [Nat.add_sub_cancel' hl] at hs
  obtain ⟨m', act', g, j, js, q, hp, hsl⟩ := hy
  rw [hp] at hs
  obtain ⟨rfl, rfl⟩ := hs
  have key : ∀ l', l < l' → l' ≤ b → ((σ l').pc t).leaving := by
    intro l'
    induction l' with
    | zero => intro h; exact absurd h (Nat.not_lt_zero _)
    | succ i ih =>
      intro h1 h2
      by_cases hil : i = l
      · subst hil
        exact (hw ▸ hr.step i (by omega)).stops_pass hp hsl ha
      · have h3 := ih (by omega) (by omega)
        by_cases hu : who i = t
        · exact (hu ▸ hr.step i (by omega)).leaving (he.running i (by omega) (by omega)) h3
        · rw [(hr.step i (by omega)).other (fun h => hu h.symm)]; exact h3
  exact fun l' h1 h2 => not_passes_leaving (key l' h1 h2)

/-- `visit_while` with a callback that says `false` at once. -/
def exWhile : Op Nat Nat := visitWhile .shared (fun _ => false) (·.2)
def exWhileRun : List (Ev Nat Nat) := go 0 5

def passing (s : State K V) (t : Nat) : Bool :=
  match s.pc t with
  | .swAt _ _ g (j :: _) _ => (s.mem.slot g j).isSome
  | _ => false

theorem passes_of {s : State K V} {t : Nat} (h : passing s t = true) : ∃ y, Passes s t y := by
  unfold passing at h
  split at h
  · rename_i m act g j js r hp
    obtain ⟨y, hy⟩ := Option.isSome_iff_exists.1 h
    exact ⟨y, m, act, g, j, js, r, hp, hy⟩
  · cases h

set_option maxRecDepth 100000 in
theorem exWhile_executes : Executes ((ex3 exWhile).trace {} exWhileRun) 0 exWhile 0 5 1 :=
  executes (ex3_reach _).2 (by decide +kernel) (by decide +kernel)
set_option maxRecDepth 100000 in
theorem exWhile_run : Run {} ((ex3 exWhile).trace {} exWhileRun) (who exWhileRun) 5 := ran (by decide +kernel)

set_option maxRecDepth 100000 in
example : exF.Lawful ∧ Reach {} exF 0 20 ((ex3 exWhile).trace {} exWhileRun 0) ∧
    Run {} ((ex3 exWhile).trace {} exWhileRun) (who exWhileRun) 5 ∧
    Executes ((ex3 exWhile).trace {} exWhileRun) 0 exWhile 0 5 1 ∧
    (0 ≤ 2 ∧ 2 < 5 ∧ who exWhileRun 2 = 0) ∧ ∃ y, Passes ((ex3 exWhile).trace {} exWhileRun 2) 0 y :=
  ⟨exF_lawful, (ex3_reach _).1, exWhile_run, exWhile_executes, by decide, passes_of (by decide +kernel)⟩

end Props.ConcTable

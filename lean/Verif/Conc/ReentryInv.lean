/-
The list of `entry_trace` objects mirrors the locks held by the thread.
-/
import Verif.Conc.Reentry

namespace Conc.Reentry
open SpecReentry

/-- the objects linked from `hd`, all at addresses below `b`, are entries of the containers `st` -/
def Chain (mem : Nat → Option Trace) : Nat → Option Nat → List Nat → Prop
  | _, none, [] => True
  | b, some a, c :: st => a < b ∧ ∃ next, mem a = some ⟨some c, next⟩ ∧ Chain mem a next st
  | _, _, _ => False

theorem Chain.frame {mem mem' : Nat → Option Trace} : ∀ {st : List Nat} {b : Nat} {hd : Option Nat}, Chain mem b hd st →
    (∀ a < b, mem' a = mem a) → Chain mem' b hd st
  | [], b, none, _, _ => trivial
  | [], b, some _, h, _ => h.elim
  | c :: st, b, none, h, _ => h.elim
  | c :: st, b, some a, h, hf => by
    obtain ⟨h1, next, h2, h3⟩ := h
    exact ⟨h1, next, by rw [hf a h1, h2], h3.frame (fun i hi => hf i (by omega))⟩

theorem Chain.mono {mem : Nat → Option Trace} {st : List Nat} {b b' : Nat} {hd : Option Nat} (h : Chain mem b hd st) (hb : b ≤ b') :
    Chain mem b' hd st := by
  cases st <;> cases hd
  · trivial
  · exact h.elim
  · exact h.elim
  · obtain ⟨h1, h2⟩ := h
    exact ⟨by omega, h2⟩

theorem findLoop_ok {mem : Nat → Option Trace} (c : Nat) : ∀ {st : List Nat} {b : Nat} {hd : Option Nat}, Chain mem b hd st →
    ∀ fuel, b ≤ fuel → findLoop mem c fuel hd = some (decide (c ∈ st))
  | [], b, none, _, fuel, _ => by cases fuel <;> simp [findLoop]
  | [], b, some _, h, _, _ => h.elim
  | _ :: st, b, none, h, _, _ => h.elim
  | d :: st, b, some a, h, fuel, hb => by
    obtain ⟨h1, next, h2, h3⟩ := h
    cases fuel with
    | zero => omega
    | succ n =>
      unfold findLoop
      rw [h2]
      simp only [Option.some.injEq]
      by_cases hd : d = c
      · simp [hd]
      · rw [if_neg hd, findLoop_ok c h3 n (by omega)]
        simp only [List.mem_cons, Option.some.injEq, decide_eq_decide]
        exact ⟨.inr, fun hh => hh.resolve_left (fun e => hd e.symm)⟩

/-- the containers a guard adds to the list -/
def entries : Guard → List Nat
  | .shared c _ | .excl c => [c]
  | .both x y => if y = x then [x] else [y, x]

theorem mem_entries {g : Guard} {c : Nat} : c ∈ entries g ↔ c ∈ g.conts := by
  cases g with
  | shared => rfl
  | excl => rfl
  | both x y =>
    simp only [entries, Guard.conts]
    by_cases h : y = x
    · simp [h]
    · simp [h, or_comm]

/-- the objects of the guard on top of the stack, as constructed -/
def Tops (sp : Nat) (hd : Option Nat) (s : TS) : Guard → Prop
  | .shared c _ | .excl c => s.sp = sp + 1 ∧ s.header = some sp ∧ s.mem sp = some ⟨some c, hd⟩
  | .both x y => s.sp = sp + 2 ∧ s.mem sp = some ⟨some x, hd⟩ ∧
      if y = x then s.header = some sp ∧ ∃ n, s.mem (sp + 1) = some ⟨none, n⟩
      else s.header = some (sp + 1) ∧ s.mem (sp + 1) = some ⟨some y, some sp⟩

/-- after `unlock()` -/
def Cleared (sp : Nat) (hd : Option Nat) (s : TS) : Guard → Prop
  | .shared _ _ | .excl _ => s.sp = sp + 1 ∧ s.header = hd ∧ ∃ n, s.mem sp = some ⟨none, n⟩
  | .both _ _ => s.sp = sp + 2 ∧ s.header = hd ∧ (∃ n, s.mem sp = some ⟨none, n⟩) ∧ ∃ n, s.mem (sp + 1) = some ⟨none, n⟩

/-- nothing below `sp` has changed -/
def Keeps (sp : Nat) (s s' : TS) : Prop := ∀ a < sp, s'.mem a = s.mem a

theorem Keeps.trans {sp : Nat} {s s' s'' : TS} (h : Keeps sp s s') (h' : Keeps sp s' s'') : Keeps sp s s'' :=
  fun a ha => (h' a ha).trans (h a ha)

theorem Keeps.weaken {sp sp' : Nat} {s s' : TS} (h : Keeps sp s s') (hb : sp' ≤ sp) : Keeps sp' s s' :=
  fun a ha => h a (by omega)

theorem enter_some {s : TS} {st : List Nat} (h : Chain s.mem s.sp s.header st) (c : Nat) :
    (c ∈ st ∧ s.enter (some c) = .fails) ∨
    (c ∉ st ∧ ∃ s', s.enter (some c) = .ok s' ∧ s'.sp = s.sp + 1 ∧ s'.header = some s.sp ∧
      s'.mem s.sp = some ⟨some c, s.header⟩ ∧ Keeps s.sp s s' ∧ Chain s'.mem s'.sp s'.header (c :: st)) := by
  unfold TS.enter
  simp only
  rw [findLoop_ok c h (s.sp + 1) (by omega)]
  by_cases hc : c ∈ st
  · left; simp [hc]
  · right
    have hk : Keeps s.sp s { s.set s.sp (some ⟨some c, s.header⟩) with sp := s.sp + 1, header := some s.sp } := by
      intro a ha
      simp [TS.set, Nat.ne_of_lt ha]
    refine ⟨hc, _, by simp [hc], rfl, rfl, by simp [TS.set], hk, by simp, s.header, by simp [TS.set], h.frame hk⟩

theorem leave_top {s : TS} {sp c : Nat} {hd : Option Nat} (h1 : s.sp = sp + 1) (h2 : s.mem sp = some ⟨some c, hd⟩) :
    ∃ s', s.leave = some s' ∧ s'.sp = sp ∧ s'.header = hd ∧ Keeps sp s s' := by
  unfold TS.leave TS.clear
  rw [h1, Nat.add_sub_cancel, h2]
  refine ⟨_, rfl, rfl, rfl, fun a ha => ?_⟩
  simp [TS.set, Nat.ne_of_lt ha]

theorem leave_null {s : TS} {sp : Nat} {n : Option Nat} (h1 : s.sp = sp + 1) (h2 : s.mem sp = some ⟨none, n⟩) :
    ∃ s', s.leave = some s' ∧ s'.sp = sp ∧ s'.header = s.header ∧ Keeps sp s s' := by
  unfold TS.leave TS.clear
  rw [h1, Nat.add_sub_cancel, h2]
  refine ⟨_, rfl, rfl, rfl, fun a ha => ?_⟩
  simp [TS.set, Nat.ne_of_lt ha]

theorem traces_ok {s : TS} {st : List Nat} (h : Chain s.mem s.sp s.header st) (g : Guard) :
    ∃ s' r, traces s g = some (s', r) ∧ Keeps s.sp s s' ∧
      match r with
      | some c => c ∈ g.conts ∧ c ∈ st ∧ s'.sp = s.sp ∧ s'.header = s.header
      | none => (∀ c ∈ g.conts, c ∉ st) ∧ Tops s.sp s.header s' g ∧ Chain s'.mem s'.sp s'.header (entries g ++ st) := by
  have one : ∀ c, ∃ s' r, (match s.enter (some c) with
      | .ub => none
      | .fails => some (s, some c)
      | .ok s' => some (s', none)) = some (s', r) ∧ Keeps s.sp s s' ∧
      match r with
      | some d => d = c ∧ c ∈ st ∧ s'.sp = s.sp ∧ s'.header = s.header
      | none => c ∉ st ∧ (s'.sp = s.sp + 1 ∧ s'.header = some s.sp ∧ s'.mem s.sp = some ⟨some c, s.header⟩) ∧
          Chain s'.mem s'.sp s'.header (c :: st) := by
    intro c
    rcases enter_some h c with ⟨hc, he⟩ | ⟨hc, s', he, h1, h2, h3, h4, h5⟩
    · exact ⟨s, some c, by rw [he], fun _ _ => rfl, rfl, hc, rfl, rfl⟩
    · exact ⟨s', none, by rw [he], h4, hc, ⟨h1, h2, h3⟩, h5⟩
  cases g with
  | shared c gs =>
    obtain ⟨s', r, e1, e2, e3⟩ := one c
    refine ⟨s', r, e1, e2, ?_⟩
    cases r with
    | some d => obtain ⟨rfl, e3⟩ := e3; exact ⟨by simp [Guard.conts], e3⟩
    | none => exact ⟨by simpa [Guard.conts] using e3.1, e3.2⟩
  | excl c =>
    obtain ⟨s', r, e1, e2, e3⟩ := one c
    refine ⟨s', r, e1, e2, ?_⟩
    cases r with
    | some d => obtain ⟨rfl, e3⟩ := e3; exact ⟨by simp [Guard.conts], e3⟩
    | none => exact ⟨by simpa [Guard.conts] using e3.1, e3.2⟩
  | both x y =>
    unfold traces
    simp only
    rcases enter_some h x with ⟨hc, he⟩ | ⟨hc, s1, he, h1, h2, h3, h4, h5⟩
    · rw [he]
      exact ⟨s, some x, rfl, fun _ _ => rfl, by simp [Guard.conts], hc, rfl, rfl⟩
    · rw [he]
      simp only
      by_cases hyx : y = x
      · subst hyx
        simp only [ne_eq, not_true_eq_false, if_false]
        refine ⟨_, none, rfl, fun a ha => ?_, by simpa [Guard.conts] using hc, ⟨by simp [TS.set, h1], ?_, ?_⟩, ?_⟩
        · simp only [TS.set]
          rw [if_neg (by omega), h4 a ha]
        · simp only [TS.set]
          rw [if_neg (by omega), h3]
        · simp only [if_true, TS.set]
          refine ⟨h2, s1.header, ?_⟩
          rw [if_pos (by omega)]
        · simp only [entries, if_true, List.singleton_append]
          refine (h5.frame (mem' := fun b => if b = s1.sp then some ⟨none, s1.header⟩ else s1.mem b) ?_).mono (Nat.le_succ _)
          intro a ha
          simp [Nat.ne_of_lt ha]
      · simp only [ne_eq, hyx, not_false_eq_true, if_true]
        rcases enter_some h5 y with ⟨hc2, he2⟩ | ⟨hc2, s2, he2, g1, g2, g3, g4, g5⟩
        · rw [he2]
          obtain ⟨s', l1, l2, l3, l4⟩ := leave_top h1 h3
          refine ⟨s', some y, by simp [l1], fun a ha => (l4 a ha).trans (h4 a ha), by simp [Guard.conts], ?_, l2, l3⟩
          simpa [hyx] using hc2
        · rw [he2]
          refine ⟨s2, none, rfl, h4.trans (g4.weaken (by omega)), ?_, ⟨by omega, ?_, ?_⟩, ?_⟩
          · intro c hcc
            simp only [Guard.conts, List.mem_cons, List.not_mem_nil, or_false] at hcc
            rcases hcc with rfl | rfl
            · exact hc
            · exact fun hh => hc2 (by simp [hh])
          · rw [g4 s.sp (by omega), h3]
          · rw [if_neg hyx, ← h1, ← h2]
            exact ⟨g2, g3⟩
          · simp only [entries, hyx, if_false]
            exact g5

theorem leaves_tops {s : TS} {sp : Nat} {hd : Option Nat} {g : Guard} (h : Tops sp hd s g) :
    ∃ s', leaves s g = some s' ∧ s'.sp = sp ∧ s'.header = hd ∧ Keeps sp s s' := by
  cases g with
  | shared c gs => exact leave_top h.1 h.2.2
  | excl c => exact leave_top h.1 h.2.2
  | both x y =>
    obtain ⟨h1, h2, h3⟩ := h
    unfold leaves
    simp only
    by_cases hyx : y = x
    · rw [if_pos hyx] at h3
      obtain ⟨h3, n, h4⟩ := h3
      obtain ⟨s1, e1, e2, e3, e4⟩ := leave_null (sp := sp + 1) h1 h4
      obtain ⟨s2, f1, f2, f3, f4⟩ := leave_top e2 ((e4 sp (by omega)).trans h2)
      rw [e1]
      exact ⟨s2, f1, f2, f3, (e4.weaken (by omega)).trans f4⟩
    · rw [if_neg hyx] at h3
      obtain ⟨h3, h4⟩ := h3
      obtain ⟨s1, e1, e2, e3, e4⟩ := leave_top (sp := sp + 1) h1 h4
      obtain ⟨s2, f1, f2, f3, f4⟩ := leave_top e2 ((e4 sp (by omega)).trans h2)
      rw [e1]
      exact ⟨s2, f1, f2, f3, (e4.weaken (by omega)).trans f4⟩

theorem leaves_cleared {s : TS} {sp : Nat} {hd : Option Nat} {g : Guard} (h : Cleared sp hd s g) :
    ∃ s', leaves s g = some s' ∧ s'.sp = sp ∧ s'.header = hd ∧ Keeps sp s s' := by
  have one : s.sp = sp + 1 ∧ s.header = hd ∧ (∃ n, s.mem sp = some ⟨none, n⟩) →
      ∃ s', s.leave = some s' ∧ s'.sp = sp ∧ s'.header = hd ∧ Keeps sp s s' := by
    rintro ⟨h1, h2, n, h3⟩
    obtain ⟨s1, e1, e2, e3, e4⟩ := leave_null h1 h3
    exact ⟨s1, e1, e2, e3.trans h2, e4⟩
  cases g with
  | shared c gs => exact one h
  | excl c => exact one h
  | both x y =>
    obtain ⟨h1, h2, ⟨n, h3⟩, m, h4⟩ := h
    unfold leaves
    simp only
    obtain ⟨s1, e1, e2, e3, e4⟩ := leave_null (sp := sp + 1) h1 h4
    obtain ⟨s2, f1, f2, f3, f4⟩ := leave_null e2 ((e4 sp (by omega)).trans h3)
    rw [e1]
    exact ⟨s2, f1, f2, f3.trans (e3.trans h2), (e4.weaken (by omega)).trans f4⟩

theorem clears_tops {s : TS} {sp : Nat} {hd : Option Nat} {g : Guard} (h : Tops sp hd s g) :
    ∃ s', clears s g = some s' ∧ Cleared sp hd s' g ∧ Keeps sp s s' := by
  have one : ∀ c, s.sp = sp + 1 ∧ s.header = some sp ∧ s.mem sp = some ⟨some c, hd⟩ →
      ∃ s', s.clear (s.sp - 1) = some s' ∧ (s'.sp = sp + 1 ∧ s'.header = hd ∧ ∃ n, s'.mem sp = some ⟨none, n⟩) ∧
        Keeps sp s s' := by
    rintro c ⟨h1, h2, h3⟩
    unfold TS.clear
    rw [h1, Nat.add_sub_cancel, h3]
    refine ⟨_, rfl, ⟨h1, rfl, hd, by simp [TS.set]⟩, fun a ha => ?_⟩
    simp [TS.set, Nat.ne_of_lt ha]
  cases g with
  | shared c gs => exact one c h
  | excl c => exact one c h
  | both x y =>
    obtain ⟨h1, h2, h3⟩ := h
    unfold clears
    simp only
    rw [h1]
    by_cases hyx : y = x
    · rw [if_pos hyx] at h3
      obtain ⟨h3, n, h4⟩ := h3
      have e1 : s.clear (sp + 2 - 1) = some s := by
        unfold TS.clear
        rw [show sp + 2 - 1 = sp + 1 from rfl, h4]
      rw [e1]
      simp only
      unfold TS.clear
      rw [Nat.add_sub_cancel, h2]
      refine ⟨_, rfl, ⟨h1, rfl, ⟨hd, by simp [TS.set]⟩, n, by simp [TS.set, h4]⟩, fun a ha => ?_⟩
      simp [TS.set, Nat.ne_of_lt ha]
    · rw [if_neg hyx] at h3
      obtain ⟨h3, h4⟩ := h3
      have e1 : s.clear (sp + 2 - 1) = some { s.set (sp + 1) (some ⟨none, some sp⟩) with header := some sp } := by
        unfold TS.clear
        rw [show sp + 2 - 1 = sp + 1 from rfl, h4]
      rw [e1]
      simp only
      unfold TS.clear
      rw [Nat.add_sub_cancel]
      have h2' : ({ s.set (sp + 1) (some ⟨none, some sp⟩) with header := some sp } : TS).mem sp = some ⟨some x, hd⟩ := by
        simp [TS.set, h2]
      rw [h2']
      refine ⟨_, rfl, ⟨h1, rfl, ⟨hd, by simp [TS.set]⟩, some sp, by simp [TS.set]⟩, fun a ha => ?_⟩
      simp only [TS.set]
      rw [if_neg (by omega), if_neg (by omega)]

/-! ### logs -/

theorem right_append : ∀ {l l' : List Ev} {held : List Guard}, Right held l → Right (after held l) l' → Right held (l ++ l')
  | [], l', held, _, h => h
  | .call g none :: l, l', held, h, h' => ⟨h.1, right_append (l := l) h.2 h'⟩
  | .call g (some c) :: l, l', held, h, h' => ⟨h.1, right_append (l := l) h.2 h'⟩
  | .locked g :: l, l', held, h, h' => ⟨h.1, right_append (l := l) h.2 h'⟩
  | .unlocked g :: l, l', [], h, h' => h.elim
  | .unlocked g :: l, l', g' :: held, h, h' => ⟨h.1, right_append (l := l) h.2 h'⟩

theorem after_append : ∀ {l l' : List Ev} {held : List Guard}, after held (l ++ l') = after (after held l) l'
  | [], l', held => rfl
  | .call g f :: l, l', held => after_append (l := l)
  | .locked g :: l, l', held => after_append (l := l)
  | .unlocked g :: l, l', held => after_append (l := l)

theorem inside_iff {held : List Guard} {c : Nat} : Inside held c ↔ c ∈ held.flatMap entries := by
  unfold Inside
  rw [List.mem_flatMap]
  constructor
  · rintro ⟨g, h1, h2⟩; exact ⟨g, h1, mem_entries.2 h2⟩
  · rintro ⟨g, h1, h2⟩; exact ⟨g, h1, mem_entries.1 h2⟩

/-- what an execution achieves -/
structure Fine (s : TS) (held : List Guard) (r : TS × End × List Ev) : Prop where
  right : Right held r.2.2
  sp : r.2.1 ≠ .aborted → r.1.sp = s.sp
  header : r.2.1 ≠ .aborted → r.1.header = s.header
  keeps : r.2.1 ≠ .aborted → Keeps s.sp s r.1
  after : r.2.1 ≠ .aborted → after held r.2.2 = held

theorem Fine.chain {s : TS} {held : List Guard} {r : TS × End × List Ev} (h : Fine s held r) {st : List Nat}
    (hc : Chain s.mem s.sp s.header st) (hr : r.2.1 ≠ .aborted) : Chain r.1.mem r.1.sp r.1.header st := by
  rw [h.sp hr, h.header hr]
  exact hc.frame (h.keeps hr)

theorem Fine.andThen {s s1 : TS} {held : List Guard} {e : End} {l : List Ev} (h : Fine s held (s1, e, l)) (he : e ≠ .aborted)
    {r : TS × End × List Ev} (h' : Fine s1 held r) : Fine s held (r.1, r.2.1, l ++ r.2.2) := by
  have ha := h.after he
  have hs := h.sp he
  simp only at ha hs
  refine ⟨right_append h.right (by rw [ha]; exact h'.right), fun hr => ?_, fun hr => ?_, fun hr => ?_, fun hr => ?_⟩
  · exact (h'.sp hr).trans hs
  · exact (h'.header hr).trans (h.header he)
  · have := h'.keeps hr
    rw [hs] at this
    exact (h.keeps he).trans this
  · simp only
    rw [after_append, ha]
    exact h'.after hr

theorem exec_fine (h : Handler) : ∀ (p : Prog) (s : TS) (held : List Guard), Chain s.mem s.sp s.header (held.flatMap entries) →
    ∃ r, exec h p s = some r ∧ Fine s held r
  | .skip, s, held, hc => ⟨_, rfl, trivial, fun _ => rfl, fun _ => rfl, fun _ _ _ => rfl, fun _ => rfl⟩
  | .throw, s, held, hc => ⟨_, rfl, trivial, fun _ => rfl, fun _ => rfl, fun _ _ _ => rfl, fun _ => rfl⟩
  | .seq p q, s, held, hc => by
    obtain ⟨⟨s1, e1, l1⟩, h1, f1⟩ := exec_fine h p s held hc
    unfold exec
    rw [h1]
    cases e1 with
    | normal =>
      have ne : End.normal ≠ .aborted := by decide
      obtain ⟨r2, h2, f2⟩ := exec_fine h q s1 held (f1.chain hc ne)
      refine ⟨(r2.1, r2.2.1, l1 ++ r2.2.2), by simp [h2], f1.andThen ne f2⟩
    | threw => exact ⟨_, rfl, f1⟩
    | aborted => exact ⟨_, rfl, f1⟩
  | .try p q, s, held, hc => by
    obtain ⟨⟨s1, e1, l1⟩, h1, f1⟩ := exec_fine h p s held hc
    unfold exec
    rw [h1]
    cases e1 with
    | threw =>
      have ne : End.threw ≠ .aborted := by decide
      obtain ⟨r2, h2, f2⟩ := exec_fine h q s1 held (f1.chain hc ne)
      refine ⟨(r2.1, r2.2.1, l1 ++ r2.2.2), by simp [h2], f1.andThen ne f2⟩
    | normal => exact ⟨_, rfl, f1⟩
    | aborted => exact ⟨_, rfl, f1⟩
  | .op g p, s, held, hc => by
    obtain ⟨s1, r, t1, t2, t3⟩ := traces_ok hc g
    unfold exec
    rw [t1]
    cases r with
    | some c =>
      obtain ⟨a1, a2, a3, a4⟩ := t3
      exact ⟨_, rfl, ⟨⟨a1, inside_iff.2 a2⟩, trivial⟩, fun _ => a3, fun _ => a4, fun _ => t2, fun _ => rfl⟩
    | none =>
      obtain ⟨a1, a2, a3⟩ := t3
      have hno : ∀ c ∈ g.conts, ¬ Inside held c := fun c hcg hin => a1 c hcg (inside_iff.1 hin)
      obtain ⟨⟨s2, e, l⟩, h2, f2⟩ := exec_fine h p s1 (g :: held) a3
      simp only [h2]
      have key : e ≠ .aborted → ∃ r, (leaves s2 g).map
          (fun s3 => (s3, e, Ev.call g none :: .locked g :: (l ++ [.unlocked g]))) = some r ∧ Fine s held r := by
        intro he
        have hsp := f2.sp he; have hhd := f2.header he; have hk := f2.keeps he; have haf := f2.after he
        simp only at hsp hhd hk haf
        have hsp1 : s.sp ≤ s1.sp := by cases g <;> have := a2.1 <;> omega
        have htop : Tops s.sp s.header s2 g := by
          cases g with
          | shared c gs => exact ⟨by rw [hsp]; exact a2.1, by rw [hhd]; exact a2.2.1, by rw [hk _ (by have := a2.1; omega)]; exact a2.2.2⟩
          | excl c => exact ⟨by rw [hsp]; exact a2.1, by rw [hhd]; exact a2.2.1, by rw [hk _ (by have := a2.1; omega)]; exact a2.2.2⟩
          | both x y =>
            refine ⟨by rw [hsp]; exact a2.1, by rw [hk _ (by have := a2.1; omega)]; exact a2.2.1, ?_⟩
            rw [hhd, hk (s.sp + 1) (by have := a2.1; omega)]
            exact a2.2.2
        obtain ⟨s3, b1, b2, b3, b4⟩ := leaves_tops htop
        have hright : Right held (Ev.call g none :: .locked g :: (l ++ [.unlocked g])) := by
          refine ⟨hno, hno, right_append f2.right ?_⟩
          rw [haf]
          exact ⟨rfl, trivial⟩
        rw [b1]
        refine ⟨(s3, e, Ev.call g none :: .locked g :: (l ++ [.unlocked g])), rfl, hright, fun _ => b2, fun _ => b3, fun _ => ?_, fun _ => ?_⟩
        · exact (t2.trans (hk.weaken hsp1)).trans b4
        · show SpecReentry.after (g :: held) (l ++ [.unlocked g]) = held
          rw [after_append, haf]
          rfl
      cases e with
      | aborted => exact ⟨_, rfl, ⟨hno, hno, f2.right⟩, fun e => (e rfl).elim, fun e => (e rfl).elim, fun e => (e rfl).elim, fun e => (e rfl).elim⟩
      | normal => exact key (by decide)
      | threw => exact key (by decide)
  | .opEarly g p q, s, held, hc => by
    obtain ⟨s1, r, t1, t2, t3⟩ := traces_ok hc g
    unfold exec
    rw [t1]
    cases r with
    | some c =>
      obtain ⟨a1, a2, a3, a4⟩ := t3
      exact ⟨_, rfl, ⟨⟨a1, inside_iff.2 a2⟩, trivial⟩, fun _ => a3, fun _ => a4, fun _ => t2, fun _ => rfl⟩
    | none =>
      obtain ⟨a1, a2, a3⟩ := t3
      have hno : ∀ c ∈ g.conts, ¬ Inside held c := fun c hcg hin => a1 c hcg (inside_iff.1 hin)
      obtain ⟨⟨s2, e, l⟩, h2, f2⟩ := exec_fine h p s1 (g :: held) a3
      simp only [h2]
      have hsp1 : s.sp ≤ s1.sp := by cases g <;> have := a2.1 <;> omega
      have htop : e ≠ .aborted → Tops s.sp s.header s2 g := by
        intro he
        have hsp := f2.sp he; have hhd := f2.header he; have hk := f2.keeps he
        simp only at hsp hhd hk
        cases g with
        | shared c gs => exact ⟨by rw [hsp]; exact a2.1, by rw [hhd]; exact a2.2.1, by rw [hk _ (by have := a2.1; omega)]; exact a2.2.2⟩
        | excl c => exact ⟨by rw [hsp]; exact a2.1, by rw [hhd]; exact a2.2.1, by rw [hk _ (by have := a2.1; omega)]; exact a2.2.2⟩
        | both x y =>
          refine ⟨by rw [hsp]; exact a2.1, by rw [hk _ (by have := a2.1; omega)]; exact a2.2.1, ?_⟩
          rw [hhd, hk (s.sp + 1) (by have := a2.1; omega)]
          exact a2.2.2
      cases e with
      | aborted => exact ⟨_, rfl, ⟨hno, hno, f2.right⟩, fun e => (e rfl).elim, fun e => (e rfl).elim, fun e => (e rfl).elim, fun e => (e rfl).elim⟩
      | threw =>
        have he : End.threw ≠ .aborted := by decide
        obtain ⟨s3, b1, b2, b3, b4⟩ := leaves_tops (htop he)
        have haf := f2.after he
        simp only at haf
        have hright : Right held (Ev.call g none :: .locked g :: (l ++ [.unlocked g])) := by
          refine ⟨hno, hno, right_append f2.right ?_⟩
          rw [haf]
          exact ⟨rfl, trivial⟩
        simp only [b1]
        refine ⟨(s3, .threw, Ev.call g none :: .locked g :: (l ++ [.unlocked g])), rfl, hright, fun _ => b2, fun _ => b3, fun _ => ?_, fun _ => ?_⟩
        · exact (t2.trans ((f2.keeps he).weaken hsp1)).trans b4
        · show SpecReentry.after (g :: held) (l ++ [.unlocked g]) = held
          rw [after_append, haf]
          rfl
      | normal =>
        have he : End.normal ≠ .aborted := by decide
        obtain ⟨s3, c1, c2, c3⟩ := clears_tops (htop he)
        simp only [c1]
        have haf := f2.after he
        simp only at haf
        have hk3 : Keeps s.sp s s3 := (t2.trans ((f2.keeps he).weaken hsp1)).trans c3
        have hsp3 : s.sp ≤ s3.sp := by cases g <;> have := c2.1 <;> omega
        have hhd3 : s3.header = s.header := by cases g <;> exact c2.2.1
        have hc3 : Chain s3.mem s3.sp s3.header (held.flatMap entries) := by
          rw [hhd3]; exact (hc.frame hk3).mono hsp3
        obtain ⟨⟨s4, e4, l4⟩, h4, f4⟩ := exec_fine h q s3 held hc3
        simp only [h4]
        have hright : Right held (Ev.call g none :: .locked g :: (l ++ .unlocked g :: l4)) := by
          refine ⟨hno, hno, right_append f2.right ?_⟩
          rw [haf]; exact ⟨rfl, f4.right⟩
        have key : e4 ≠ .aborted → ∃ r, (leaves s4 g).map
            (fun s5 => (s5, e4, Ev.call g none :: .locked g :: (l ++ .unlocked g :: l4))) = some r ∧ Fine s held r := by
          intro he4
          have hsp := f4.sp he4; have hhd := f4.header he4; have hk := f4.keeps he4; have haf4 := f4.after he4
          simp only at hsp hhd hk haf4
          have hcl : Cleared s.sp s.header s4 g := by
            cases g with
            | shared c gs => exact ⟨by rw [hsp]; exact c2.1, by rw [hhd]; exact c2.2.1, by rw [hk _ (by have := c2.1; omega)]; exact c2.2.2⟩
            | excl c => exact ⟨by rw [hsp]; exact c2.1, by rw [hhd]; exact c2.2.1, by rw [hk _ (by have := c2.1; omega)]; exact c2.2.2⟩
            | both x y =>
              exact ⟨by rw [hsp]; exact c2.1, by rw [hhd]; exact c2.2.1, by rw [hk _ (by have := c2.1; omega)]; exact c2.2.2.1,
                by rw [hk _ (by have := c2.1; omega)]; exact c2.2.2.2⟩
          obtain ⟨s5, b1, b2, b3, b4⟩ := leaves_cleared hcl
          rw [b1]
          refine ⟨(s5, e4, Ev.call g none :: .locked g :: (l ++ .unlocked g :: l4)), rfl, hright, fun _ => b2, fun _ => b3, fun _ => (hk3.trans (hk.weaken hsp3)).trans b4, fun _ => ?_⟩
          show SpecReentry.after (g :: held) (l ++ .unlocked g :: l4) = held
          rw [after_append, haf]
          exact haf4
        cases e4 with
        | aborted => exact ⟨_, rfl, hright, fun e => (e rfl).elim, fun e => (e rfl).elim, fun e => (e rfl).elim, fun e => (e rfl).elim⟩
        | normal => exact key (by decide)
        | threw => exact key (by decide)

end Conc.Reentry

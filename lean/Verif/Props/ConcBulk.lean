/-
Bulk visitation (C32). `BReach cfg f al n s` ranges over every state any number of threads can reach from a new container, in any
interleaving, executing ordinary operations and bulk visits; `BRun` over every continuation.
Whole-table visitation (the other half of C32) is C44 in `Verif.Props.ConcTable`.
-/
import Verif.Conc.BulkRef
import Verif.Conc.BulkRun
import Verif.Props.ConcTable

namespace Props.ConcBulk
open Conc.Tab Foa SpecT
open Conc.Locking (Mode)

variable {K V : Type}

/-! ### vocabulary -/

/-- The elements of the container. -/
def Elems (s : BState K V) : Con K V := fun x => ∃ g j, s.mem.slot g j = some x

/-- Thread `t` calls the bulk visit `b` (state `a`) and returns from it with the answer `r` (state `e`). -/
structure Executes (σ : Nat → BState K V) (t : Nat) (b : BOp K V) (a e r : Nat) : Prop where
  le : a ≤ e
  called : ((σ a).th t).ctl = .call b
  returned : ((σ e).th t).ctl = .ret r
  running : ∀ i, a ≤ i → i < e → ∀ r', ((σ i).th t).ctl ≠ .ret r'

/-- Thread `t` is about to call the callback of its bulk visit, for key number `i` of the range, on the element `y`. -/
def CallsBack (s : BState K V) (t i : Nat) (y : K × V) : Prop :=
  ∃ o pb j, (s.th t).v i = .hit o pb j ∧ s.mem.slot pb.pos j = some y

/-- `visit` may write, `cvisit` may not. -/
def writes : Mode → Bool
  | .shared => false
  | .excl => true

/-- In step `l` thread `t` calls the callback `g` for key number `i` of its range on an element with a key equivalent to `k`, and
the step does nothing else to the contents. -/
def VisitsAt (eq : K → K → Bool) (σ : Nat → BState K V) (who : Nat → Nat) (t i : Nat) (m : Mode) (k : K) (g : K × V → V)
    (l : Nat) : Prop :=
  who l = t ∧ ∃ y, CallsBack (σ l) t i y ∧ Elems (σ l) y ∧ eq k y.1 = true ∧
    Replaced (Elems (σ l)) (Elems (σ (l + 1))) y (y.1, if writes m then g y else y.2)

/-! ### helper lemmas -/

theorem flat_reach {cfg : Cfg} {f : Fns K} {al c : Nat} {s : BState K V} (h : BReach cfg f al c s) (part : Nat → Option Nat) :
    Reach cfg f al c (s.flat (helpers part 0)) := by rw [helpers_zero]; exact h.flat

theorem movers_pid {who : Nat → Nat} {part : Nat → Option Nat} {l t x : Nat} (h : movers who part l = pid t x) :
    who l = t ∧ part l = some x := by
  unfold movers at h
  split at h
  · rename_i y hy
    obtain ⟨h1, h2⟩ := pid_inj.1 h
    exact ⟨h1, by rw [hy, h2]⟩
  · unfold pid at h; omega

theorem calls_flat {s : BState K V} {D : Nat → Pc K V} {t i : Nat} {y : K × V} :
    Calls (s.flat D) (pid t (i + 1)) y ↔ CallsBack s t i y := by
  unfold Calls CallsBack
  rw [flat_pid]
  rfl

/-- While the callback is about to be called, the thread's next step is the call. -/
theorem calls_moves {cfg : Cfg} {σ : Nat → BState K V} {who : Nat → Nat} {n : Nat} {part : Nat → Option Nat}
    (hr : BRun cfg σ who n) (hrf : Run cfg (fun i => (σ i).flat (helpers part i)) (movers who part) n)
    {t i l : Nat} {y : K × V} (hl : l < n) (hw : who l = t) (hok : ((σ l).th t).Ok) (hb : ((σ l).th t).ctl.rest = false)
    (hc : CallsBack (σ l) t i y) : movers who part l = pid t (i + 1) := by
  obtain ⟨o, pb, j, hv, hy⟩ := hc
  have hcur : ((σ l).th t).ctl.cur = some i := by
    by_contra hne
    have := hok.locks.1 i hne
    rw [hv] at this; cases this
  by_contra hne
  have hstay := (hrf.step l hl).other (t := pid t (i + 1)) (fun e => hne e.symm)
  change ((σ (l + 1)).flat _).pc _ = ((σ l).flat _).pc _ at hstay
  rw [flat_pid, flat_pid] at hstay
  change ((σ (l + 1)).th t).v i = ((σ l).th t).v i at hstay
  have hst := hr.step l hl
  rw [hw] at hst
  have hbs := hst.in_bulk hb
  rw [hv] at hstay
  obtain ⟨hsr, _, h3⟩ := hok
  generalize hx' : (σ (l + 1)).th t = x' at hbs hstay
  generalize (σ (l + 1)).mem = mm at hbs
  cases hbs with
  | call b _ hc => rw [hc] at hb; cases hb
  | enter b hc => rw [hc] at hcur; cases hcur
  | hashKey b lo hi i' acc k hc =>
    rw [hc] at hcur; cases hcur
    simp [BTh.setV] at hstay
  | hash b lo hi i' acc o' hc hv' =>
    rw [hc] at hcur; cases hcur
    rw [hv'] at hv; cases hv
  | hashEnd b lo hi acc hc =>
    rw [hc] at hcur h3; cases hcur
    have := h3.2.2.2.2.2 i (by omega) (by simp)
    rw [hv] at this; cases this
  | read b lo hi i' acc o' c pb' todo ac p' hc hi' hv' =>
    rw [hc] at hcur; cases hcur
    rw [hv'] at hv; cases hv
  | readNext b lo hi i' acc o' c pb' ac hc hi' hv' =>
    rw [hc] at hcur; cases hcur
    rw [hv'] at hv; cases hv
  | readEnd b lo hi acc hc =>
    rw [hc] at hcur h3; cases hcur
    have := h3.2.2.2.2 i (by omega)
    rw [hv] at this; cases this
  | quiet b lo hi i' acc p' hc hi' hr' hq =>
    rw [hc] at hcur; cases hcur
    rw [hv] at hq
    cases hq with
    | hitBad _ _ _ hn => rw [hy] at hn; cases hn
  | eff b lo hi i' acc m' p' hc hi' hq =>
    rw [hc] at hcur; cases hcur
    simp only [BTh.setV, if_true] at hstay
    subst hstay
    rw [hv] at hq
    cases hq
  | next b lo hi i' acc r hc hi' hv' =>
    rw [hc] at hcur; cases hcur
    rw [hv'] at hv; cases hv
  | visitEnd b lo hi acc hc =>
    rw [hc] at hcur h3; cases hcur
    have := h3.2.2.2.2 i (by omega)
    rw [hv] at this; cases this
  | leave acc hc => rw [hc] at hcur; cases hcur

/-! ### C32 -/

/-- A bulk visit over a range of keys, of any length, whatever other threads do: there is an answer of 0 or 1 for each key; their
sum is returned; the answer for a key is 1 if the callback is called for it, which happens exactly once, on an equivalent element
in the container at that instant, and does to the contents what the callback does; it is 0 if the callback is not called for it,
and then the key was absent at some instant of the call. -/
theorem C32_bulk_visit {cfg : Cfg} {f : Fns K} (hf : f.Lawful) {al c : Nat} {σ : Nat → BState K V} {who : Nat → Nat} {n : Nat}
    (h0 : BReach cfg f al c (σ 0)) (hr : BRun cfg σ who n) {t : Nat} {b : BOp K V} {a e r : Nat}
    (he : Executes σ t b a e r) (hn : e ≤ n) :
    ∃ rs : List Nat, rs.length = b.ks.length ∧ r = rs.sum ∧ ∀ i k q, b.ks[i]? = some k → rs[i]? = some q →
      (q = 1 ∧ ∃ l, a ≤ l ∧ l < e ∧ VisitsAt f.eq σ who t i b.md k b.f l ∧
        ∀ l', a ≤ l' → l' < e → who l' = t → ∀ y, CallsBack (σ l') t i y → l' = l) ∨
      (q = 0 ∧ (∃ l, a ≤ l ∧ l ≤ e ∧ ¬ Present f.eq (Elems (σ l)) k) ∧
        ∀ l, a ≤ l → l < e → who l = t → ∀ y, ¬ CallsBack (σ l) t i y) := by
  have hok := hr.ok h0.ok
  obtain ⟨part, hrf⟩ := hr.flat h0.ok
  have hi0 : SInv ((σ 0).flat (helpers part 0)) := (flat_reach h0 part).inv hf
  have hfn0 : (σ 0).mem.tab.fns = f := (flat_reach h0 part).fns hf
  have hfn : ∀ i ≤ n, (σ i).mem.tab.fns = f := fun i hi => (hrf.fns hi0 i hi).trans hfn0
  have hprog := bulk_prog hr h0.ok he.called hn he.running
  have hend := hprog e he.le le_rfl
  rw [he.returned] at hend
  obtain ⟨rs, h1, h2, h3⟩ := hend
  refine ⟨rs, h1, h2.symm, fun i k q hk hq => ?_⟩
  obtain ⟨k', hk', s, e', hs, hse, hee, hnd, hdone⟩ := h3 i q hq
  rw [hk] at hk'
  cases hk'
  have hpc : ∀ m, ((σ m).flat (helpers part m)).pc (pid t (i + 1)) = srchOf σ t i m := fun m => flat_pid _ _ _ _
  have hsub := Props.ConcTable.Run.sub hrf hse (by omega)
  have his := hrf.inv hi0 s (by omega)
  have hcalled : ((σ (s + 0)).flat (helpers part (s + 0))).pc (pid t (i + 1)) = .start (.key (b.op k)) := by
    rw [Nat.add_zero, hpc]; exact hs.start
  have hrun : ∀ m < e' - s, ∀ r, ((σ (s + m)).flat (helpers part (s + m))).pc (pid t (i + 1)) ≠ .done r := by
    intro m hm r
    rw [hpc]
    exact hnd (s + m) (by omega) (by omega) r
  have hfin : ((σ (s + (e' - s))).flat (helpers part (s + (e' - s)))).pc (pid t (i + 1)) = .done q := by
    rw [hpc, Nat.add_sub_cancel' hse]
    exact hdone e' le_rfl hee
  have hcalls := calls_run hsub (t := pid t (i + 1)) (o := b.op k) his rfl hcalled hrun (e' - s) le_rfl
  have hlin := lin_points hsub (t := pid t (i + 1)) (o := b.op k) his hcalled hrun (e' - s) le_rfl
  have has := hs.le
  -- outside the search's life span the callback is not called
  have hout : ∀ l, a ≤ l → l < e → ∀ y, CallsBack (σ l) t i y → s ≤ l ∧ l < e' := by
    rintro l hl hle y ⟨o, pb, j, hv, _⟩
    by_contra hcon
    rcases Nat.lt_or_ge l s with hls | hls
    · have := hs.before l hl hls
      rw [show srchOf σ t i l = _ from hv] at this; cases this
    · have := hdone l (by omega) (by omega)
      rw [show srchOf σ t i l = _ from hv] at this; cases this
  have hmv : ∀ l, a ≤ l → l < e → who l = t → ∀ y, CallsBack (σ l) t i y → movers who part l = pid t (i + 1) := by
    intro l hl hle hw y hy
    exact calls_moves hr hrf (by omega) hw (hok l (by omega) t) ((hprog l hl (by omega)).busy (he.running l hl hle)) hy
  rcases hcalls with ⟨h4, _⟩ | ⟨q', h4, h5⟩
  · rw [hfin] at h4; cases h4
  rw [hfin] at h4
  cases h4
  rcases h5 with ⟨rfl, l, hl, hw, ⟨y, pb, j, hq1, hq2, hq3⟩, hun⟩ | ⟨rfl, hno⟩
  · left
    have hw' := (movers_pid hw).1
    refine ⟨rfl, s + l, by omega, by omega, ⟨hw', y, calls_flat.1 ⟨_, _, _, hq1, hq2⟩, ⟨_, _, hq2⟩, ?_, ?_⟩, fun l' h6 h7 h8 z hz => ?_⟩
    · have := hfn s (by omega)
      change (σ s).mem.tab.fns.eq k y.1 = true at hq3
      rw [this] at hq3
      exact hq3
    · have hst := hrf.step (s + l) (by omega)
      rw [hw] at hst
      have hil := hrf.inv hi0 (s + l) (by omega)
      have hm1 : Elems (σ (s + l + 1)) = ((σ (s + l + 1)).flat (helpers part (s + l + 1))).mem.elems := rfl
      rw [hm1]
      generalize (σ (s + l + 1)).flat (helpers part (s + l + 1)) = s1 at hst
      cases hst with
      | quiet h =>
        rw [hq1] at h
        cases h with
        | hitBad _ _ _ hn => rw [hq2] at hn; cases hn
      | @eff m' pc' h =>
        rw [hq1] at h
        simp only [BOp.op] at h
        cases h with
        | visit _ _ _ _ _ y' hy' =>
          rw [hq2] at hy'
          cases hy'
          have := elems_call hil.shape hil.law (md := b.md) (v := b.f y) hq2
          rw [show writes b.md = Mode.wr b.md by cases b.md <;> rfl]
          exact this
      | alone _ h => rw [hq1] at h; cases h
    · obtain ⟨h9, h10⟩ := hout l' h6 h7 z hz
      have h11 := hmv l' h6 h7 h8 z hz
      have := hun (l' - s) (by omega) (by rw [Nat.add_sub_cancel' h9]; exact h11) z
        (by rw [Nat.add_sub_cancel' h9]; exact calls_flat.2 hz)
      omega
  · right
    refine ⟨rfl, ?_, fun l hl hle hw y hy => ?_⟩
    · rcases hlin with ⟨h4, _⟩ | ⟨q', h4, h5⟩
      · rw [hfin] at h4; cases h4
      rw [hfin] at h4
      cases h4
      rcases h5 with ⟨l, hl, hw, hsp, _⟩ | ⟨_, _, ⟨l, hl, hno⟩, _⟩
      · refine ⟨s + l, by omega, by omega, ?_⟩
        rcases hsp with ⟨y, _, _, _, hq⟩ | ⟨h6, _⟩
        · cases hq
        · have h7 : ((σ (s + 0)).flat (helpers part (s + 0))).mem.tab.fns = f := hfn s (by omega)
          rw [h7] at h6
          exact h6
      · refine ⟨s + l, by omega, by omega, ?_⟩
        have h6 := noKey_iff.1 hno
        rw [show ((σ (s + l)).flat (helpers part (s + l))).mem.tab.fns = f from hfn _ (by omega)] at h6
        exact h6
    · obtain ⟨h9, h10⟩ := hout l hl hle y hy
      exact hno (l - s) (by omega) (by rw [Nat.add_sub_cancel' h9]; exact hmv l hl hle hw y hy) y
        (by rw [Nat.add_sub_cancel' h9]; exact calls_flat.2 hy)

/-- A thread calls the callback of its bulk visit for one key at a time; and no other step it makes during the bulk visit changes
the contents. -/
theorem C32_bulk_effect {cfg : Cfg} {f : Fns K} {al c : Nat} {σ : Nat → BState K V} {who : Nat → Nat} {n : Nat}
    (h0 : BReach cfg f al c (σ 0)) (hr : BRun cfg σ who n) {t : Nat} {b : BOp K V} {a e r : Nat} (he : Executes σ t b a e r)
    (hn : e ≤ n) {l : Nat} (hl : a ≤ l) (hle : l < e) :
    (∀ i j y z, CallsBack (σ l) t i y → CallsBack (σ l) t j z → i = j ∧ y = z) ∧
    (who l = t → (∃ i y, CallsBack (σ l) t i y) ∨ Same (Elems (σ l)) (Elems (σ (l + 1)))) := by
  have hok := hr.ok h0.ok l (by omega) t
  constructor
  · rintro i j y z ⟨o, pb, q, hv, hy⟩ ⟨o', pb', q', hv', hz⟩
    have key : ∀ {i : Nat} {o : KOp K V} {pb : Prober} {q : Nat}, ((σ l).th t).v i = .hit o pb q → ((σ l).th t).ctl.cur = some i := by
      intro i o pb q hv
      by_contra hne
      have := hok.locks.1 i hne
      rw [hv] at this; cases this
    have h1 := key hv
    rw [key hv'] at h1
    cases h1
    rw [hv] at hv'
    cases hv'
    rw [hy] at hz
    cases hz
    exact ⟨rfl, rfl⟩
  · intro hw
    have hst := hr.step l (by omega)
    rw [hw] at hst
    have hb := hst.in_bulk ((bulk_prog hr h0.ok he.called hn he.running l hl (by omega)).busy (he.running l hl hle))
    have hsr := hok.1
    unfold Elems
    generalize hx' : (σ (l + 1)).th t = x' at hb
    generalize (σ (l + 1)).mem = mm at hb ⊢
    cases hb with
    | eff b lo hi i acc m' p' hc hi' hq =>
      left
      have hsi := hsr i
      generalize hv : ((σ l).th t).v i = p at hq hsi
      cases hq with
      | visit md k f pb j y hy => exact ⟨i, y, _, _, _, hv, hy⟩
      | _ => cases hsi
    | _ => exact .inr (Same.rfl' _)

/-- Keys that are present all the time are visited, keys that are absent all the time are not; so if the keys of the range do not
come and go, the answer is the number of those (counted as often as they occur in the range) that are present. -/
theorem C32_bulk_exact {cfg : Cfg} {f : Fns K} (hf : f.Lawful) {al c : Nat} {σ : Nat → BState K V} {who : Nat → Nat} {n : Nat}
    (h0 : BReach cfg f al c (σ 0)) (hr : BRun cfg σ who n) {t : Nat} {b : BOp K V} {a e r : Nat}
    (he : Executes σ t b a e r) (hn : e ≤ n) {there : K → Bool}
    (hst : ∀ k ∈ b.ks, ∀ l, a ≤ l → l ≤ e → (there k = true ↔ Present f.eq (Elems (σ l)) k)) :
    r = b.ks.countP there ∧ ∀ i k, b.ks[i]? = some k →
      (there k = true → ∃ l, a ≤ l ∧ l < e ∧ VisitsAt f.eq σ who t i b.md k b.f l ∧
        ∀ l', a ≤ l' → l' < e → who l' = t → ∀ y, CallsBack (σ l') t i y → l' = l) ∧
      (there k = false → ∀ l, a ≤ l → l < e → who l = t → ∀ y, ¬ CallsBack (σ l) t i y) := by
  obtain ⟨rs, h1, h2, h3⟩ := C32_bulk_visit hf h0 hr he hn
  have key : ∀ (i : Nat) (k : K) (q : Nat), b.ks[i]? = some k → rs[i]? = some q → q = if there k then 1 else 0 := by
    intro i k q hk hq
    have hmem := List.mem_of_getElem? hk
    rcases h3 i k q hk hq with ⟨rfl, l, ha, hl, ⟨_, y, _, hy, hey, _⟩, _⟩ | ⟨rfl, ⟨l, ha, hl, hno⟩, _⟩
    · rw [if_pos ((hst k hmem l ha (by omega)).2 ⟨y, hy, hey⟩)]
    · rw [if_neg (fun h => hno ((hst k hmem l ha hl).1 h))]
  constructor
  · rw [h2]
    have : ∀ (ks : List K) (rs : List Nat), rs.length = ks.length →
        (∀ (i : Nat) (k : K) (q : Nat), ks[i]? = some k → rs[i]? = some q → q = if there k then 1 else 0) → rs.sum = ks.countP there := by
      intro ks
      induction ks with
      | nil => intro rs h _; cases rs with | nil => rfl | cons => cases h
      | cons k ks ih =>
        intro rs h hk
        cases rs with
        | nil => cases h
        | cons q rs =>
          have := ih rs (by simpa using h) (fun i k' q' h1 h2 => hk (i + 1) k' q' h1 h2)
          rw [List.sum_cons, List.countP_cons, this, hk 0 k q rfl rfl, Nat.add_comm]
    exact this _ _ h1 key
  · intro i k hk
    have hlt : i < rs.length := by rw [h1]; exact (List.getElem?_eq_some_iff.1 hk).1
    have hq := List.getElem?_eq_getElem hlt
    have hv := key i k _ hk hq
    refine ⟨fun ht => ?_, fun ht => ?_⟩
    · rcases h3 i k _ hk hq with ⟨_, h⟩ | ⟨h, _⟩
      · exact h
      · rw [hv, if_pos ht] at h; cases h
    · rcases h3 i k _ hk hq with ⟨h, _⟩ | ⟨_, _, h⟩
      · rw [hv, if_neg (by simp [ht])] at h; cases h
      · exact h

/-! ### example: a bulk visit during an insertion -/

open Props.ConcTable (exF exF_lawful exInsert)

/-- Thread 1 has inserted key 1. Thread 0 calls `visit` with the keys 1, 2, 1 and a callback that adds one; thread 1 inserts key 3
in the meantime. -/
def exBulk : BOp Nat Nat := ⟨.excl, [1, 2, 1], fun y => y.2 + 1⟩
def ex0 : BSys Nat Nat := BSys.init {} exF 0 20 2 3
def go (t n : Nat) : List (BEv Nat Nat) := List.replicate n (.go t)
def exBefore : List (BEv Nat Nat) := .op 1 (.key (exInsert 1 10)) :: go 1 26 ++ [.op 1 (.key (exInsert 3 30)), .bulk 0 exBulk]
def ex1 : BSys Nat Nat := (ex0.run exBefore).getD ex0
def exEvents : List (BEv Nat Nat) := go 0 30 ++ go 1 20 ++ go 0 20 ++ go 1 6 ++ go 0 27
def exσ (i : Nat) : BState Nat Nat := ex1.trace exEvents i

def answerOf : Ctl K V → Option Nat
  | .ret r => some r
  | _ => none

theorem answerOf_eq {c : Ctl K V} {r : Nat} (h : answerOf c = some r) : c = .ret r := by
  cases c <;> simp only [answerOf] at h <;> cases h; rfl

set_option maxRecDepth 100000 in
theorem ex1_reach : BReach {} exF 0 20 ex1.state ∧ (ex1.state.th 0).ctl = .call exBulk := by
  have h : (ex0.run exBefore).isSome = true := by decide +kernel
  obtain ⟨S, hS⟩ := Option.isSome_iff_exists.1 h
  constructor
  · rw [ex1, hS]
    exact BSys.run_reach (S := ex0) (by rw [ex0, BSys.init_state]; exact .init) hS
  · have h1 : exBefore = (.op 1 (.key (exInsert 1 10)) :: go 1 26 ++ [.op 1 (.key (exInsert 3 30))]) ++ [.bulk 0 exBulk] := rfl
    rw [h1, BSys.run_append, Option.bind_eq_some_iff] at hS
    obtain ⟨S1, _, h2⟩ := hS
    simp only [BSys.run, List.foldlM_cons, List.foldlM_nil, Option.bind_eq_bind, Option.bind_eq_some_iff] at h2
    obtain ⟨S2, h3, h4⟩ := h2
    cases h4
    have h5 : ex1 = S := by
      rw [ex1, h1, BSys.run_append]
      rename_i h6
      rw [h6, Option.bind_some]
      simp only [BSys.run, List.foldlM_cons, List.foldlM_nil, h3]
      rfl
    rw [h5]
    simp only [BSys.step] at h3
    split at h3
    · rename_i ht
      split at h3
      · cases h3
        rw [BSys.put_state (t := 0) ht.1]
        simp [BState.set, FTh.th]
      · cases h3
    · cases h3

set_option maxRecDepth 100000 in
theorem ex_run : BRun {} exσ (bwho exEvents) 103 := by
  have h : (ex1.run exEvents).isSome = true := by decide +kernel
  obtain ⟨S, hS⟩ := Option.isSome_iff_exists.1 h
  exact BSys.trace_run hS

set_option maxRecDepth 100000 in
theorem ex_executes : Executes exσ 0 exBulk 0 103 2 := by
  refine ⟨by decide, ex1_reach.2, answerOf_eq (by decide +kernel), fun i _ hi r hr => ?_⟩
  have : ∀ i < 103, answerOf ((exσ i).th 0).ctl = none := by decide +kernel
  have := this i hi
  rw [hr] at this
  cases this

example : exF.Lawful ∧ BReach {} exF 0 20 (exσ 0) ∧ BRun {} exσ (bwho exEvents) 103 ∧ Executes exσ 0 exBulk 0 103 2 :=
  ⟨exF_lawful, ex1_reach.1, ex_run, ex_executes⟩

set_option maxRecDepth 100000 in
/-- Key 1 is there all the time, key 2 never; the answer is 2. -/
example : ∀ k ∈ exBulk.ks, ∀ l, 0 ≤ l → l ≤ 103 → ((k == 1) = true ↔ Present exF.eq (Elems (exσ l)) k) := by
  intro k hk l _ hl
  have hinv : SInv ((exσ l).flat still) := by
    have : ∀ i ≤ 103, BReach {} exF 0 20 (exσ i) := by
      intro i
      induction i with
      | zero => intro _; exact ex1_reach.1
      | succ i ih => intro hi; exact .step (ih (by omega)) (ex_run.nowrap i (by omega)) (ex_run.step i (by omega))
    exact (this l hl).flat.inv exF_lawful
  have h1 : ∀ l < 104, ∃ g < 2, ∃ j < 15, ((exσ l).mem.slot g j).map (·.1) = some 1 := by decide +kernel
  have h2 : ∀ l < 104, (exσ l).mem.tab.arr.k = 1 ∧ ∀ g < 2, ∀ j < 15, ((exσ l).mem.slot g j).map (·.1) ≠ some 2 := by decide +kernel
  simp only [exBulk, List.mem_cons, List.not_mem_nil, or_false] at hk
  have hp : Present exF.eq (Elems (exσ l)) 1 := by
    obtain ⟨g, _, j, _, h⟩ := h1 l (by omega)
    simp only [Option.map_eq_some_iff] at h
    obtain ⟨y, hy, hy1⟩ := h
    exact ⟨y, ⟨g, j, hy⟩, by simp [exF, hy1]⟩
  rcases hk with rfl | rfl | rfl
  · simpa using hp
  · constructor
    · intro h; cases h
    · rintro ⟨y, ⟨g, j, hy⟩, hy2⟩
      have hv := (hinv.shape.live (m := (exσ l).mem) hy).2.valid hy
      rw [(h2 l (by omega)).1] at hv
      have := (h2 l (by omega)).2 g hv.1 j hv.2.1
      rw [hy] at this
      simp only [exF, beq_iff_eq] at hy2
      simp [← hy2] at this
  · simpa using hp

end Props.ConcBulk

/-
Welford's algorithm computes the mean and the variance.
-/
import Verif.Foa.Stats
import Mathlib.Tactic.FieldSimp
import Mathlib.Tactic.Ring
import Mathlib.Tactic.Linarith
import Mathlib.Data.Rat.Cast.Order

namespace Foa
open SpecStats

/-- sum of the squared distances to the mean -/
def dev (l : List Rat) : Rat := (l.map (fun x => (x - mean l) ^ 2)).sum

/-- the state of a sequence after the data `l` -/
def SeqData.Ok (d : SeqData) (l : List Rat) : Prop := d.m = mean l ∧ d.s = dev l

theorem sum_sq (c : Rat) : ∀ l : List Rat,
    (l.map (fun x => (x - c) ^ 2)).sum = (l.map (fun x => x ^ 2)).sum - 2 * c * l.sum + l.length * c ^ 2
  | [] => by simp
  | x :: l => by
    simp only [List.map_cons, List.sum_cons, List.length_cons, sum_sq c l]
    push_cast
    ring

theorem welford_ok {d : SeqData} {l : List Rat} (h : d.Ok l) (x : Rat) : (welford (l.length + 1) x d).Ok (l ++ [x]) := by
  obtain ⟨hm, hs⟩ := h
  by_cases hl : l = []
  · subst hl
    have e1 : d.m = 0 := by rw [hm]; rfl
    have e2 : d.s = 0 := by rw [hs]; rfl
    constructor <;> simp [welford, mean, dev, e1, e2]
  · have hne : (l.length : Rat) ≠ 0 := by
      have : 0 < l.length := List.length_pos_iff.2 hl
      exact_mod_cast this.ne'
    have hne1 : (l.length : Rat) + 1 ≠ 0 := by
      have h0 : (0 : Rat) ≤ l.length := Nat.cast_nonneg _
      linarith
    have hn1 : l.length + 1 ≠ 1 := by
      have : 0 < l.length := List.length_pos_iff.2 hl
      omega
    have em : mean l = l.sum / l.length := by simp [mean, hl]
    have em' : mean (l ++ [x]) = (l.sum + x) / (l.length + 1) := by simp [mean]
    constructor
    · simp only [welford, hm, em, em']
      push_cast
      field_simp
      ring
    · simp only [welford, hm, hs, dev, sum_sq, em, em']
      simp only [List.map_append, List.sum_append, List.length_append]
      simp [hl]
      field_simp
      ring

/-- column `i` of a table of data -/
def col (i : Nat) (rows : List (List Rat)) : List Rat := rows.map (fun r => r.getD i 0)

/-- the state of a `cumulative_stats<k>` after the rows of data -/
structure Cumul.Ok (c : Cumul) (k : Nat) (rows : List (List Rat)) : Prop where
  n : c.n = rows.length
  len : c.data.length = k
  seq : ∀ (i : Nat) (d : SeqData), c.data[i]? = some d → d.Ok (col i rows)

theorem Cumul.fresh_ok (k : Nat) : (Cumul.fresh k).Ok k [] := by
  refine ⟨rfl, by simp [Cumul.fresh], ?_⟩
  intro i d h
  simp only [Cumul.fresh, List.getElem?_replicate] at h
  split at h
  · cases h; exact ⟨rfl, rfl⟩
  · cases h

theorem zip_ok {n k : Nat} {data : List SeqData} {rows : List (List Rat)} (hl : data.length = k)
    (hs : ∀ (i : Nat) (d : SeqData), data[i]? = some d → d.Ok (col i rows)) (hn : n = rows.length + 1) {xs : List Rat} (hx : xs.length = k) :
    (Cumul.mk n (List.zipWith (fun x d => welford n x d) xs data)).Ok k (rows ++ [xs]) := by
  refine ⟨by simp [hn], by simp [hl, hx], ?_⟩
  intro i d h
  rw [List.getElem?_zipWith_eq_some] at h
  obtain ⟨x, d0, h1, h2, rfl⟩ := h
  have hlen : n = (col i rows).length + 1 := by simp [col, hn]
  have e : col i (rows ++ [xs]) = col i rows ++ [x] := by simp [col, h1]
  rw [e, hlen]
  exact welford_ok (hs i d0 h2) x

theorem Cumul.add_ok {c : Cumul} {k : Nat} {rows : List (List Rat)} (h : c.Ok k rows) {xs : List Rat} (hx : xs.length = k)
    (hn : rows.length < 2 ^ 64) :
    (c.add xs).Ok k (if rows.length + 1 < 2 ^ 64 then rows ++ [xs] else [xs]) := by
  unfold Cumul.add
  have e := h.n
  by_cases hw : rows.length + 1 < 2 ^ 64
  · have e1 : (c.n + 1) % 2 ^ 64 = rows.length + 1 := by rw [e]; exact Nat.mod_eq_of_lt hw
    simp only [hw, if_true, e1]
    rw [if_neg (by omega)]
    exact zip_ok h.len h.seq rfl hx
  · have e1 : (c.n + 1) % 2 ^ 64 = 0 := by rw [e]; omega
    simp only [hw, if_false, e1, if_true]
    have hf := Cumul.fresh_ok c.data.length
    exact zip_ok (rows := []) (hf.len.trans h.len) hf.seq rfl hx

theorem accounted_length {α : Type} (l : List α) : (accounted l).length < 2 ^ 64 := by
  unfold accounted
  split
  · assumption
  · rename_i h
    have : (l.length - 1) % (2 ^ 64 - 1) < 2 ^ 64 - 1 := Nat.mod_lt _ (by decide)
    rw [List.length_drop]
    omega

theorem accounted_snoc {α : Type} (l : List α) (x : α) :
    accounted (l ++ [x]) = if (accounted l).length + 1 < 2 ^ 64 then accounted l ++ [x] else [x] := by
  by_cases h : l.length < 2 ^ 64
  · have e : accounted l = l := by simp only [accounted, h, if_true]
    rw [e]
    by_cases h1 : l.length + 1 < 2 ^ 64
    · have h2 : (l ++ [x]).length < 2 ^ 64 := by simpa using h1
      simp only [accounted, h2, h1, if_true]
    · have hl : l.length = 2 ^ 64 - 1 := by omega
      have hL : (l ++ [x]).length = 2 ^ 64 := by simp [hl]
      rw [if_neg h1]
      unfold accounted
      rw [hL, if_neg (by omega)]
      rw [show (2 ^ 64 - ((2 ^ 64 - 1) % (2 ^ 64 - 1) + 1)) = l.length from by rw [hl, Nat.mod_self]]
      simp
  · have hlen : (accounted l).length = (l.length - 1) % (2 ^ 64 - 1) + 1 := by
      have : (l.length - 1) % (2 ^ 64 - 1) ≤ l.length - 1 := Nat.mod_le _ _
      simp only [accounted, h, if_false, List.length_drop]
      omega
    have hlt : (l.length - 1) % (2 ^ 64 - 1) < 2 ^ 64 - 1 := Nat.mod_lt _ (by decide)
    have hle : (l.length - 1) % (2 ^ 64 - 1) ≤ l.length - 1 := Nat.mod_le _ _
    have e1 : accounted l = l.drop (l.length - ((l.length - 1) % (2 ^ 64 - 1) + 1)) := by
      simp only [accounted, h, if_false]
    have e2 : accounted (l ++ [x]) = (l ++ [x]).drop (l.length + 1 - (l.length % (2 ^ 64 - 1) + 1)) := by
      have h2 : ¬ (l ++ [x]).length < 2 ^ 64 := by simp; omega
      simp only [accounted, h2, if_false]
      simp
    rw [hlen, e2]
    have hs : l.length = l.length - 1 + 1 := by omega
    by_cases hw : (l.length - 1) % (2 ^ 64 - 1) + 1 + 1 < 2 ^ 64
    · rw [if_pos hw, e1]
      have e3 : l.length % (2 ^ 64 - 1) = (l.length - 1) % (2 ^ 64 - 1) + 1 := by omega
      rw [e3, List.drop_append_of_le_length (by omega)]
      congr 2
      omega
    · rw [if_neg hw]
      have e3 : l.length % (2 ^ 64 - 1) = 0 := by omega
      rw [e3, show l.length + 1 - (0 + 1) = l.length from by omega]
      simp

theorem accounted_map {α β : Type} (f : α → β) (l : List α) : accounted (l.map f) = (accounted l).map f := by
  unfold accounted
  rw [List.length_map]
  split
  · rfl
  · rw [List.map_drop]

theorem Cumul.add_acc {c : Cumul} {k : Nat} {rows : List (List Rat)} (h : c.Ok k (accounted rows)) {xs : List Rat}
    (hx : xs.length = k) : (c.add xs).Ok k (accounted (rows ++ [xs])) := by
  rw [accounted_snoc]
  exact Cumul.add_ok h hx (accounted_length rows)

theorem mean_dev (l : List Rat) : (if l.length ≠ 0 then dev l / l.length else 0) = variance l := by
  unfold variance dev
  by_cases hl : l = []
  · subst hl; rfl
  · have : l.length ≠ 0 := by simpa using hl
    rw [if_pos this]
    generalize mean l = c
    simp [mean, hl]

theorem Cumul.summary_ok {c : Cumul} {k : Nat} {rows : List (List Rat)} (h : c.Ok k rows) :
    c.summary = ⟨rows.length, (List.range k).map (fun i => ⟨mean (col i rows), variance (col i rows)⟩)⟩ := by
  unfold Cumul.summary
  rw [h.n]
  congr 1
  apply List.ext_getElem
  · simp [h.len]
  · intro i h1 h2
    simp only [List.length_map] at h1
    have := h.seq i c.data[i] (by simp [h1])
    simp only [List.getElem_map, List.getElem_range]
    have hl : rows.length = (col i rows).length := by simp [col]
    rw [this.1, this.2, hl, mean_dev]

/-! ### the three statistics of a container -/

def insRows (l : List Sample) : List (List Rat) := (insLens l).map (fun n : Nat => [(n : Rat)])
def lookRows (b : Bool) (l : List Sample) : List (List Rat) := (looks b l).map (fun p => [(p.1 : Rat), (p.2 : Rat)])

structure CStats.Ok (c : CStats) (l : List Sample) : Prop where
  ins : c.insertion.Ok 1 (accounted (insRows l))
  suc : c.successful.Ok 2 (accounted (lookRows true l))
  uns : c.unsuccessful.Ok 2 (accounted (lookRows false l))

theorem accounted_nil {α : Type} : accounted ([] : List α) = [] := by simp [accounted]

theorem CStats.ok_nil : CStats.Ok {} [] := by
  refine ⟨?_, ?_, ?_⟩ <;> simp only [insRows, lookRows, insLens, looks, List.filterMap_nil, List.map_nil, accounted_nil] <;>
    exact Cumul.fresh_ok _

theorem CStats.reset_eq {c : CStats} {l : List Sample} (h : c.Ok l) : c.reset = {} := by
  simp only [CStats.reset, Cumul.reset, h.ins.len, h.suc.len, h.uns.len]

theorem CStats.add_ok {c : CStats} {l : List Sample} (h : c.Ok l) (x : Sample) : (c.add x).Ok (l ++ [x]) := by
  cases x with
  | ins n =>
    refine ⟨?_, ?_, ?_⟩
    · have := Cumul.add_acc h.ins (xs := [(n : Rat)]) rfl
      simpa [CStats.add, insRows, insLens] using this
    · simpa [CStats.add, lookRows, looks] using h.suc
    · simpa [CStats.add, lookRows, looks] using h.uns
  | look b n m =>
    cases b with
    | true =>
      refine ⟨?_, ?_, ?_⟩
      · simpa [CStats.add, insRows, insLens] using h.ins
      · have := Cumul.add_acc h.suc (xs := [(n : Rat), (m : Rat)]) rfl
        simpa [CStats.add, lookRows, looks] using this
      · simpa [CStats.add, lookRows, looks] using h.uns
    | false =>
      refine ⟨?_, ?_, ?_⟩
      · simpa [CStats.add, insRows, insLens] using h.ins
      · simpa [CStats.add, lookRows, looks] using h.suc
      · have := Cumul.add_acc h.uns (xs := [(n : Rat), (m : Rat)]) rfl
        simpa [CStats.add, lookRows, looks] using this

theorem CStats.addAll_ok : ∀ (xs : List Sample) {c : CStats} {l : List Sample}, c.Ok l → (c.addAll xs).Ok (l ++ xs)
  | [], c, l, h => by simpa [CStats.addAll] using h
  | x :: xs, c, l, h => by
    have := CStats.addAll_ok xs (CStats.add_ok h x)
    simpa [CStats.addAll] using this

theorem CStats.get_ok {c : CStats} {l : List Sample} (h : c.Ok l) : c.get = answer l := by
  unfold CStats.get answer
  rw [Cumul.summary_ok h.ins, Cumul.summary_ok h.suc, Cumul.summary_ok h.uns]
  simp only [insRows, lookRows, accounted_map, col, List.map_map, List.length_map, summ]
  simp only [List.range_succ, List.range_zero, List.nil_append, List.map_append, List.map_cons, List.map_nil]
  rfl

end Foa

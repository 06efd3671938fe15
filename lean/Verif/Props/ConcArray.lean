/-
Property theorems C48 (storage of the mutexes of a concurrent container). Model: `Verif/Conc/CacheArray.lean`, specification:
`Verif/SpecLife.lean`.
-/
import Verif.Conc.CacheArray

namespace Props
open Conc.CacheArray SpecLife

theorem elementOffset_bounds (sz : Nat) :
    sz ≤ elementOffset sz ∧ elementOffset sz < sz + 64 ∧ 64 * (elementOffset sz / 64) = elementOffset sz := by
  unfold elementOffset cacheline; omega

theorem data_eq (sz base pos : Nat) :
    data sz base pos = 64 * ((base + 63) / 64 + pos * (elementOffset sz / 64)) := by
  obtain ⟨_, _, h⟩ := elementOffset_bounds sz
  unfold data cacheline
  rw [Nat.mul_add]
  have : 64 * (pos * (elementOffset sz / 64)) = pos * elementOffset sz := by
    rw [← Nat.mul_assoc, Nat.mul_comm 64 pos, Nat.mul_assoc, h]
  omega

theorem elementOffset_lines_pos {sz : Nat} (hs : 0 < sz) : 0 < elementOffset sz / 64 := by
  obtain ⟨h1, _, h⟩ := elementOffset_bounds sz
  omega

theorem data_step {sz base i j : Nat} (h : i < j) : data sz base i + elementOffset sz ≤ data sz base j := by
  obtain ⟨d, rfl⟩ : ∃ d, j = i + 1 + d := ⟨j - (i + 1), by omega⟩
  unfold data
  have : (i + 1 + d) * elementOffset sz = i * elementOffset sz + elementOffset sz + d * elementOffset sz := by
    rw [Nat.add_mul, Nat.add_mul, Nat.one_mul]
  omega

theorem data_inj {sz base i j : Nat} (hs : 0 < sz) (h : data sz base i = data sz base j) : i = j := by
  have hp := (elementOffset_bounds sz).1
  rcases Nat.lt_trichotomy i j with hl | hl | hl
  · have := data_step (sz := sz) (base := base) hl; omega
  · exact hl
  · have := data_step (sz := sz) (base := base) hl; omega

/-- C48 (layout). For every element type, number of elements and address of the buffer: every element lies inside the buffer,
is aligned for its type (any alignment that divides 64, i.e. any power of two up to a cache line), and no two elements have
bytes on a common cache line. -/
theorem C48_elements_inside_aligned_and_apart (sz base N : Nat) :
    (∀ i < N, Inside sz (data sz base i) base (bufSize sz N)) ∧
    (∀ i < N, ∀ al, al ∣ 64 → al ∣ data sz base i) ∧
    (∀ i < N, ∀ j < N, i ≠ j → ∀ x y, data sz base i ≤ x → x < data sz base i + sz → data sz base j ≤ y →
      y < data sz base j + sz → x / 64 ≠ y / 64) := by
  obtain ⟨h1, h2, h3⟩ := elementOffset_bounds sz
  refine ⟨?_, ?_, ?_⟩
  · intro i hi
    obtain ⟨d, rfl⟩ : ∃ d, N = i + 1 + d := ⟨N - (i + 1), by omega⟩
    unfold Inside data bufSize cacheline
    have : elementOffset sz * (i + 1 + d) = i * elementOffset sz + elementOffset sz + d * elementOffset sz := by
      rw [Nat.mul_comm, Nat.add_mul, Nat.add_mul, Nat.one_mul]
    omega
  · intro i _ al hal
    rw [data_eq]
    exact Nat.dvd_trans hal (Nat.dvd_mul_right 64 _)
  · have key : ∀ i j, i < j → ∀ x y, x < data sz base i + sz → data sz base j ≤ y → x / 64 < y / 64 := by
      intro i j hij x y hx hy
      have h := data_step (sz := sz) (base := base) hij
      have hj := data_eq sz base j
      omega
    intro i _ j _ hij x y hx1 hx2 hy1 hy2
    rcases Nat.lt_or_gt_of_ne hij with h | h
    · exact Nat.ne_of_lt (key i j h x y hx2 hy1)
    · exact Nat.ne_of_gt (key j i h y x hy2 hx1)

/-- the mutexes of a concurrent container: 128 four-byte spinlocks at an odd address -/
example : Inside 4 (data 4 1001 127) 1001 (bufSize 4 128) ∧ data 4 1001 127 = 9152 ∧ bufSize 4 128 = 8255 := by
  unfold Inside; decide

theorem ctorFrom_exec (sz base N : Nat) : ∀ fuel n live, N = n + fuel →
    (∀ b ∈ live, ∃ i < n, b = data sz base i) →
    exec sz (ctorFrom sz base N fuel n) live = some (((List.range' n fuel).map (data sz base)).reverse ++ live) := by
  intro fuel
  induction fuel with
  | zero => intro n live _ _; simp [ctorFrom, exec]
  | succ f ih =>
    intro n live hN hl
    have hlt : n < N := by omega
    simp only [ctorFrom, hlt, if_true, exec]
    rw [if_pos, ih (n + 1) _ (by omega)]
    · simp [List.range'_succ]
    · intro b hb
      rcases List.mem_cons.1 hb with rfl | hb
      · exact ⟨n, by omega, rfl⟩
      · obtain ⟨i, hi, rfl⟩ := hl b hb
        exact ⟨i, by omega, rfl⟩
    · intro b hb
      obtain ⟨i, hi, rfl⟩ := hl b hb
      have := data_step (sz := sz) (base := base) hi
      have := (elementOffset_bounds sz).1
      unfold Apart; omega

/-- C48 (construction). Construction is well defined - nothing is built over a living object - and afterwards the living objects
are exactly elements 0 .. N-1, each once. -/
theorem C48_constructor_builds_each_once (sz base N : Nat) (hs : 0 < sz) :
    ∃ live, exec sz (ctor sz base N) [] = some live ∧ live.Nodup ∧ ∀ a, a ∈ live ↔ ∃ i < N, a = data sz base i := by
  refine ⟨_, ctorFrom_exec sz base N N 0 [] (by omega) (by simp), ?_, ?_⟩
  · rw [List.append_nil]
    refine (List.reverse_perm _).nodup_iff.2 ?_
    exact List.pairwise_map.2 ((List.nodup_range' (step := 1)).imp (fun hne h => hne (data_inj hs h)))
  · intro a
    simp [List.mem_range'_1]
    constructor
    · rintro ⟨i, h1, h2⟩; exact ⟨i, h1, h2.symm⟩
    · rintro ⟨i, h1, h2⟩; exact ⟨i, h1, h2.symm⟩

example : exec 4 (ctor 4 1 3) [] = some [192, 128, 64] := by decide

theorem exec_append {sz : Nat} : ∀ {es live live'}, exec sz es live = some live' → ∀ {es'},
    exec sz (es ++ es') live = exec sz es' live' := by
  intro es
  induction es with
  | nil => intro live live' h es'; simp only [exec, Option.some.injEq] at h; subst h; rfl
  | cons ev es ih =>
    intro live live' h es'
    cases ev <;>
    · simp only [exec, List.cons_append] at h ⊢
      split at h
      · rename_i hc; rw [if_pos hc]; exact ih h
      · cases h

/-- C48 (destruction), false for the code: the destructor's very first step calls the destructor at `data(N)`, where there is no
object. For every type, every non-empty array and every address. -/
theorem C48_destructor_is_undefined (sz base N : Nat) (hs : 0 < sz) (hN : 0 < N) :
    exec sz (ctor sz base N ++ dtor sz base N) [] = none := by
  obtain ⟨live, h1, _, h3⟩ := C48_constructor_builds_each_once sz base N hs
  rw [exec_append h1]
  obtain ⟨n, rfl⟩ : ∃ n, N = n + 1 := ⟨N - 1, by omega⟩
  simp only [dtor, exec]
  rw [if_neg]
  intro hm
  obtain ⟨i, hi, he⟩ := (h3 _).1 hm
  have := data_inj hs he
  omega

/-- The storage the destructor touches at `data(N)` sticks out of the buffer exactly when the object does not fit into the slack
that aligning the buffer left over; a type of at least a cache line never fits. -/
theorem C48_destructor_leaves_buffer (sz base N : Nat) :
    (¬ Inside sz (data sz base N) base (bufSize sz N) ↔ 63 < (64 - base % 64) % 64 + sz) ∧
    (64 ≤ sz → ¬ Inside sz (data sz base N) base (bufSize sz N)) := by
  have h : ¬ Inside sz (data sz base N) base (bufSize sz N) ↔ 63 < (64 - base % 64) % 64 + sz := by
    unfold Inside data bufSize cacheline
    rw [Nat.mul_comm N]
    generalize elementOffset sz * N = x
    omega
  exact ⟨h, fun hs => h.2 (by omega)⟩

/-- Element 0 is never destroyed. -/
theorem C48_first_element_never_destroyed (sz base N : Nat) (hs : 0 < sz) : Ev.destroy (data sz base 0) ∉ dtor sz base N := by
  induction N with
  | zero => simp [dtor]
  | succ n ih =>
    simp only [dtor, List.mem_cons, not_or]
    refine ⟨?_, ih⟩
    intro h
    have := data_inj hs (Ev.destroy.inj h)
    omega

example : exec 4 (ctor 4 1 128 ++ dtor 4 1 128) [] = none ∧ Ev.destroy (data 4 1 0) ∉ dtor 4 1 128 ∧
    ¬ Inside 64 (data 64 1 128) 1 (bufSize 64 128) :=
  ⟨C48_destructor_is_undefined 4 1 128 (by decide) (by decide), C48_first_element_never_destroyed 4 1 128 (by decide),
    (C48_destructor_leaves_buffer 64 1 128).2 (by decide)⟩

/-- C48, what holds: layout and construction are right; with the decrement before the use (`data(--n)`, as `multimutex::unlock`
does it) destruction would end with no living object. Missing, because false: the same for the destructor in the code. -/
theorem C48_storage_partial (sz base N : Nat) (hs : 0 < sz) :
    (∃ live, exec sz (ctor sz base N) [] = some live ∧ live.Nodup ∧ ∀ a, a ∈ live ↔ ∃ i < N, a = data sz base i) ∧
    exec sz (ctor sz base N ++ dtorFixed sz base N) [] = some [] := by
  refine ⟨C48_constructor_builds_each_once sz base N hs, ?_⟩
  rw [exec_append (show exec sz (ctor sz base N) [] = _ from ctorFrom_exec sz base N N 0 [] (by omega) (by simp))]
  have : ∀ n, exec sz (dtorFixed sz base n) (((List.range' 0 n).map (data sz base)).reverse ++ []) = some [] := by
    intro n
    induction n with
    | zero => simp [dtorFixed, exec]
    | succ n ih =>
      rw [List.range'_concat]
      simp only [List.map_append, List.reverse_append, List.map_cons, List.map_nil, List.reverse_cons, List.reverse_nil,
        List.nil_append, List.append_nil, dtorFixed, exec, Nat.zero_add, Nat.one_mul, List.cons_append] at ih ⊢
      rw [if_pos (by simp), List.erase_cons_head]
      exact ih
  exact this N

example : exec 4 (ctor 4 1 128 ++ dtorFixed 4 1 128) [] = some [] := (C48_storage_partial 4 1 128 (by decide)).2

end Props

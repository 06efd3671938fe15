/-
Invariant of node handles used with a concurrent node container. Lemmas only; the model is `Verif.Conc.Nodes`.
-/
import Verif.Conc.NodesTab

namespace Conc.Nodes
open Conc.Tab Foa Node
open SpecT (Con Same Replaced Removed Added)
open Spec (upd)
open Conc.Locking (Mode)

variable {K V : Type}

theorem supd {α : Type} (f : Nat → α) (r : Nat) (x : α) (i : Nat) : upd f r x i = if i = r then x else f i := rfl

/-- A handle with a node, as seen in the memory. -/
def Holds (al : Nat) (s : St K V) (h i : Nat) (x : K × V) : Prop :=
  s.hnd h = ⟨some i, some al⟩ ∧ s.heap.cell i = some (x, al)

/-- What is known of the call of a thread from its task. -/
def Thr (al : Nat) (heap : Heap K V) (hnd : Nat → Hnd) (p : Pc K (Nat × V)) : Task → Prop
  | .none => ∀ o, p.pending = some o → o.isInsert = false
  | .emplace i =>
    (∃ m x f2 f1, p.pending = some (.insert m x f2 f1) ∧ x.2.1 = i ∧ heap.cell i = none ∧ i < heap.next ∧ i ∉ heap.freed) ∨
    ∃ r, p.result = some r
  | .insert h =>
    (∃ m x f2 f1, p.pending = some (.insert m x f2 f1) ∧ hnd h = ⟨some x.2.1, some al⟩ ∧
      heap.cell x.2.1 = some ((x.1, x.2.2), al)) ∨
    (p.result = some 1 ∧ hnd h = ⟨none, some al⟩) ∨
    (p.result = some 0 ∧ ∃ i, hnd h = ⟨some i, some al⟩)
  | .extract h =>
    (∃ k q, p.pending = some (.erase k q) ∧ hnd h = .dflt) ∨
    (p.result = some 1 ∧ ∃ i, hnd h = ⟨some i, some al⟩) ∨ (p.result = some 0 ∧ hnd h = .dflt)

/-- Who has which node. -/
structure Own (al : Nat) (A : Con K (Nat × V)) (heap : Heap K V) (hnd : Nat → Hnd) : Prop where
  live : ∀ x, A x → ∃ v, heap.cell x.2.1 = some (v, al)
  liveH : ∀ h i, (hnd h).p = some i → ∃ v, heap.cell i = some (v, al)
  uniq : ∀ x y, A x → A y → x.2.1 = y.2.1 → x = y
  apart : ∀ x h, A x → (hnd h).p ≠ some x.2.1
  uniqH : ∀ g h i, (hnd g).p = some i → (hnd h).p = some i → g = h
  owned : ∀ i, heap.cell i ≠ none → (∃ x, A x ∧ x.2.1 = i) ∨ ∃ h, (hnd h).p = some i
  fresh : ∀ i, heap.next ≤ i → heap.cell i = none ∧ i ∉ heap.freed
  gone : ∀ i ∈ heap.freed, heap.cell i = none
  once : heap.freed.Nodup

/-- The shapes of handles; `q h`: a call has just moved the node out of `h`. -/
def Shapes (al : Nat) (hnd : Nat → Hnd) (q : Nat → Prop) : Prop :=
  ∀ h, hnd h = .dflt ∨ (∃ i, hnd h = ⟨some i, some al⟩) ∨ (hnd h = ⟨none, some al⟩ ∧ q h)

/-- Some call is inserting from `h`. -/
def Inserting (s : St K V) (h : Nat) : Prop := ∃ t, s.task t = .insert h

structure Inv (al : Nat) (s : St K V) : Prop where
  good : s.bad = false
  tab : SInv s.tab
  fine : ∀ t, Fine (s.tab.pc t)
  thr : ∀ t, Thr al s.heap s.hnd (s.tab.pc t) (s.task t)
  shp : Shapes al s.hnd (Inserting s)
  use : ∀ t u h, (s.task t).uses = some h → (s.task u).uses = some h → t = u
  emp : ∀ t u i, s.task t = .emplace i → s.task u = .emplace i → t = u
  lt : ∀ t i, s.task t = .emplace i → i < s.heap.next
  own : Own al s.tab.mem.elems s.heap s.hnd

/-! ### changes of the contents -/

section
variable {al : Nat} {A A' : Con K (Nat × V)} {heap : Heap K V} {hnd : Nat → Hnd}

theorem Own.congr (h : Own al A heap hnd) (hs : Same A A') : Own al A' heap hnd := by
  have : A' = A := funext fun x => propext (hs x)
  rw [this]; exact h

theorem Own.repl (h : Own al A heap hnd) {y z : Elem K V} (hy : A y) (hz : z.2.1 = y.2.1) (hr : Replaced A A' y z) :
    Own al A' heap hnd := by
  obtain ⟨h1, h2, h3, h4, h5, h6, h7, h8, h9⟩ := h
  refine ⟨fun x hx => ?_, h2, fun x w hx hw e => ?_, fun x g hx => ?_, h5, fun i hi => ?_, h7, h8, h9⟩
  · rcases (hr x).1 hx with ⟨a, _⟩ | rfl
    · exact h1 x a
    · rw [hz]; exact h1 y hy
  · rcases (hr x).1 hx with ⟨a, ne⟩ | rfl <;> rcases (hr w).1 hw with ⟨b, ne'⟩ | rfl
    · exact h3 x w a b e
    · exact absurd (h3 x y a hy (by rw [e, hz])) ne
    · exact absurd (h3 w y b hy (by rw [← e, hz])) ne'
    · rfl
  · rcases (hr x).1 hx with ⟨a, _⟩ | rfl
    · exact h4 x g a
    · rw [hz]; exact h4 y g hy
  · rcases h6 i hi with ⟨x, a, e⟩ | hh
    · left
      by_cases hxy : x = y
      · exact ⟨z, (hr z).2 (.inr rfl), by rw [hz, ← hxy, e]⟩
      · exact ⟨x, (hr x).2 (.inl ⟨a, hxy⟩), e⟩
    · exact .inr hh

/-- A node of a handle goes into the container. -/
theorem Own.giveIn (h : Own al A heap hnd) {z : Elem K V} {g : Nat} (hg : (hnd g).p = some z.2.1) (hr : Added A A' z)
    (x' : Hnd) (hx' : x'.p = none) : Own al A' heap (upd hnd g x') := by
  obtain ⟨h1, h2, h3, h4, h5, h6, h7, h8, h9⟩ := h
  have hp : ∀ l i, (upd hnd g x' l).p = some i → l ≠ g ∧ (hnd l).p = some i := by
    intro l i hl
    rw [supd] at hl
    split at hl
    · rw [hx'] at hl; cases hl
    · exact ⟨by assumption, hl⟩
  refine ⟨fun x hx => ?_, fun l i hl => h2 l i (hp l i hl).2, fun x w hx hw e => ?_, fun x l hx hl => ?_,
    fun a b i ha hb => h5 a b i (hp a i ha).2 (hp b i hb).2, fun i hi => ?_, h7, h8, h9⟩
  · rcases (hr x).1 hx with a | rfl
    · exact h1 x a
    · exact h2 g _ hg
  · rcases (hr x).1 hx with a | rfl <;> rcases (hr w).1 hw with b | rfl
    · exact h3 x w a b e
    · exact absurd (by rw [hg, e]) (h4 x g a)
    · exact absurd (by rw [hg, e]) (h4 w g b)
    · rfl
  · rcases (hr x).1 hx with a | rfl
    · exact h4 x l a (hp l _ hl).2
    · exact (hp l _ hl).1 (h5 l g _ (hp l _ hl).2 hg)
  · rcases h6 i hi with ⟨x, a, e⟩ | ⟨l, hl⟩
    · exact .inl ⟨x, (hr x).2 (.inl a), e⟩
    · by_cases hlg : l = g
      · subst hlg
        rw [hg] at hl
        exact .inl ⟨z, (hr z).2 (.inr rfl), Option.some.inj hl⟩
      · exact .inr ⟨l, by rw [supd, if_neg hlg]; exact hl⟩

/-- A new node. -/
theorem Own.fresh_put (h : Own al A heap hnd) {z : Elem K V} {v : K × V} (hc : heap.cell z.2.1 = none) (hn : z.2.1 < heap.next)
    (hfr : z.2.1 ∉ heap.freed) (hr : Added A A' z) :
    Own al A' { heap with cell := upd heap.cell z.2.1 (some (v, al)) } hnd := by
  obtain ⟨h1, h2, h3, h4, h5, h6, h7, h8, h9⟩ := h
  have hx : ∀ x, A x → x.2.1 ≠ z.2.1 := by
    intro x hx e
    obtain ⟨v, hv⟩ := h1 x hx
    rw [e, hc] at hv; cases hv
  have hh : ∀ l i, (hnd l).p = some i → i ≠ z.2.1 := by
    rintro l i hl rfl
    obtain ⟨v, hv⟩ := h2 l _ hl
    rw [hc] at hv; cases hv
  refine ⟨fun x hx' => ?_, fun l i hl => ?_, fun x w hx' hw e => ?_, fun x l hx' => ?_, h5, fun i hi => ?_, fun i hi => ?_,
    fun i hi => ?_, h9⟩
  · rcases (hr x).1 hx' with a | rfl
    · simp only [supd, if_neg (hx x a)]; exact h1 x a
    · simp [supd]
  · simp only [supd, if_neg (hh l i hl)]; exact h2 l i hl
  · rcases (hr x).1 hx' with a | rfl <;> rcases (hr w).1 hw with b | rfl
    · exact h3 x w a b e
    · exact absurd e (hx x a)
    · exact absurd e.symm (hx w b)
    · rfl
  · rcases (hr x).1 hx' with a | rfl
    · exact h4 x l a
    · intro hl; exact hh l _ hl rfl
  · simp only [supd] at hi
    split at hi
    · subst i; exact .inl ⟨z, (hr z).2 (.inr rfl), rfl⟩
    · exact (h6 i hi).imp (fun ⟨x, a, e⟩ => ⟨x, (hr x).2 (.inl a), e⟩) id
  · have : i ≠ z.2.1 := by rintro rfl; exact absurd hn (by simpa using hi)
    simp only [supd, if_neg this]; exact h7 i hi
  · have : i ≠ z.2.1 := by rintro rfl; exact hfr hi
    simp only [supd, if_neg this]; exact h8 i hi

/-- A node of the container goes into an empty handle. -/
theorem Own.takeOut (h : Own al A heap hnd) {y : Elem K V} {g : Nat} (hg : (hnd g).p = none) (hy : A y) (hr : Removed A A' y)
    {v : K × V} {b : Option Nat} : Own al A' { heap with cell := upd heap.cell y.2.1 (some (v, al)) } (upd hnd g ⟨some y.2.1, b⟩) := by
  obtain ⟨h1, h2, h3, h4, h5, h6, h7, h8, h9⟩ := h
  obtain ⟨vy, hvy⟩ := h1 y hy
  have hp : ∀ l i, (upd hnd g ⟨some y.2.1, b⟩ l).p = some i → (l = g ∧ i = y.2.1) ∨ (l ≠ g ∧ (hnd l).p = some i) := by
    intro l i hl
    rw [supd] at hl
    split at hl
    · exact .inl ⟨by assumption, (Option.some.inj hl).symm⟩
    · exact .inr ⟨by assumption, hl⟩
  refine ⟨fun x hx => ?_, fun l i hl => ?_, fun x w hx hw e => h3 x w ((hr x).1 hx).1 ((hr w).1 hw).1 e, fun x l hx hl => ?_,
    fun a b i ha hb => ?_, fun i hi => ?_, fun i hi => ?_, fun i hi => ?_, h9⟩
  · obtain ⟨a, ne⟩ := (hr x).1 hx
    have : x.2.1 ≠ y.2.1 := fun e => ne (h3 x y a hy e)
    simp only [supd, if_neg this]; exact h1 x a
  · simp only [supd]
    split
    · exact ⟨_, rfl⟩
    · rename_i hne
      rcases hp l i hl with ⟨_, e⟩ | ⟨_, e⟩
      · exact absurd e hne
      · exact h2 l i e
  · obtain ⟨a, ne⟩ := (hr x).1 hx
    rcases hp l _ hl with ⟨_, e⟩ | ⟨_, e⟩
    · exact ne (h3 x y a hy e)
    · exact h4 x l a e
  · rcases hp a i ha with ⟨e1, e2⟩ | ⟨e1, e2⟩ <;> rcases hp b i hb with ⟨e3, e4⟩ | ⟨e3, e4⟩
    · rw [e1, e3]
    · rw [e2] at e4; exact absurd e4 (h4 y b hy)
    · rw [e4] at e2; exact absurd e2 (h4 y a hy)
    · exact h5 a b i e2 e4
  · simp only [supd] at hi
    by_cases hiy : i = y.2.1
    · exact .inr ⟨g, by simp [supd, hiy]⟩
    · rw [if_neg hiy] at hi
      rcases h6 i hi with ⟨x, a, e⟩ | ⟨l, hl⟩
      · exact .inl ⟨x, (hr x).2 ⟨a, by rintro rfl; exact hiy e.symm⟩, e⟩
      · refine .inr ⟨l, ?_⟩
        rw [supd, if_neg]
        · exact hl
        · rintro rfl; rw [hg] at hl; cases hl
  · have : i ≠ y.2.1 := by rintro rfl; rw [(h7 _ hi).1] at hvy; cases hvy
    simp only [supd, if_neg this]; exact h7 i hi
  · have : i ≠ y.2.1 := by rintro rfl; rw [h8 _ hi] at hvy; cases hvy
    simp only [supd, if_neg this]; exact h8 i hi

theorem free_eq {m m' : Heap K V} {a i : Nat} (h : m.free a i = some m') :
    m' = { m with cell := upd m.cell i none, freed := i :: m.freed } ∧ ∃ x, m.cell i = some (x, a) := by
  unfold Heap.free at h
  split at h
  · cases h
  · rename_i v b hc
    split at h
    · rename_i hb
      subst hb
      exact ⟨(Option.some.inj h).symm, _, hc⟩
    · cases h

/-- A node of the container is freed. -/
theorem Own.free (h : Own al A heap hnd) {y : Elem K V} (hy : A y) (hr : Removed A A' y) :
    ∃ m', heap.free al y.2.1 = some m' ∧ Own al A' m' hnd := by
  obtain ⟨h1, h2, h3, h4, h5, h6, h7, h8, h9⟩ := h
  obtain ⟨v, hv⟩ := h1 y hy
  refine ⟨_, by unfold Heap.free; rw [hv]; simp only [if_true]; rfl, ?_⟩
  refine ⟨fun x hx => ?_, fun l i hl => ?_, fun x w hx hw e => h3 x w ((hr x).1 hx).1 ((hr w).1 hw).1 e,
    fun x l hx hl => h4 x l ((hr x).1 hx).1 hl, h5, fun i hi => ?_, fun i hi => ?_, fun i hi => ?_, ?_⟩
  · obtain ⟨a, ne⟩ := (hr x).1 hx
    have : x.2.1 ≠ y.2.1 := fun e => ne (h3 x y a hy e)
    simp only [supd, if_neg this]; exact h1 x a
  · have : i ≠ y.2.1 := by rintro rfl; exact h4 y l hy hl
    simp only [supd, if_neg this]; exact h2 l i hl
  · simp only [supd] at hi
    split at hi
    · exact absurd rfl hi
    · rename_i hne
      exact (h6 i hi).imp (fun ⟨x, a, e⟩ => ⟨x, (hr x).2 ⟨a, by rintro rfl; exact hne e.symm⟩, e⟩) id
  · obtain ⟨a, b⟩ := h7 i hi
    refine ⟨by simp only [supd]; split <;> simp [a], ?_⟩
    simp only [List.mem_cons, not_or]
    refine ⟨?_, b⟩
    rintro rfl
    rw [a] at hv; cases hv
  · simp only [supd]
    split
    · rfl
    · rename_i hne
      rcases List.mem_cons.1 hi with e | e
      · exact absurd e hne
      · exact h8 i e
  · refine List.nodup_cons.2 ⟨fun hm => ?_, h9⟩
    rw [h8 _ hm] at hv; cases hv

/-- A node of a handle is freed. -/
theorem Own.freeH (h : Own al A heap hnd) {g i : Nat} (hg : (hnd g).p = some i) {x' : Hnd} (hx' : x'.p = none) :
    ∃ m', heap.free al i = some m' ∧ Own al A m' (upd hnd g x') := by
  obtain ⟨h1, h2, h3, h4, h5, h6, h7, h8, h9⟩ := h
  obtain ⟨v, hv⟩ := h2 g i hg
  have hp : ∀ l j, (upd hnd g x' l).p = some j → l ≠ g ∧ (hnd l).p = some j := by
    intro l j hl
    rw [supd] at hl
    split at hl
    · rw [hx'] at hl; cases hl
    · exact ⟨by assumption, hl⟩
  refine ⟨_, by unfold Heap.free; rw [hv]; simp only [if_true]; rfl, ?_⟩
  refine ⟨fun x hx => ?_, fun l j hl => ?_, h3, fun x l hx hl => h4 x l hx (hp l _ hl).2,
    fun a b j ha hb => h5 a b j (hp a j ha).2 (hp b j hb).2, fun j hj => ?_, fun j hj => ?_, fun j hj => ?_, ?_⟩
  · have : x.2.1 ≠ i := by rintro rfl; exact h4 x g hx hg
    simp only [supd, if_neg this]; exact h1 x hx
  · have : j ≠ i := by rintro rfl; exact (hp l _ hl).1 (h5 _ _ _ (hp l _ hl).2 hg)
    simp only [supd, if_neg this]; exact h2 l j (hp l j hl).2
  · simp only [supd] at hj
    split at hj
    · exact absurd rfl hj
    · rename_i hne
      refine (h6 j hj).imp id fun ⟨l, hl⟩ => ⟨l, ?_⟩
      rw [supd, if_neg]
      · exact hl
      · rintro rfl; rw [hg] at hl; exact hne (Option.some.inj hl).symm
  · obtain ⟨a, b⟩ := h7 j hj
    refine ⟨by simp only [supd]; split <;> simp [a], ?_⟩
    simp only [List.mem_cons, not_or]
    refine ⟨?_, b⟩
    rintro rfl
    rw [a] at hv; cases hv
  · simp only [supd]
    split
    · rfl
    · rename_i hne
      rcases List.mem_cons.1 hj with e | e
      · exact absurd e hne
      · exact h8 j e
  · refine List.nodup_cons.2 ⟨fun hm => ?_, h9⟩
    rw [h8 _ hm] at hv; cases hv

/-- Handles without a node may change as long as they have none. -/
theorem Own.hnd_none (h : Own al A heap hnd) {hnd' : Nat → Hnd} (he : ∀ l, (hnd' l).p = (hnd l).p) : Own al A heap hnd' := by
  obtain ⟨h1, h2, h3, h4, h5, h6, h7, h8, h9⟩ := h
  refine ⟨h1, ?_, h3, ?_, ?_, ?_, h7, h8, h9⟩ <;> simp only [he] <;> assumption

/-- A node goes from one handle into an empty one. -/
theorem Own.pass (h : Own al A heap hnd) {g l : Nat} {x y : Hnd} (hg : (hnd g).p = none) (hgl : g ≠ l) (hx : x.p = (hnd l).p)
    (hy : y.p = none) : Own al A heap (upd (upd hnd g x) l y) := by
  obtain ⟨h1, h2, h3, h4, h5, h6, h7, h8, h9⟩ := h
  have hp : ∀ a i, (upd (upd hnd g x) l y a).p = some i → ∃ b, (hnd b).p = some i ∧ ((a = g ∧ b = l) ∨ (a ≠ g ∧ a ≠ l ∧ b = a)) := by
    intro a i ha
    simp only [supd] at ha
    split at ha
    · rw [hy] at ha; cases ha
    · split at ha
      · exact ⟨l, by rw [← hx]; exact ha, .inl ⟨by assumption, rfl⟩⟩
      · exact ⟨a, ha, .inr ⟨by assumption, by assumption, rfl⟩⟩
  refine ⟨h1, fun a i ha => ?_, h3, fun z a hz ha => ?_, fun a b i ha hb => ?_, fun i hi => ?_, h7, h8, h9⟩
  · obtain ⟨b, hb, _⟩ := hp a i ha
    exact h2 b i hb
  · obtain ⟨b, hb, _⟩ := hp a _ ha
    exact h4 z b hz hb
  · obtain ⟨a', ha', ea⟩ := hp a i ha
    obtain ⟨b', hb', eb⟩ := hp b i hb
    have := h5 a' b' i ha' hb'
    omega
  · rcases h6 i hi with hx' | ⟨a, ha⟩
    · exact .inl hx'
    · by_cases hal : a = l
      · subst hal
        exact .inr ⟨g, by simp only [supd, if_neg hgl, if_true]; rw [hx]; exact ha⟩
      · refine .inr ⟨a, ?_⟩
        have : a ≠ g := by rintro rfl; rw [hg] at ha; cases ha
        simp only [supd, if_neg hal, if_neg this]; exact ha

/-- All nodes of the container are freed. -/
theorem Own.freeAll : ∀ (l : List (Elem K V)) {A : Con K (Nat × V)} {heap : Heap K V}, Own al A heap hnd →
    l.Pairwise (fun x y => x ≠ y) → (∀ x ∈ l, A x) →
    ∃ m', heap.freeAll al (l.map Elem.node) = some m' ∧ Own al (fun x => A x ∧ x ∉ l) m' hnd ∧
      (∀ i, m'.cell i = if i ∈ l.map Elem.node then none else heap.cell i) ∧ m'.next = heap.next ∧
      (∀ i, i ∈ m'.freed → i ∈ heap.freed ∨ i ∈ l.map Elem.node)
  | [], A, heap, h, _, _ => ⟨heap, rfl, h.congr (by intro x; simp), by simp, rfl, by simp⟩
  | y :: l, A, heap, h, hp, hl => by
    obtain ⟨hy, hp'⟩ := List.pairwise_cons.1 hp
    obtain ⟨m1, e1, h1⟩ := h.free (A' := fun x => A x ∧ x ≠ y) (hl y List.mem_cons_self) (fun x => Iff.rfl)
    have e1' := (free_eq e1).1
    obtain ⟨m2, e2, h2, h3, h4, h5⟩ := Own.freeAll l h1 hp' (fun x hx => ⟨hl x (List.mem_cons_of_mem _ hx), (hy x hx).symm⟩)
    refine ⟨m2, ?_, h2.congr ?_, fun i => ?_, by rw [h4, e1'], fun i hi => ?_⟩
    · show heap.freeAll al (y.2.1 :: l.map Elem.node) = _
      simp only [Heap.freeAll, e1, e2]
    · intro x; simp [List.mem_cons, not_or, and_assoc]
    · rw [h3, e1']
      show (if i ∈ l.map Elem.node then none else upd heap.cell y.2.1 none i) =
        if i ∈ y.2.1 :: l.map Elem.node then none else heap.cell i
      simp only [supd, List.mem_cons]
      by_cases a : i ∈ l.map Elem.node <;> by_cases b : i = y.2.1 <;> simp [a, b]
    · rcases h5 i hi with a | a
      · rw [e1'] at a
        rcases List.mem_cons.1 a with a | a
        · exact .inr (by rw [a]; exact List.mem_cons_self)
        · exact .inl a
      · exact .inr (List.mem_cons_of_mem _ a)

end

/-! ### steps -/

theorem Thr.frame {al : Nat} {heap heap' : Heap K V} {hnd hnd' : Nat → Hnd} {p : Pc K (Nat × V)} {k : Task}
    (h : Thr al heap hnd p k) (hh : ∀ g, k.uses = some g → hnd' g = hnd g)
    (hc : ∀ g i, k = .insert g → (hnd g).p = some i → heap'.cell i = heap.cell i)
    (he : ∀ i, k = .emplace i → heap.cell i = none → i < heap.next → i ∉ heap.freed →
      heap'.cell i = none ∧ i < heap'.next ∧ i ∉ heap'.freed) : Thr al heap' hnd' p k := by
  cases k with
  | none => exact h
  | emplace i =>
    rcases h with ⟨m, x, f2, f1, h1, h2, h3, h4, h5⟩ | h
    · obtain ⟨a, b, c⟩ := he i rfl h3 h4 h5
      exact .inl ⟨m, x, f2, f1, h1, h2, a, b, c⟩
    · exact .inr h
  | insert g =>
    have e := hh g rfl
    simp only [Thr, e]
    rcases h with ⟨m, x, f2, f1, h1, h2, h3⟩ | h
    · exact .inl ⟨m, x, f2, f1, h1, h2, by rw [hc g x.2.1 rfl (by rw [h2]), h3]⟩
    · exact .inr h
  | extract g =>
    have e := hh g rfl
    simp only [Thr, e]
    exact h

theorem result_pending {p : Pc K (Nat × V)} {r : Nat} (h : p.result = some r) : p.pending = none := by
  cases p <;> first | rfl | (simp only [Pc.result] at h; cases h)

theorem change_put {m : Mem K (Nat × V)} {p : Pc K (Nat × V)} {x : Elem K V} (h : change m p = .put x) :
    ∃ md f2 f1, p.pending = some (.insert md x f2 f1) := by
  unfold change at h
  split at h
  · split at h
    · cases h; exact ⟨_, _, _, rfl⟩
    · cases h
  · (repeat' split at h) <;> cases h
  · (repeat' split at h) <;> cases h
  · cases h
  · cases h

theorem step_nopending {cfg : Foa.Cfg} {s s' : State K (Nat × V)} {t : Nat} (h : StepBy cfg t s s')
    (h0 : s.pc t ≠ .idle) (h1 : ∀ r, s.pc t ≠ .done r) (hp : (s.pc t).pending = none) : (s'.pc t).pending = none := by
  cases h with
  | @quiet pc' h =>
    rw [State.set_pc, upd_self]
    generalize s.pc t = p at *
    cases h with
    | call o => exact absurd rfl h0
    | callAgain r o => exact absurd rfl (h1 r)
    | swEnd md act g r => split <;> rfl
    | _ => first | rfl | cases hp
  | @eff m' pc' h =>
    rw [State.set_pc, upd_self]
    generalize s.pc t = p at *
    cases h <;> first | rfl | cases hp
  | @alone m' pc' ho h =>
    rw [State.set_pc, upd_self]
    generalize s.pc t = p at *
    cases h <;> first | rfl | cases hp

/-- A step of the table, what its thread does to the nodes included. -/
theorem Inv.tab_step {cfg : Foa.Cfg} {al : Nat} {s : St K V} (hi : Inv al s) (hw : NoWrap s.tab) {t : Nat}
    (h0 : s.tab.pc t ≠ .idle) (h1 : ∀ r, s.tab.pc t ≠ .done r) {s' : State K (Nat × V)} (hs : StepBy cfg t s.tab s') :
    ∃ m hnd, apply al (s.task t) s.tab.mem.tab.contents s.heap s.hnd (change s.tab.mem (s.tab.pc t)) = some (m, hnd) ∧
      Inv al { s with tab := s', heap := m, hnd := hnd } := by
  obtain ⟨hm, hfine, hlist⟩ := step_moved hi.tab hw hs h0 h1 (hi.fine t)
  have hown := fun {o} => step_own hi.tab hw hs (o := o)
  have hres := fun {r} => step_result hi.tab hw hs (r := r)
  have hno := step_nopending hs h0 h1
  have hT := hi.thr t
  have hO := hi.own
  have hother : ∀ u, u ≠ t → s'.pc u = s.tab.pc u := fun u hu => hs.other hu
  have hfine' : ∀ u, Fine (s'.pc u) := by
    intro u
    by_cases hu : u = t
    · subst hu; exact hfine
    · rw [hother u hu]; exact hi.fine u
  -- putting the pieces together
  have done : ∀ (m : Heap K V) (hnd : Nat → Hnd),
      apply al (s.task t) s.tab.mem.tab.contents s.heap s.hnd (change s.tab.mem (s.tab.pc t)) = some (m, hnd) →
      Own al s'.mem.elems m hnd → Shapes al hnd (Inserting s) → m.next = s.heap.next → Thr al m hnd (s'.pc t) (s.task t) →
      (∀ u, u ≠ t → Thr al m hnd (s.tab.pc u) (s.task u)) →
      ∃ m hnd, apply al (s.task t) s.tab.mem.tab.contents s.heap s.hnd (change s.tab.mem (s.tab.pc t)) = some (m, hnd) ∧
        Inv al { s with tab := s', heap := m, hnd := hnd } := by
    intro m hnd e ho hsh hn ht hu
    refine ⟨m, hnd, e, hi.good, hi.tab.step hw hs, hfine', fun u => ?_, hsh, hi.use, hi.emp, fun u i hu' => ?_, ho⟩
    · by_cases hut : u = t
      · subst hut; exact ht
      · show Thr al m hnd (s'.pc u) (s.task u)
        rw [hother u hut]; exact hu u hut
    · show i < m.next
      rw [hn]; exact hi.lt u i hu'
  -- nothing happens to nodes
  have keep : change s.tab.mem (s.tab.pc t) = .keep → Thr al s.heap s.hnd (s'.pc t) (s.task t) →
      ∃ m hnd, apply al (s.task t) s.tab.mem.tab.contents s.heap s.hnd (change s.tab.mem (s.tab.pc t)) = some (m, hnd) ∧
        Inv al { s with tab := s', heap := m, hnd := hnd } := by
    intro hk ht
    refine done s.heap s.hnd (by rw [hk]; rfl) ?_ hi.shp rfl ht (fun u _ => hi.thr u)
    rw [hk] at hm
    cases hm with
    | same h => exact hO.congr h
    | repl y z hy hz hr => exact hO.repl hy hz hr
  -- an element is erased and its node freed
  have free : ∀ y, change s.tab.mem (s.tab.pc t) = .take y → (∀ h, s.task t ≠ .extract h) → 
      (∀ m : Heap K V, Thr al m s.hnd (s'.pc t) (s.task t)) →
      ∃ m hnd, apply al (s.task t) s.tab.mem.tab.contents s.heap s.hnd (change s.tab.mem (s.tab.pc t)) = some (m, hnd) ∧
        Inv al { s with tab := s', heap := m, hnd := hnd } := by
    intro y hk hne ht
    rw [hk] at hm
    cases hm with
    | take _ hy hr =>
      obtain ⟨m', e, ho⟩ := hO.free hy hr
      obtain ⟨e', v, hv⟩ := free_eq e
      refine done m' s.hnd ?_ ho hi.shp (by rw [e']) (ht m') (fun u _ => (hi.thr u).frame (fun _ _ => rfl) ?_ ?_)
      · rw [hk]
        have : s.heap.free al (Elem.node y) = some m' := e
        cases hk' : s.task t with
        | extract h => exact absurd hk' (hne h)
        | _ => simp only [apply, this, Option.map_some]
      · intro g i _ hg
        have : i ≠ y.2.1 := by rintro rfl; exact hO.apart y g hy hg
        rw [e']; simp [supd, this]
      · intro i _ hc hl hf
        have : i ≠ y.2.1 := by rintro rfl; rw [hv] at hc; cases hc
        rw [e']
        refine ⟨by simp [supd, hc], hl, ?_⟩
        simp only [List.mem_cons, not_or]
        exact ⟨this, hf⟩
  -- all are
  have all : change s.tab.mem (s.tab.pc t) = .all → (∀ m : Heap K V, Thr al m s.hnd (s'.pc t) (s.task t)) →
      ∃ m hnd, apply al (s.task t) s.tab.mem.tab.contents s.heap s.hnd (change s.tab.mem (s.tab.pc t)) = some (m, hnd) ∧
        Inv al { s with tab := s', heap := m, hnd := hnd } := by
    intro hk ht
    obtain ⟨l1, l2⟩ := hlist hk
    rw [hk] at hm
    cases hm with
    | all hm =>
      obtain ⟨m', e, ho, hcell, hnext, hfreed⟩ := Own.freeAll s.tab.mem.tab.contents hO l1 (fun x hx => (l2 x).2 hx)
      have hin : ∀ i, i ∈ s.tab.mem.tab.contents.map Elem.node → ∃ y, s.tab.mem.elems y ∧ y.2.1 = i := by
        intro i hi
        obtain ⟨y, hy, rfl⟩ := List.mem_map.1 hi
        exact ⟨y, (l2 y).2 hy, rfl⟩
      refine done m' s.hnd ?_ (ho.congr fun x => ?_) hi.shp hnext (ht m') (fun u _ => (hi.thr u).frame (fun _ _ => rfl) ?_ ?_)
      · rw [hk]; simp only [apply, e, Option.map_some]
      · exact ⟨fun a => absurd a (hm x), fun a => absurd ((l2 x).1 a.1) a.2⟩
      · intro g i _ hg
        rw [hcell, if_neg]
        intro hmem
        obtain ⟨y, hy, rfl⟩ := hin i hmem
        exact hO.apart y g hy hg
      · intro i _ hc hl hf
        refine ⟨by rw [hcell]; split <;> simp [hc], by rw [hnext]; exact hl, fun hmem => ?_⟩
        rcases hfreed i hmem with a | a
        · exact hf a
        · obtain ⟨y, hy, rfl⟩ := hin i a
          obtain ⟨v, hv⟩ := hO.live y hy
          rw [hv] at hc; cases hc
  cases hk : s.task t with
  | none =>
    rw [hk] at hT
    have hT' : ∀ m : Heap K V, Thr al m s.hnd (s'.pc t) (s.task t) := by
      intro m
      rw [hk]
      intro o ho
      cases hp : (s.tab.pc t).pending with
      | none => rw [hno hp] at ho; cases ho
      | some o' =>
        rcases hown hp with ⟨a, _⟩ | ⟨r, a, _⟩
        · rw [a] at ho; cases ho; exact hT _ hp
        · rw [result_pending a] at ho; cases ho
    have hT1 := hT' s.heap
    rw [hk] at keep free all hT'
    cases hc : change s.tab.mem (s.tab.pc t) with
    | keep => rw [hc] at keep; exact keep rfl (hT' _)
    | put x =>
      obtain ⟨md, f2, f1, hp⟩ := change_put hc
      have := hT _ hp
      cases this
    | take y => rw [hc] at free; exact free y rfl (fun h e => nomatch e) hT'
    | all => rw [hc] at all; exact all rfl hT'
  | emplace i =>
    rw [hk] at hT
    rcases hT with ⟨md, x, f2, f1, a1, a2, a3, a4, a5⟩ | ⟨r, a1⟩
    · rcases hown a1 with ⟨b1, b2⟩ | ⟨r, b1, ⟨rfl, b2⟩ | ⟨rfl, b2⟩⟩
      · rw [← hk]; exact keep b2 (by rw [hk]; exact .inl ⟨md, x, f2, f1, b1, a2, a3, a4, a5⟩)
      · rw [← hk]
        have hm' := hm
        rw [b2] at hm'
        subst a2
        cases hm' with
        | put _ z hz hr =>
          refine done (construct s.heap al x) s.hnd ?_ ?_ hi.shp rfl (by rw [hk]; exact .inr ⟨1, b1⟩)
            (fun u hu => (hi.thr u).frame (fun _ _ => rfl) ?_ ?_)
          · rw [b2, hk]; rfl
          · have := hO.fresh_put (v := Elem.val x) (z := z) (by rw [hz]; exact a3) (by rw [hz]; exact a4) (by rw [hz]; exact a5) hr
            rw [hz] at this
            exact this
          · intro g i _ hg
            have : i ≠ x.2.1 := by
              rintro rfl
              obtain ⟨v, hv⟩ := hO.liveH g _ hg
              rw [hv] at a3; cases a3
            simp only [construct, supd, Elem.node, if_neg this]
          · intro i hui hc hl hf
            have : i ≠ x.2.1 := by
              rintro rfl
              exact hu (hi.emp u t _ hui hk)
            simp only [construct, supd, Elem.node, if_neg this]
            exact ⟨hc, hl, hf⟩
      · rw [← hk]; exact keep b2 (by rw [hk]; exact .inr ⟨0, b1⟩)
    · obtain ⟨b1, b2⟩ := hres a1 h1
      rw [← hk]; exact keep b2 (by rw [hk]; exact .inr ⟨r, b1⟩)
  | insert h =>
    rw [hk] at hT
    rcases hT with ⟨md, x, f2, f1, a1, a2, a3⟩ | ⟨a1, a2⟩ | ⟨a1, a2⟩
    · rcases hown a1 with ⟨b1, b2⟩ | ⟨r, b1, ⟨rfl, b2⟩ | ⟨rfl, b2⟩⟩
      · rw [← hk]; exact keep b2 (by rw [hk]; exact .inl ⟨md, x, f2, f1, b1, a2, a3⟩)
      · rw [← hk]
        have hm' := hm
        rw [b2] at hm'
        cases hm' with
        | put _ z hz hr =>
          refine done s.heap (upd s.hnd h { s.hnd h with p := none }) ?_ ?_ ?_ rfl ?_ (fun u hu => (hi.thr u).frame ?_ ?_ ?_)
          · rw [b2, hk]; rfl
          · exact hO.giveIn (by rw [a2, hz]) hr _ rfl
          · intro l
            simp only [supd]
            split
            · rw [a2]; exact .inr (.inr ⟨rfl, t, by rw [hk]; simp [*]⟩)
            · exact hi.shp l
          · rw [hk]; exact .inr (.inl ⟨b1, by simp [supd, a2]⟩)
          · intro g hg
            have : g ≠ h := by rintro rfl; exact hu (hi.use u t g hg (by rw [hk]; rfl))
            simp [supd, this]
          · intro g i _ _; rfl
          · intro i _ c1 c2 c3; exact ⟨c1, c2, c3⟩
      · rw [← hk]; exact keep b2 (by rw [hk]; exact .inr (.inr ⟨b1, _, a2⟩))
    · obtain ⟨b1, b2⟩ := hres a1 h1
      rw [← hk]; exact keep b2 (by rw [hk]; exact .inr (.inl ⟨b1, a2⟩))
    · obtain ⟨b1, b2⟩ := hres a1 h1
      rw [← hk]; exact keep b2 (by rw [hk]; exact .inr (.inr ⟨b1, a2⟩))
  | extract h =>
    rw [hk] at hT
    rcases hT with ⟨k, q, a1, a2⟩ | ⟨a1, a2⟩ | ⟨a1, a2⟩
    · rcases hown a1 with ⟨b1, b2⟩ | ⟨r, b1, ⟨rfl, y, b2⟩ | ⟨rfl, b2⟩⟩
      · rw [← hk]; exact keep b2 (by rw [hk]; exact .inl ⟨k, q, b1, a2⟩)
      · rw [← hk]
        have hm' := hm
        rw [b2] at hm'
        cases hm' with
        | take _ hy hr =>
          obtain ⟨vy, hvy⟩ := hO.live y hy
          refine done (store s.heap al y) (upd s.hnd h ⟨some y.2.1, some al⟩) ?_ ?_ ?_ rfl ?_
            (fun u hu => (hi.thr u).frame ?_ ?_ ?_)
          · rw [b2, hk]; simp [apply, a2, Open.emplace, Hnd.dflt, Elem.node]
          · exact hO.takeOut (by rw [a2]; rfl) hy hr
          · intro l
            simp only [supd]
            split
            · exact .inr (.inl ⟨_, rfl⟩)
            · exact hi.shp l
          · rw [hk]; exact .inr (.inl ⟨b1, y.2.1, by simp [supd]⟩)
          · intro g hg
            have : g ≠ h := by rintro rfl; exact hu (hi.use u t g hg (by rw [hk]; rfl))
            simp [supd, this]
          · intro g i _ hg
            have : i ≠ y.2.1 := by rintro rfl; exact hO.apart y g hy hg
            simp only [store, supd, Elem.node, if_neg this]
          · intro i _ c1 c2 c3
            have : i ≠ y.2.1 := by rintro rfl; rw [hvy] at c1; cases c1
            simp only [store, supd, Elem.node, if_neg this]
            exact ⟨c1, c2, c3⟩
      · rw [← hk]; exact keep b2 (by rw [hk]; exact .inr (.inr ⟨b1, a2⟩))
    · obtain ⟨b1, b2⟩ := hres a1 h1
      rw [← hk]; exact keep b2 (by rw [hk]; exact .inr (.inl ⟨b1, a2⟩))
    · obtain ⟨b1, b2⟩ := hres a1 h1
      rw [← hk]; exact keep b2 (by rw [hk]; exact .inr (.inr ⟨b1, a2⟩))

theorem not_using {s : St K V} {h : Nat} (hu : ∀ u, (s.task u).uses ≠ some h) : ¬ Inserting s h := by
  rintro ⟨u, e⟩
  exact hu u (by rw [e]; rfl)

/-- A handle not in use, without a node, has no allocator. -/
theorem Inv.dflt {al : Nat} {s : St K V} (hi : Inv al s) {h : Nat} (hu : ∀ u, (s.task u).uses ≠ some h)
    (hp : (s.hnd h).p = none) : s.hnd h = .dflt := by
  rcases hi.shp h with a | ⟨i, a⟩ | ⟨_, a⟩
  · exact a
  · rw [a] at hp; cases hp
  · exact absurd a (not_using hu)

/-- A handle not in use that has a node. -/
theorem Inv.full {al : Nat} {s : St K V} (hi : Inv al s) {h i : Nat} (hp : (s.hnd h).p = some i) : s.hnd h = ⟨some i, some al⟩ := by
  rcases hi.shp h with a | ⟨j, a⟩ | ⟨a, _⟩
  · rw [a] at hp; cases hp
  · rw [a] at hp ⊢; cases hp; rfl
  · rw [a] at hp; cases hp

theorem Inv.call_step {al : Nat} {s : St K V} (hi : Inv al s) {t : Nat} {c : Call K V} {o : Op K (Nat × V)} (hf : Free s t)
    (hpre : c.Pre al s) (ho : c.op s = some o) (hw : NoWrap s.tab) :
    Inv al { s with tab := s.tab.set t s.tab.mem (.start o), task := upd s.task t (c.task s),
                    heap := { s.heap with next := c.next s } } := by
  obtain ⟨hf1, hf2⟩ := hf
  have hstep : StepBy ({} : Foa.Cfg) t s.tab (s.tab.set t s.tab.mem (.start o)) := by
    refine .quiet ?_
    rcases hf2 with e | ⟨r, e⟩
    · rw [e]; exact .call o
    · rw [e]; exact .callAgain r o
  have hnext : s.heap.next ≤ c.next s := by unfold Call.next; split <;> omega
  have hpc : ∀ u, (s.tab.set t s.tab.mem (.start o)).pc u = if u = t then .start o else s.tab.pc u := fun u => rfl
  have huses : ∀ h, (c.task s).uses = some h → ∀ u, (s.task u).uses ≠ some h := by
    intro h e
    cases c <;> simp only [Call.task, Task.uses] at e <;> first | (cases e; done) | skip
    · cases e; exact hpre.1
    · cases e; exact hpre.1
  have hemp : ∀ i, c.task s = .emplace i → i = s.heap.next ∧ c.next s = s.heap.next + 1 := by
    intro i e
    cases c <;> simp only [Call.task] at e <;> cases e
    exact ⟨rfl, rfl⟩
  refine ⟨hi.good, hi.tab.step hw hstep, fun u => ?_, fun u => ?_, fun h => ?_, fun u v h => ?_, fun u v i => ?_, fun u i => ?_, ?_⟩
  · show Fine ((s.tab.set t s.tab.mem (.start o)).pc u)
    rw [hpc]
    split
    · cases c with
      | visit m k f => cases ho; exact fun y => rfl
      | emplace m x f2 f1 => cases ho; exact ⟨fun y => rfl, fun y => rfl⟩
      | insertNode m h f2 f1 =>
        simp only [Call.op] at ho
        (repeat' split at ho) <;> cases ho
        exact ⟨fun y => rfl, fun y => rfl⟩
      | erase k p =>
        cases ho
        intro y v hv
        simp only [onValueP, Option.map_eq_some_iff] at hv
        obtain ⟨w, _, rfl⟩ := hv
        rfl
      | extract h k p =>
        cases ho
        intro y v hv
        simp only [onValueP, Option.map_eq_some_iff] at hv
        obtain ⟨w, _, rfl⟩ := hv
        rfl
      | sweep m act =>
        cases ho
        refine ⟨fun y v n hv => ?_, fun y v n hv => ?_⟩ <;> simp only [onValueA] at hv <;> split at hv <;> cases hv <;> rfl
      | rehash n => cases ho; trivial
      | reserve n => cases ho; trivial
      | clear => cases ho; trivial
    · exact hi.fine u
  · show Thr al _ s.hnd ((s.tab.set t s.tab.mem (.start o)).pc u) (upd s.task t (c.task s) u)
    rw [hpc, supd]
    by_cases hut : u = t
    · simp only [if_pos hut]
      cases c with
      | visit m k f => cases ho; intro o' e; cases e; rfl
      | emplace m x f2 f1 =>
        cases ho
        obtain ⟨a, b⟩ := hi.own.fresh _ (le_refl _)
        exact .inl ⟨_, _, _, _, rfl, rfl, a, Nat.lt_succ_self _, b⟩
      | insertNode m h f2 f1 =>
        simp only [Call.op] at ho
        split at ho
        · cases ho
        · rename_i i hp
          split at ho
          · cases ho
          · rename_i x a hc
            cases ho
            have hful := hi.full hp
            obtain ⟨v, hv⟩ := hi.own.liveH h i hp
            rw [hc] at hv; cases hv
            exact .inl ⟨_, _, _, _, rfl, hful, hc⟩
      | erase k p => cases ho; intro o' e; cases e; rfl
      | extract h k p => cases ho; exact .inl ⟨_, _, rfl, hi.dflt hpre.1 hpre.2⟩
      | sweep m act => cases ho; intro o' e; cases e
      | rehash n => cases ho; intro o' e; cases e
      | reserve n => cases ho; intro o' e; cases e
      | clear => cases ho; intro o' e; cases e
    · simp only [if_neg hut]
      exact (hi.thr u).frame (fun _ _ => rfl) (fun _ _ _ _ => rfl) (fun i _ a b d => ⟨a, Nat.lt_of_lt_of_le b hnext, d⟩)
  · rcases hi.shp h with a | a | ⟨a, v, b⟩
    · exact .inl a
    · exact .inr (.inl a)
    · refine .inr (.inr ⟨a, v, ?_⟩)
      have : v ≠ t := by rintro rfl; rw [hf1] at b; cases b
      show upd s.task t (c.task s) v = _
      rw [supd, if_neg this, b]
  · show (upd s.task t (c.task s) u).uses = some h → (upd s.task t (c.task s) v).uses = some h → u = v
    simp only [supd]
    by_cases e1 : u = t <;> by_cases e2 : v = t
    · intros; rw [e1, e2]
    · simp only [if_pos e1, if_neg e2]; intro a b; exact absurd b (huses h a v)
    · simp only [if_neg e1, if_pos e2]; intro a b; exact absurd a (huses h b u)
    · simp only [if_neg e1, if_neg e2]; exact hi.use u v h
  · show upd s.task t (c.task s) u = .emplace i → upd s.task t (c.task s) v = .emplace i → u = v
    simp only [supd]
    by_cases e1 : u = t <;> by_cases e2 : v = t
    · intros; rw [e1, e2]
    · simp only [if_pos e1, if_neg e2]
      intro a b
      have := hi.lt v i b
      have := (hemp i a).1
      omega
    · simp only [if_neg e1, if_pos e2]
      intro a b
      have := hi.lt u i a
      have := (hemp i b).1
      omega
    · simp only [if_neg e1, if_neg e2]; exact hi.emp u v i
  · show upd s.task t (c.task s) u = .emplace i → i < c.next s
    simp only [supd]
    split
    · intro a
      have := hemp i a
      omega
    · intro a
      exact Nat.lt_of_lt_of_le (hi.lt u i a) hnext
  · obtain ⟨h1, h2, h3, h4, h5, h6, h7, h8, h9⟩ := hi.own
    exact ⟨h1, h2, h3, h4, h5, h6, fun i hl => h7 i (Nat.le_trans hnext hl), h8, h9⟩

/-- The end of a call. -/
theorem Inv.ret_step {al : Nat} {s : St K V} (hi : Inv al s) {t r : Nat} (hp : s.tab.pc t = .done r) :
    ∃ hnd, finish s.hnd (s.task t) r = some hnd ∧ Inv al { s with hnd := hnd, task := upd s.task t .none } ∧
      (∀ h, s.task t = .insert h → r = 1 → hnd h = .dflt) ∧
      (∀ h, ¬ (s.task t = .insert h ∧ r = 1) → hnd h = s.hnd h) := by
  have hT := hi.thr t
  rw [hp] at hT
  have common : ∀ hnd : Nat → Hnd, Own al s.tab.mem.elems s.heap hnd → (∀ g, s.task t ≠ .insert g → hnd g = s.hnd g) →
      (∀ g, s.task t = .insert g → (∃ i, hnd g = ⟨some i, some al⟩) ∨ hnd g = .dflt) →
      Inv al { s with hnd := hnd, task := upd s.task t .none } := by
    intro hnd ho h1 h2
    refine ⟨hi.good, hi.tab, hi.fine, fun u => ?_, fun g => ?_, fun u v h => ?_, fun u v i => ?_, fun u i => ?_, ho⟩
    · show Thr al s.heap hnd (s.tab.pc u) (upd s.task t .none u)
      rw [supd]
      split
      · rename_i e
        subst e
        rw [hp]
        intro o e; cases e
      · rename_i hu
        refine (hi.thr u).frame (fun g hg => h1 g ?_) (fun _ _ _ _ => rfl) (fun i _ a b c => ⟨a, b, c⟩)
        intro e
        exact hu (hi.use u t g hg (by rw [e]; rfl))
    · by_cases e : s.task t = .insert g
      · rcases h2 g e with a | a
        · exact .inr (.inl a)
        · exact .inl a
      · show hnd g = _ ∨ (∃ i, hnd g = _) ∨ hnd g = _ ∧ _
        rw [h1 g e]
        rcases hi.shp g with a | a | ⟨a, u, b⟩
        · exact .inl a
        · exact .inr (.inl a)
        · refine .inr (.inr ⟨a, u, ?_⟩)
          have : u ≠ t := by rintro rfl; exact e b
          show upd s.task t .none u = _
          rw [supd, if_neg this, b]
    · show (upd s.task t .none u).uses = some h → (upd s.task t .none v).uses = some h → u = v
      simp only [supd]
      split
      · intro a; cases a
      · split
        · intro _ a; cases a
        · exact hi.use u v h
    · show upd s.task t .none u = .emplace i → upd s.task t .none v = .emplace i → u = v
      simp only [supd]
      split
      · intro a; cases a
      · split
        · intro _ a; cases a
        · exact hi.emp u v i
    · show upd s.task t .none u = .emplace i → i < s.heap.next
      simp only [supd]
      split
      · intro a; cases a
      · exact hi.lt u i
  cases hk : s.task t with
  | insert h =>
    rw [hk] at hT
    rcases hT with ⟨md, x, f2, f1, a1, _⟩ | ⟨a1, a2⟩ | ⟨a1, i, a2⟩
    · cases a1
    · cases a1
      refine ⟨upd s.hnd h .dflt, by simp [finish, a2, Open.reset, Hnd.dflt], common _ ?_ ?_ ?_, ?_, ?_⟩
      · exact hi.own.hnd_none fun l => by
          simp only [supd]
          split
          · rename_i e; rw [e, a2]; rfl
          · rfl
      · intro g hg
        have : g ≠ h := by rintro rfl; exact hg hk
        simp [supd, this]
      · intro g hg
        rw [hk] at hg; cases hg
        exact .inr (by simp [supd])
      · intro g hg _; cases hg; simp [supd]
      · intro g hg
        have : g ≠ h := by rintro rfl; exact hg ⟨rfl, rfl⟩
        simp [supd, this]
    · cases a1
      have e : upd s.hnd h ⟨some i, some al⟩ = s.hnd := by
        funext l
        simp only [supd]
        split
        · rename_i e; rw [e, a2]
        · rfl
      refine ⟨s.hnd, ?_, common _ hi.own (fun _ _ => rfl) ?_, ?_, fun _ _ => rfl⟩
      · simp only [finish, a2, Open.refused, Open.moveCtor, Open.take, Open.alOf, Open.emplace, Open.reset, Hnd.dflt]
        simp [e]
      · intro g hg
        rw [hk] at hg; cases hg
        exact .inl ⟨i, a2⟩
      · intro g _ hr; cases hr
  | none => exact ⟨s.hnd, rfl, common _ hi.own (fun _ _ => rfl) (fun g hg => by rw [hk] at hg; cases hg), (fun h hh => nomatch hh), fun _ _ => rfl⟩
  | emplace i => exact ⟨s.hnd, rfl, common _ hi.own (fun _ _ => rfl) (fun g hg => by rw [hk] at hg; cases hg), (fun h hh => nomatch hh), fun _ _ => rfl⟩
  | extract h => exact ⟨s.hnd, rfl, common _ hi.own (fun _ _ => rfl) (fun g hg => by rw [hk] at hg; cases hg), (fun h hh => nomatch hh), fun _ _ => rfl⟩

/-- Handles and memory change without the container, handles in use excepted. -/
theorem Inv.handles {al : Nat} {s : St K V} (hi : Inv al s) {m : Heap K V} {hnd : Nat → Hnd}
    (ho : Own al s.tab.mem.elems m hnd) (hn : m.next = s.heap.next)
    (h1 : ∀ g, (∃ u, (s.task u).uses = some g) → hnd g = s.hnd g)
    (h2 : ∀ g, (∀ u, (s.task u).uses ≠ some g) → hnd g = .dflt ∨ ∃ i, hnd g = ⟨some i, some al⟩)
    (h3 : ∀ g i, (∃ u, (s.task u).uses = some g) → (s.hnd g).p = some i → m.cell i = s.heap.cell i)
    (h4 : ∀ i, s.heap.cell i = none → i ∉ s.heap.freed → m.cell i = none ∧ i ∉ m.freed) :
    Inv al { s with heap := m, hnd := hnd } := by
  refine ⟨hi.good, hi.tab, hi.fine, fun u => (hi.thr u).frame (fun g hg => h1 g ⟨u, hg⟩)
    (fun g i e hg => h3 g i ⟨u, by rw [e]; rfl⟩ hg) (fun i _ a b c => ⟨(h4 i a c).1, by rw [hn]; exact b, (h4 i a c).2⟩),
    fun g => ?_, hi.use, hi.emp, fun u i e => by show i < m.next; rw [hn]; exact hi.lt u i e, ho⟩
  by_cases hu : ∃ u, (s.task u).uses = some g
  · show hnd g = _ ∨ (∃ i, hnd g = _) ∨ hnd g = _ ∧ _
    rw [h1 g hu]; exact hi.shp g
  · rcases h2 g (fun u e => hu ⟨u, e⟩) with a | a
    · exact .inl a
    · exact .inr (.inl a)

/-- A handle's node is freed. -/
theorem Inv.freeH {al : Nat} {s : St K V} (hi : Inv al s) {h i : Nat} (hu : ∀ u, (s.task u).uses ≠ some h)
    (hp : (s.hnd h).p = some i) : ∃ m, s.heap.free al i = some m ∧ Inv al { s with heap := m, hnd := upd s.hnd h .dflt } := by
  obtain ⟨m, e, ho⟩ := hi.own.freeH hp (x' := .dflt) rfl
  obtain ⟨e', v, hv⟩ := free_eq e
  refine ⟨m, e, hi.handles ho (by rw [e']) ?_ ?_ ?_ ?_⟩
  · rintro g ⟨u, hg⟩
    have : g ≠ h := by rintro rfl; exact hu u hg
    simp [supd, this]
  · intro g hg
    simp only [supd]
    split
    · exact .inl rfl
    · rcases hi.shp g with a | a | ⟨_, b⟩
      · exact .inl a
      · exact .inr a
      · exact absurd b (not_using hg)
  · rintro g j ⟨u, hg⟩ hj
    have : j ≠ i := by rintro rfl; have := hi.own.uniqH g h _ hj hp; subst this; exact hu u hg
    rw [e']; simp [supd, this]
  · intro j hc hf
    have : j ≠ i := by rintro rfl; rw [hv] at hc; cases hc
    rw [e']
    refine ⟨by simp [supd, hc], ?_⟩
    simp only [List.mem_cons, not_or]
    exact ⟨this, hf⟩

theorem Inv.drop_step {al : Nat} {s : St K V} (hi : Inv al s) {h : Nat} (hu : ∀ u, (s.task u).uses ≠ some h) :
    ∃ m, Open.destroy s.heap (s.hnd h) = some m ∧ Inv al { s with heap := m, hnd := upd s.hnd h .dflt } := by
  cases hp : (s.hnd h).p with
  | none =>
    have hd := hi.dflt hu hp
    refine ⟨s.heap, by rw [hd]; rfl, ?_⟩
    have : upd s.hnd h .dflt = s.hnd := by
      funext l; simp only [supd]; split
      · rename_i e; rw [e, hd]
      · rfl
    rw [this]; exact hi
  | some i =>
    obtain ⟨m, e, h1⟩ := hi.freeH hu hp
    refine ⟨m, ?_, h1⟩
    rw [hi.full hp]
    simp [Open.destroy, Open.destroyNode, Open.alOf, Open.reset, e]

theorem Inv.move_step {al : Nat} {s : St K V} (hi : Inv al s) (pocma : Bool) {g h : Nat} (hgh : g ≠ h)
    (huh : ∀ u, (s.task u).uses ≠ some h) (hug : ∀ u, (s.task u).uses ≠ some g) :
    ∃ r, Open.assign pocma s.heap (s.hnd g) (s.hnd h) = some r ∧
      Inv al { s with heap := r.1, hnd := upd (upd s.hnd g r.2.1) h r.2.2 } ∧ r.2.1 = s.hnd h ∧ r.2.2 = .dflt := by
  have hno : ∀ l, (∃ u, (s.task u).uses = some l) → l ≠ g ∧ l ≠ h := by
    rintro l ⟨u, hl⟩
    exact ⟨by rintro rfl; exact hug u hl, by rintro rfl; exact huh u hl⟩
  -- the target has no node
  have empty : ∀ {s : St K V}, Inv al s → (∀ u, (s.task u).uses ≠ some h) → (∀ u, (s.task u).uses ≠ some g) →
      (s.hnd g).p = none →
      Inv al { s with hnd := upd (upd s.hnd g (s.hnd h)) h .dflt } := by
    intro s hi huh hug hg
    have hno : ∀ l, (∃ u, (s.task u).uses = some l) → l ≠ g ∧ l ≠ h := by
      rintro l ⟨u, hl⟩
      exact ⟨by rintro rfl; exact hug u hl, by rintro rfl; exact huh u hl⟩
    refine hi.handles (m := s.heap) (hi.own.pass hg hgh rfl rfl) rfl ?_ ?_ (fun _ _ _ _ => rfl) (fun i a b => ⟨a, b⟩)
    · intro l hl
      obtain ⟨a, b⟩ := hno l hl
      simp [supd, a, b]
    · intro l hl
      have key : ∀ l, (∀ u, (s.task u).uses ≠ some l) → s.hnd l = .dflt ∨ ∃ i, s.hnd l = ⟨some i, some al⟩ := by
        intro l hl
        rcases hi.shp l with a | a | ⟨_, b⟩
        · exact .inl a
        · exact .inr a
        · exact absurd b (not_using hl)
      simp only [supd]
      split
      · exact .inl rfl
      · split
        · exact key h huh
        · exact key l hl
  cases hg : (s.hnd g).p with
  | none =>
    have hgd := hi.dflt hug hg
    have h1 := empty hi huh hug hg
    cases hh : (s.hnd h).p with
    | none =>
      have hhd := hi.dflt huh hh
      rw [hhd] at h1 ⊢
      exact ⟨(s.heap, .dflt, .dflt), by rw [hgd]; rfl, h1, rfl, rfl⟩
    | some i =>
      have hhf := hi.full hh
      rw [hhf] at h1 ⊢
      refine ⟨(s.heap, ⟨some i, some al⟩, .dflt), ?_, h1, rfl, rfl⟩
      rw [hgd]
      simp [Open.assign, Open.take, Open.alOf, Open.emplace, Open.reset, Hnd.dflt]
  | some j =>
    have hgf := hi.full hg
    obtain ⟨m, e, hm⟩ := hi.freeH hug hg
    have h1 := empty hm huh hug (by simp [supd, Hnd.dflt])
    have e1 : upd s.hnd g .dflt h = s.hnd h := by rw [supd, if_neg (Ne.symm hgh)]
    have e2 : upd (upd (upd s.hnd g .dflt) g (s.hnd h)) h .dflt = upd (upd s.hnd g (s.hnd h)) h .dflt := by
      funext l; simp only [supd]; split
      · rfl
      · split <;> rfl
    simp only [e1, e2] at h1
    cases hh : (s.hnd h).p with
    | none =>
      have hhd := hi.dflt huh hh
      rw [hhd] at h1 ⊢
      refine ⟨(m, .dflt, .dflt), ?_, h1, rfl, rfl⟩
      rw [hgf]
      simp [Open.assign, Open.destroyNode, Open.alOf, Open.reset, Hnd.dflt, e]
    | some i =>
      have hhf := hi.full hh
      rw [hhf] at h1 ⊢
      refine ⟨(m, ⟨some i, some al⟩, .dflt), ?_, h1, rfl, rfl⟩
      rw [hgf]
      simp [Open.assign, Open.destroyNode, Open.alOf, Open.reset, Hnd.dflt, e]

theorem Inv.write_step {al : Nat} {s : St K V} (hi : Inv al s) {h i : Nat} (f : K × V → K × V)
    (hu : ∀ u, (s.task u).uses ≠ some h) (hp : (s.hnd h).p = some i) :
    ∃ x m, s.heap.cell i = some (x, al) ∧ s.heap.write i f = some m ∧ m = { s.heap with cell := upd s.heap.cell i (some (f x, al)) } ∧
      Inv al { s with heap := m } := by
  obtain ⟨v, hv⟩ := hi.own.liveH h i hp
  refine ⟨v, { s.heap with cell := upd s.heap.cell i (some (f v, al)) }, hv, by unfold Heap.write; rw [hv], rfl, ?_⟩
  obtain ⟨h1, h2, h3, h4, h5, h6, h7, h8, h9⟩ := hi.own
  have := hi.handles (m := { s.heap with cell := upd s.heap.cell i (some (f v, al)) }) (hnd := s.hnd) ?_ rfl (fun _ _ => rfl) ?_ ?_ ?_
  · exact this
  · refine ⟨fun x hx => ?_, fun l j hl => ?_, h3, h4, h5, fun j hj => h6 j ?_, fun j hj => ?_, fun j hj => ?_, h9⟩
    · simp only [supd]; split
      · exact ⟨_, rfl⟩
      · exact h1 x hx
    · simp only [supd]; split
      · exact ⟨_, rfl⟩
      · exact h2 l j hl
    · simp only [supd] at hj
      split at hj
      · rename_i e; rw [e, hv]; simp
      · exact hj
    · have : j ≠ i := by rintro rfl; rw [(h7 _ hj).1] at hv; cases hv
      simp only [supd, if_neg this]; exact h7 j hj
    · have : j ≠ i := by rintro rfl; rw [h8 _ hj] at hv; cases hv
      simp only [supd, if_neg this]; exact h8 j hj
  · intro g hg
    rcases hi.shp g with a | a | ⟨_, b⟩
    · exact .inl a
    · exact .inr a
    · exact absurd b (not_using hg)
  · rintro g j ⟨u, hg⟩ hj
    have : j ≠ i := by rintro rfl; have := h5 g h _ hj hp; subst this; exact hu u hg
    simp [supd, this]
  · intro j hc hf
    have : j ≠ i := by rintro rfl; rw [hv] at hc; cases hc
    exact ⟨by simp [supd, this, hc], hf⟩

theorem Inv.step {cfg : Foa.Cfg} {pocma : Bool} {al : Nat} {s s' : St K V} {lab : Lab K V} (hi : Inv al s) (hw : NoWrap s.tab)
    (h : Step cfg pocma al s lab s') : Inv al s' := by
  cases h with
  | call t c o hf hp ho => exact hi.call_step hf hp ho hw
  | tab t s1 m hnd h0 h1 hs he =>
    obtain ⟨m', hnd', e, h⟩ := hi.tab_step hw h0 h1 hs
    rw [he] at e; cases e; exact h
  | tabBad t s1 h0 h1 hs he =>
    obtain ⟨m', hnd', e, h⟩ := hi.tab_step hw h0 h1 hs
    rw [he] at e; cases e
  | ret t r hnd hp hn he =>
    obtain ⟨hnd', e, h, _⟩ := hi.ret_step hp
    rw [he] at e; cases e; exact h
  | retBad t r hp hn he =>
    obtain ⟨hnd', e, h, _⟩ := hi.ret_step hp
    rw [he] at e; cases e
  | drop g m hu he =>
    obtain ⟨m', e, h⟩ := hi.drop_step hu
    rw [he] at e; cases e; exact h
  | dropBad g hu he =>
    obtain ⟨m', e, h⟩ := hi.drop_step hu
    rw [he] at e; cases e
  | move g l r hgl hu he =>
    obtain ⟨r', e, h, _⟩ := hi.move_step pocma hgl (fun u => (hu u).1) (fun u => (hu u).2)
    rw [he] at e; cases e; exact h
  | moveBad g l hgl hu he =>
    obtain ⟨r', e, h, _⟩ := hi.move_step pocma hgl (fun u => (hu u).1) (fun u => (hu u).2)
    rw [he] at e; cases e
  | write g i m f hu hp he =>
    obtain ⟨x, m', _, e, _, h⟩ := hi.write_step f hu hp
    rw [he] at e; cases e; exact h
  | writeBad g i f hu hp he =>
    obtain ⟨x, m', _, e, _, h⟩ := hi.write_step f hu hp
    rw [he] at e; cases e

theorem Inv.init (cfg : Foa.Cfg) {f : Fns K} (hf : f.Lawful) (al n : Nat) : Inv al (init cfg f al n : St K V) := by
  have hi : SInv (Conc.Tab.init cfg f al n : State K (Nat × V)) := SInv.init cfg hf al n
  have he : ∀ x, ¬ (Conc.Tab.init cfg f al n : State K (Nat × V)).mem.elems x := by
    intro x hx
    have hq := hi.quiescent (fun u => rfl)
    rw [mem_elems hq] at hx
    have : (Table.mk_ cfg f al n : Table K (Nat × V)).contents = [] := mk_contents cfg f al n
    rw [show (Conc.Tab.init cfg f al n : State K (Nat × V)).mem.tab = Table.mk_ cfg f al n from rfl, this] at hx
    cases hx
  refine ⟨rfl, hi, fun t => trivial, fun t o h => ?_, fun h => .inl rfl, fun t u h a => ?_, fun t u i a => ?_, fun t i a => ?_, ?_⟩
  · cases h
  · cases a
  · cases a
  · cases a
  · exact ⟨fun x hx => absurd hx (he x), (fun h i hh => nomatch hh), fun x y hx => absurd hx (he x), fun x h hx => absurd hx (he x),
      (fun g h i hh => nomatch hh), fun i hi' => absurd rfl hi', fun i _ => ⟨rfl, List.not_mem_nil⟩, fun i hi' => rfl, List.nodup_nil⟩

theorem Reach.inv {cfg : Foa.Cfg} {pocma : Bool} {f : Fns K} (hf : f.Lawful) {al n : Nat} {s : St K V}
    (h : Reach cfg pocma f al n s) : Inv al s := by
  induction h with
  | init => exact Inv.init cfg hf al n
  | step _ hw hs ih => exact ih.step hw hs

/-- The container by itself. -/
theorem Reach.tab {cfg : Foa.Cfg} {pocma : Bool} {f : Fns K} {al n : Nat} {s : St K V} (h : Reach cfg pocma f al n s) :
    Conc.Tab.Reach cfg f al n s.tab := by
  induction h with
  | init => exact .init
  | step _ hw hs ih =>
    cases hs with
    | call t c o hf hp ho =>
      refine .step ih hw ⟨t, .quiet ?_⟩
      rcases hf.2 with e | ⟨r, e⟩
      · rw [e]; exact .call o
      · rw [e]; exact .callAgain r o
    | tab t s1 m hnd h0 h1 hs he => exact .step ih hw ⟨t, hs⟩
    | _ => exact ih

end Conc.Nodes

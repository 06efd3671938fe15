/-
C34: node handles own exactly one node or none; every node has one owner and is destroyed exactly once.
Specification: `Verif/SpecNode.lean`. Model: `Verif/Node/*.lean` over the tables of `Verif/Foa/Table.lean` (unordered_node_map,
unordered_node_set) and `Verif/Fca/Table.lean` (unordered_map/set/multimap/multiset).
-/
import Verif.Node.Step
import Verif.Node.FoaCont
import Verif.Node.FcaCont

namespace Node.Props
open Spec (upd)
open SpecNode (Op Owner)
variable {K V C : Type}

/-- `o` holds a pointer to node `i`. `ct` lists (key, node) pairs of a container object. -/
def Holds (ct : C → List (K × Nat)) (s : St K V C) : Owner → Nat → Prop
  | .cont c, i => i ∈ (ct (s.c c)).map Prod.snd
  | .hand h, i => (s.h h).p = some i

/-- The allocator an owner would free its nodes with. -/
def AlOf (al : C → Nat) (s : St K V C) : Owner → Option Nat
  | .cont c => some (al (s.c c))
  | .hand h => (s.h h).a

/-- Sound memory: a node is alive iff somebody holds it; then exactly one owner does, once, and would free it with the
allocator it came from; a container's copy of a key is the key in the node; every node allocated so far that is not alive has
been freed exactly once. -/
structure Sound (ct : C → List (K × Nat)) (al : C → Nat) (s : St K V C) : Prop where
  held : ∀ i, s.m.cell i ≠ none → ∃ o, Holds ct s o i
  alive : ∀ o i, Holds ct s o i → s.m.cell i ≠ none
  one : ∀ o o' i, Holds ct s o i → Holds ct s o' i → o = o'
  once : ∀ c, ((ct (s.c c)).map Prod.snd).Nodup
  alloc : ∀ o i x a, Holds ct s o i → s.m.cell i = some (x, a) → AlOf al s o = some a
  key : ∀ c k i x a, (k, i) ∈ ct (s.c c) → s.m.cell i = some (x, a) → x.1 = k
  freed : ∀ i, i < s.m.next → s.m.cell i = none → s.m.freed.count i = 1
  notFreed : ∀ i, s.m.cell i ≠ none → s.m.freed.count i = 0

/-- The state is the one described by the specification state `a`. -/
structure Shows (ct : C → List (K × Nat)) (s : St K V C) (a : SpecNode.St K V) : Prop where
  owner : ∀ o i, a.own i = some o ↔ Holds ct s o i
  value : ∀ i o, a.own i = some o → (s.m.cell i).map Prod.fst = some (a.elem i)

section
variable {I : ContImpl K C} {u kp : Bool} {L : Laws I u kp} {s : St K V C} {a : ASt K V}

theorem holds_iff (h : R L s a) (o : Owner) (i : Nat) : Holds L.contents s o i ↔ a.own i = some o := by
  cases o with
  | cont c =>
    unfold Holds
    constructor
    · intro hm
      obtain ⟨⟨k, j⟩, h1, h2⟩ := List.mem_map.1 hm
      dsimp only at h2; subst h2
      exact ((h.c c).mem _ _ |>.1 h1).1
    · intro ho
      exact List.mem_map.2 ⟨((a.elem i).1, i), ((h.c c).mem _ _).2 ⟨ho, rfl⟩, rfl⟩
  | hand g => exact (h.h g).ptr i

theorem shows_of (h : R L s a) : Shows L.contents s a :=
  ⟨fun o i => (holds_iff h o i).symm, fun i o ho => by rw [h.m.cell, ho]; rfl⟩

theorem sound_of (h : R L s a) : Sound L.contents I.al s where
  held i hi := by
    rw [h.m.cell] at hi
    cases ho : a.own i with
    | none => rw [ho] at hi; exact absurd rfl hi
    | some o => exact ⟨o, (holds_iff h o i).2 ho⟩
  alive o i ho := by rw [h.m.cell, (holds_iff h o i).1 ho]; simp
  one o o' i h1 h2 := by
    have e1 := (holds_iff h o i).1 h1
    have e2 := (holds_iff h o' i).1 h2
    rw [e1] at e2; exact Option.some.inj e2
  once c := (h.c c).nodup
  alloc o i x al ho hc := by
    have e1 := (holds_iff h o i).1 ho
    rw [h.m.cell, e1] at hc
    have e2 : ownerAl a o = al := by
      have := Option.some.inj hc
      exact congrArg Prod.snd this
    cases o with
    | cont c =>
      show some (I.al (s.c c)) = some al
      rw [(h.c c).al]; exact congrArg some e2
    | hand g =>
      show (s.h g).a = some al
      have hp : (s.h g).p = some i := ho
      have hs := (h.h g).some_ (by rw [hp]; rfl)
      have hh := (h.h g).hal
      obtain ⟨b, hb⟩ := Option.isSome_iff_exists.1 hs
      rw [hb]
      rw [hb] at hh
      have e2 : (a.hal g).getD 0 = al := e2
      rw [← hh] at e2
      exact congrArg some e2
  key c k i x al hm hc := by
    obtain ⟨e1, e2⟩ := ((h.c c).mem _ _).1 hm
    rw [h.m.cell, e1] at hc
    have := congrArg Prod.fst (Option.some.inj hc)
    dsimp only at this
    rw [← this]; exact e2
  freed i hi hc := by
    refine List.count_eq_one_of_mem h.m.once ((h.m.freed i).2 ⟨hi, ?_⟩)
    rw [h.m.cell] at hc
    cases ho : a.own i with
    | none => rfl
    | some o => rw [ho] at hc; cases hc
  notFreed i hc := by
    refine List.count_eq_zero_of_not_mem (fun hm => ?_)
    have := ((h.m.freed i).1 hm).2
    rw [h.m.cell, this] at hc
    exact hc rfl

end

/-- variables of a call are below `n` -/
def Below (n : Nat) : Op K V → Prop
  | .construct c _ _ _ => c < n
  | .emplace c _ => c < n
  | .erase c _ => c < n
  | .clear c => c < n
  | .extract c h _ => c < n ∧ h < n
  | .insert c h g => c < n ∧ h < n ∧ g < n
  | .insertHint c _ h => c < n ∧ h < n
  | .moveHandle g h => g < n ∧ h < n
  | .assignHandle g h => g < n ∧ h < n
  | .swapHandles g h => g < n ∧ h < n
  | .resetHandle g => g < n
  | .setKey h _ => h < n
  | .setMapped h _ => h < n
  | .merge c d => c < n ∧ d < n
  | .swap c d => c < n ∧ d < n
  | .moveAssign c d => c < n ∧ d < n

def ownerIdx : Owner → Nat
  | .cont c => c
  | .hand h => h

/-- nobody outside the variables below `n` owns a node -/
def In (n : Nat) (own : Nat → Option Owner) : Prop := ∀ i o, own i = some o → ownerIdx o < n

theorem In.give {n : Nat} {own : Nat → Option Owner} (h : In n own) (src : Owner) {o : Option Owner}
    (ho : ∀ p, o = some p → ownerIdx p < n) : In n (SpecNode.give own src o) := by
  intro i p hp
  unfold SpecNode.give at hp
  split at hp
  · exact ho p hp
  · exact h i p hp

theorem In.upd {n : Nat} {own : Nat → Option Owner} (h : In n own) (j : Nat) {o : Owner} (ho : ownerIdx o < n) :
    In n (Spec.upd own j (some o)) := by
  intro i p hp
  unfold Spec.upd at hp
  split at hp
  · cases hp; exact ho
  · exact h i p hp

theorem In.exchange {n : Nat} {own : Nat → Option Owner} (h : In n own) {x y : Owner} (hx : ownerIdx x < n)
    (hy : ownerIdx y < n) : In n (SpecNode.exchange own x y) := by
  intro i p hp
  unfold SpecNode.exchange at hp
  split at hp
  · cases hp; exact hy
  · split at hp
    · cases hp; exact hx
    · exact h i p hp

theorem In.step {cfg : SpecNode.Cfg} {n : Nat} {a a' : SpecNode.St K V} {op : Op K V} {b : Bool} (h : In n a.own)
    (hb : Below n op) (hs : SpecNode.Step cfg a op b a') : In n a'.own := by
  have hn : ∀ (p : Owner), (none : Option Owner) = some p → ownerIdx p < n := by intro p hp; cases hp
  cases op with
  | construct c hh e al => obtain ⟨-, rfl⟩ := hs; exact h.give _ hn
  | emplace c x =>
    rcases hs with ⟨-, -, -, rfl⟩ | ⟨-, -, i, -, rfl⟩
    · exact h
    · exact h.upd i hb
  | erase c k =>
    obtain ⟨-, rfl⟩ := hs
    intro i p hp
    dsimp only at hp
    split at hp
    · cases hp
    · exact h i p hp
  | clear c => obtain ⟨-, rfl⟩ := hs; exact h.give _ hn
  | extract c g k =>
    rcases hs with ⟨-, -, rfl⟩ | ⟨-, i, -, -, rfl⟩
    · exact h.give _ hn
    · exact (h.give _ hn).upd i hb.2
  | insert c g g' =>
    have ho : In n (if cfg.uniq then SpecNode.give a.own (.hand g') none else a.own) := by
      split
      · exact h.give _ hn
      · exact h
    rcases hs with ⟨-, -, rfl⟩ | ⟨i, -, -, -, -, rfl⟩ | ⟨i, -, -, -, rfl⟩
    · exact ho
    · exact ho.upd i hb.2.2
    · exact ho.upd i hb.1
  | insertHint c j g =>
    rcases hs with ⟨-, -, rfl⟩ | ⟨i, -, -, -, -, rfl⟩ | ⟨i, -, -, -, rfl⟩
    · exact h
    · exact h
    · exact h.upd i hb.1
  | moveHandle g g' =>
    obtain ⟨-, rfl⟩ := hs
    exact (h.give _ hn).give _ (fun p hp => by cases hp; exact hb.1)
  | assignHandle g g' =>
    obtain ⟨-, rfl⟩ := hs
    split
    · exact h.give _ hn
    · exact (h.give _ hn).give _ (fun p hp => by cases hp; exact hb.1)
  | swapHandles g g' => obtain ⟨-, rfl⟩ := hs; exact h.exchange hb.1 hb.2
  | resetHandle g => obtain ⟨-, rfl⟩ := hs; exact h.give _ hn
  | setKey g k => obtain ⟨-, rfl⟩ := hs; exact h
  | setMapped g v => obtain ⟨-, rfl⟩ := hs; exact h
  | merge c d =>
    obtain ⟨-, took, -, -, -, rfl⟩ := hs
    intro i p hp
    dsimp only at hp
    split at hp
    · cases hp; exact hb.1
    · exact h i p hp
  | swap c d => obtain ⟨-, rfl⟩ := hs; exact h.exchange hb.1 hb.2
  | moveAssign c d =>
    obtain ⟨-, hs⟩ := hs
    split at hs
    · subst hs; exact h
    · obtain ⟨e, -, rfl⟩ := hs
      exact (h.give _ hn).give _ (fun p hp => by cases hp; exact hb.1)

theorem In.run {cfg : SpecNode.Cfg} {n : Nat} {a a' : SpecNode.St K V} {ops : List (Op K V)} {bs : List Bool}
    (hr : SpecNode.Run cfg a ops bs a') : In n a.own → (∀ op ∈ ops, Below n op) → In n a'.own := by
  induction hr with
  | nil s => intro h _; exact h
  | cons hs _ ih =>
    intro h hb
    exact ih (h.step (hb _ (by simp)) hs) (fun op ho => hb op (by simp [ho]))

section
variable {I : ContImpl K C} {cfg : Cfg} (L : Laws I cfg.uniq cfg.keep)

include L

/-- any program; both libraries -/
theorem program (hash : K → Nat) (eq : K → K → Bool) (hl : Spec.Lawful hash eq) (e0 : Nat → K × V) (ops : List (Op K V))
    (hs : SpecNode.Safe cfg ops (SpecNode.start eq e0)) :
    ∃ s bs a, run I cfg ops (start I hash eq) = some (s, bs) ∧ SpecNode.Run cfg (SpecNode.start eq e0) ops bs a ∧
      R L s a :=
  run_refines cfg L ops _ _ (start_r cfg L hash eq hl e0) hs

/-- any program and the destruction of its variables; both libraries -/
theorem whole (hash : K → Nat) (eq : K → K → Bool) (hl : Spec.Lawful hash eq) (e0 : Nat → K × V) (ops : List (Op K V))
    (n : Nat) (hn : ∀ op ∈ ops, Below n op) (hs : SpecNode.Safe cfg ops (SpecNode.start eq e0)) :
    ∃ s bs m, run I cfg ops (start I hash eq) = some (s, bs) ∧ finish I cfg n s = some m ∧
      (∀ i, m.cell i = none) ∧ ∀ i, m.freed.count i = if i < m.next then 1 else 0 := by
  obtain ⟨s, bs, a, h1, h2, h3⟩ := program L hash eq hl e0 ops hs
  have hin : In n a.own := In.run h2 (fun i o ho => by cases ho) hn
  obtain ⟨m, f1, f2⟩ := finish_refines cfg L n s a (fun c _ => h3.c c) (fun h _ => h3.h h) h3.m
  have hno : ∀ i, ownFrom n a.own i = none := by
    intro i
    unfold ownFrom
    cases ho : a.own i with
    | none => rfl
    | some o =>
      have := hin i o ho
      cases o with
      | cont c => simp only [ownerIdx] at this; simp [this]
      | hand c => simp only [ownerIdx] at this; simp [this]
  refine ⟨s, bs, m, h1, f1, fun i => ?_, fun i => ?_⟩
  · rw [f2.cell]; show (ownFrom n a.own i).map _ = none; rw [hno]; rfl
  · split
    · rename_i hi
      exact List.count_eq_one_of_mem f2.once ((f2.freed i).2 ⟨hi, hno i⟩)
    · rename_i hi
      exact List.count_eq_zero_of_not_mem (fun hm => hi ((f2.freed i).1 hm).1)

omit L in
theorem give_noop {own : Nat → Option Owner} {o : Owner} (h : ∀ i, own i ≠ some o) (r : Option Owner) :
    SpecNode.give own o r = own := by
  funext i; unfold SpecNode.give; rw [if_neg (h i)]

theorem roundtrip {s : St K V C} {a : ASt K V} (hr : R L s a) (c h g : Nat) (k : K) (hgh : h ≠ g) (hh : (s.h h).p = none)
    (hg : (s.h g).p = none) :
    ∃ s' b, run I cfg [.extract c h k, .insert c h g] s = some (s', [b, b]) ∧
      (b = true ↔ ∃ e ∈ L.contents (s.c c), L.eq (s.c c) k e.1 = true) ∧
      (L.contents (s'.c c)).Perm (L.contents (s.c c)) ∧ (∀ o i, Holds L.contents s' o i ↔ Holds L.contents s o i) ∧
      ∀ i, (s'.m.cell i).map Prod.fst = (s.m.cell i).map Prod.fst := by
  have hEh : ∀ i, a.own i ≠ some (.hand h) := fun i ho => by
    have := ((hr.h h).ptr i).2 ho; rw [hh] at this; cases this
  have hEg : ∀ i, a.own i ≠ some (.hand g) := fun i ho => by
    have := ((hr.h g).ptr i).2 ho; rw [hg] at this; cases this
  obtain ⟨s1, b1, a1, p1, p2, p3⟩ := step_refines hr (.extract c h k) trivial
  -- the second call is allowed
  have hpre : SpecNode.Pre cfg a1 (.insert c h g) := by
    refine ⟨hgh, ?_⟩
    rcases p2 with ⟨-, -, rfl⟩ | ⟨-, i, -, -, rfl⟩
    · left; intro i; show SpecNode.give a.own (.hand h) none i ≠ _; rw [give_noop hEh]; exact hEh i
    · right; show upd a.hal h (some (a.al c)) h = some (a.al c); simp [upd]
  obtain ⟨s2, b2, a2, q1, q2, q3⟩ := step_refines p3 (.insert c h g) hpre
  -- nothing has changed
  have key : a2.own = a.own ∧ a2.elem = a.elem ∧ b1 = b2 ∧ (b1 = true ↔ ∃ i, a.own i = some (.cont c) ∧ a.eq c k (a.elem i).1 = true) := by
    have hgn : ∀ {own : Nat → Option Owner}, (∀ i, own i ≠ some (.hand g)) →
        (if cfg.uniq then SpecNode.give own (.hand g) none else own) = own := by
      intro own ho; split
      · exact give_noop ho _
      · rfl
    rcases p2 with ⟨n1, n2, rfl⟩ | ⟨n2, i, n3, n4, rfl⟩
    · have e1 : SpecNode.give a.own (.hand h) none = a.own := give_noop hEh _
      have hE : ∀ j, SpecNode.give a.own (.hand h) none j ≠ some (.hand h) := by rw [e1]; exact hEh
      rcases q2 with ⟨m1, m2, rfl⟩ | ⟨j, m1, -⟩ | ⟨j, m1, -⟩
      · refine ⟨?_, rfl, n2.trans m2.symm, ?_⟩
        · show (if cfg.uniq then SpecNode.give (SpecNode.give a.own (.hand h) none) (.hand g) none
            else SpecNode.give a.own (.hand h) none) = a.own
          rw [e1]; exact hgn hEg
        · rw [n2]; constructor
          · intro hb; cases hb
          · rintro ⟨i, i1, i2⟩
            rw [n1 i i1] at i2; cases i2
      · exact absurd m1 (hE j)
      · exact absurd m1 (hE j)
    · have e1 : SpecNode.give a.own (.hand h) none = a.own := give_noop hEh _
      have hown : ∀ j, upd (SpecNode.give a.own (.hand h) none) i (some (.hand h)) j = some (.hand h) ↔ j = i := by
        intro j; rw [e1]; unfold upd
        split
        · rename_i hj; simp [hj]
        · rename_i hj
          constructor
          · intro ho; exact absurd ho (hEh j)
          · intro ho; exact absurd ho hj
      have hE : ∀ j, upd (SpecNode.give a.own (.hand h) none) i (some (.hand h)) j ≠ some (.hand g) := by
        intro j; rw [e1]; unfold upd
        split
        · intro ho; cases ho; exact hgh rfl
        · exact hEg j
      rcases q2 with ⟨m1, m2, rfl⟩ | ⟨j, m1, m2, m3, -⟩ | ⟨j, m1, -, m3, rfl⟩
      · exact absurd ((hown i).2 rfl) (m1 i)
      · exfalso
        have hji : j = i := (hown j).1 m1
        subst hji
        apply m3
        intro l hl
        have hl' : a.own l = some (.cont c) ∧ l ≠ j := by
          have hl2 : upd (SpecNode.give a.own (.hand h) none) j (some (.hand h)) l = some (.cont c) := hl
          rw [e1] at hl2
          unfold upd at hl2
          split at hl2
          · cases hl2
          · rename_i hne; exact ⟨hl2, hne⟩
        have hd := L.distinct m2 (s.c c) (hr.c c).inv
        have hs : ∀ x y : K × Nat, L.eq (s.c c) x.1 y.1 = false → L.eq (s.c c) y.1 x.1 = false := by
          intro x y hxy
          rw [Bool.eq_false_iff] at hxy ⊢
          exact fun hyx => hxy (L.symm _ (hr.c c).inv _ _ hyx)
        have := pairwise_forall hs hd (((hr.c c).mem _ _).2 ⟨n3, rfl⟩) (((hr.c c).mem _ _).2 ⟨hl'.1, rfl⟩)
          (by intro he; exact hl'.2 (congrArg Prod.snd he).symm)
        rw [(hr.c c).eq] at this
        exact this
      · have hji : j = i := (hown j).1 m1
        subst hji
        refine ⟨?_, rfl, n2.trans m3.symm, ?_⟩
        · show upd (if cfg.uniq then SpecNode.give (upd (SpecNode.give a.own (.hand h) none) j (some (.hand h))) (.hand g) none
            else upd (SpecNode.give a.own (.hand h) none) j (some (.hand h))) j (some (.cont c)) = a.own
          rw [hgn hE, e1]
          funext l; unfold upd
          split
          · rename_i hl; rw [hl]; exact n3.symm
          · rfl
        · rw [n2]; exact ⟨fun _ => ⟨j, n3, n4⟩, fun _ => rfl⟩
  obtain ⟨k1, k2, k3, k4⟩ := key
  subst k3
  refine ⟨s2, b1, by simp only [run, p1, q1, Option.map_some], ?_, ?_, ?_, ?_⟩
  · rw [k4]
    constructor
    · rintro ⟨i, i1, i2⟩
      exact ⟨((a.elem i).1, i), ((hr.c c).mem _ _).2 ⟨i1, rfl⟩, by rw [(hr.c c).eq]; exact i2⟩
    · rintro ⟨⟨k', i⟩, i1, i2⟩
      obtain ⟨j1, j2⟩ := ((hr.c c).mem _ _).1 i1
      exact ⟨i, j1, by rw [(hr.c c).eq] at i2; rw [j2]; exact i2⟩
  · refine (List.perm_ext_iff_of_nodup (List.Nodup.of_map _ (q3.c c).nodup) (List.Nodup.of_map _ (hr.c c).nodup)).2 ?_
    rintro ⟨k', i⟩
    rw [(q3.c c).mem, (hr.c c).mem, k1, k2]
  · intro o i; rw [holds_iff q3, holds_iff hr, k1]
  · intro i
    rw [q3.m.cell, hr.m.cell, k1, k2]
    cases a.own i <;> rfl

end

/-! ### unordered_node_map/set -/

/-- C34 (unordered_node_map/set): every program respecting the preconditions runs without undefined behaviour, gives answers the ownership
specification allows, and leaves sound memory: each live node has exactly one owner, each other node was freed exactly once. -/
theorem C34_node_map_one_owner (cfg : Foa.Cfg) (pocma pocs : Bool) (hash : K → Nat) (eq : K → K → Bool)
    (hl : Spec.Lawful hash eq) (e0 : Nat → K × V) (ops : List (Op K V))
    (hs : SpecNode.Safe ⟨true, false, pocma, pocs⟩ ops (SpecNode.start eq e0)) :
    ∃ s bs a, run (foaCont cfg) ⟨true, false, pocma, pocs⟩ ops (start (foaCont cfg) hash eq) = some (s, bs) ∧
      SpecNode.Run ⟨true, false, pocma, pocs⟩ (SpecNode.start eq e0) ops bs a ∧
      Shows Foa.Table.contents s a ∧ Sound Foa.Table.contents Foa.Table.al s := by
  obtain ⟨s, bs, a, h1, h2, h3⟩ := program (cfg := ⟨true, false, pocma, pocs⟩) (FoaLaws.foaLaws cfg) hash eq hl e0 ops hs
  exact ⟨s, bs, a, h1, h2, shows_of h3, sound_of h3⟩

/-- C34 (unordered_node_map/set): when finally all containers and handles are destroyed, no node is left and each node ever allocated has been
freed exactly once. -/
theorem C34_node_map_destroyed_once (cfg : Foa.Cfg) (pocma pocs : Bool) (hash : K → Nat) (eq : K → K → Bool)
    (hl : Spec.Lawful hash eq) (e0 : Nat → K × V) (ops : List (Op K V)) (n : Nat) (hn : ∀ op ∈ ops, Below n op)
    (hs : SpecNode.Safe ⟨true, false, pocma, pocs⟩ ops (SpecNode.start eq e0)) :
    ∃ s bs m, run (foaCont cfg) ⟨true, false, pocma, pocs⟩ ops (start (foaCont cfg) hash eq) = some (s, bs) ∧
      finish (foaCont cfg) ⟨true, false, pocma, pocs⟩ n s = some m ∧
      (∀ i, m.cell i = none) ∧ ∀ i, m.freed.count i = if i < m.next then 1 else 0 :=
  whole (cfg := ⟨true, false, pocma, pocs⟩) (FoaLaws.foaLaws cfg) hash eq hl e0 ops n hn hs

/-- C34 (unordered_node_map/set): after any program, extracting a key into an empty handle and inserting the handle again restores the container
(same nodes, same values), whether or not the key is there; both calls report whether it is. -/
theorem C34_node_map_extract_insert (cfg : Foa.Cfg) (pocma pocs : Bool) (hash : K → Nat) (eq : K → K → Bool)
    (hl : Spec.Lawful hash eq) (e0 : Nat → K × V) (ops : List (Op K V))
    (hs : SpecNode.Safe ⟨true, false, pocma, pocs⟩ ops (SpecNode.start eq e0)) (c h g : Nat) (k : K) (hgh : h ≠ g) :
    ∃ s bs, run (foaCont cfg) ⟨true, false, pocma, pocs⟩ ops (start (foaCont cfg) hash eq) = some (s, bs) ∧
      ((s.h h).p = none → (s.h g).p = none →
        ∃ s' b, run (foaCont cfg) ⟨true, false, pocma, pocs⟩ [.extract c h k, .insert c h g] s = some (s', [b, b]) ∧
          (b = true ↔ ∃ e ∈ (Foa.Table.contents) (s.c c), (fun t : Foa.Table K Nat => t.fns.eq) (s.c c) k e.1 = true) ∧
          ((Foa.Table.contents) (s'.c c)).Perm ((Foa.Table.contents) (s.c c)) ∧
          (∀ o i, Holds Foa.Table.contents s' o i ↔ Holds Foa.Table.contents s o i) ∧
          ∀ i, (s'.m.cell i).map Prod.fst = (s.m.cell i).map Prod.fst) := by
  obtain ⟨s, bs, a, h1, h2, h3⟩ := program (cfg := ⟨true, false, pocma, pocs⟩) (FoaLaws.foaLaws cfg) hash eq hl e0 ops hs
  exact ⟨s, bs, h1, fun hh hg => roundtrip (cfg := ⟨true, false, pocma, pocs⟩) (FoaLaws.foaLaws cfg) h3 c h g k hgh hh hg⟩

/-! ### unordered_map/set (u) and multimap/multiset -/

/-- C34 (unordered_map/set (u) and multimap/multiset): every program respecting the preconditions runs without undefined behaviour, gives answers the ownership
specification allows, and leaves sound memory: each live node has exactly one owner, each other node was freed exactly once. -/
theorem C34_closed_one_owner (u : Bool) (pocma pocs : Bool) (hash : K → Nat) (eq : K → K → Bool)
    (hl : Spec.Lawful hash eq) (e0 : Nat → K × V) (ops : List (Op K V))
    (hs : SpecNode.Safe ⟨u, true, pocma, pocs⟩ ops (SpecNode.start eq e0)) :
    ∃ s bs a, run (fcaCont u) ⟨u, true, pocma, pocs⟩ ops (start (fcaCont u) hash eq) = some (s, bs) ∧
      SpecNode.Run ⟨u, true, pocma, pocs⟩ (SpecNode.start eq e0) ops bs a ∧
      Shows Fca.Table.contents s a ∧ Sound Fca.Table.contents Fca.Table.al s := by
  obtain ⟨s, bs, a, h1, h2, h3⟩ := program (cfg := ⟨u, true, pocma, pocs⟩) (FcaLaws.fcaLaws u) hash eq hl e0 ops hs
  exact ⟨s, bs, a, h1, h2, shows_of h3, sound_of h3⟩

/-- C34 (unordered_map/set (u) and multimap/multiset): when finally all containers and handles are destroyed, no node is left and each node ever allocated has been
freed exactly once. -/
theorem C34_closed_destroyed_once (u : Bool) (pocma pocs : Bool) (hash : K → Nat) (eq : K → K → Bool)
    (hl : Spec.Lawful hash eq) (e0 : Nat → K × V) (ops : List (Op K V)) (n : Nat) (hn : ∀ op ∈ ops, Below n op)
    (hs : SpecNode.Safe ⟨u, true, pocma, pocs⟩ ops (SpecNode.start eq e0)) :
    ∃ s bs m, run (fcaCont u) ⟨u, true, pocma, pocs⟩ ops (start (fcaCont u) hash eq) = some (s, bs) ∧
      finish (fcaCont u) ⟨u, true, pocma, pocs⟩ n s = some m ∧
      (∀ i, m.cell i = none) ∧ ∀ i, m.freed.count i = if i < m.next then 1 else 0 :=
  whole (cfg := ⟨u, true, pocma, pocs⟩) (FcaLaws.fcaLaws u) hash eq hl e0 ops n hn hs

/-- C34 (unordered_map/set (u) and multimap/multiset): after any program, extracting a key into an empty handle and inserting the handle again restores the container
(same nodes, same values), whether or not the key is there; both calls report whether it is. -/
theorem C34_closed_extract_insert (u : Bool) (pocma pocs : Bool) (hash : K → Nat) (eq : K → K → Bool)
    (hl : Spec.Lawful hash eq) (e0 : Nat → K × V) (ops : List (Op K V))
    (hs : SpecNode.Safe ⟨u, true, pocma, pocs⟩ ops (SpecNode.start eq e0)) (c h g : Nat) (k : K) (hgh : h ≠ g) :
    ∃ s bs, run (fcaCont u) ⟨u, true, pocma, pocs⟩ ops (start (fcaCont u) hash eq) = some (s, bs) ∧
      ((s.h h).p = none → (s.h g).p = none →
        ∃ s' b, run (fcaCont u) ⟨u, true, pocma, pocs⟩ [.extract c h k, .insert c h g] s = some (s', [b, b]) ∧
          (b = true ↔ ∃ e ∈ (Fca.Table.contents) (s.c c), (fun t : Fca.Table K Nat => t.fns.eq) (s.c c) k e.1 = true) ∧
          ((Fca.Table.contents) (s'.c c)).Perm ((Fca.Table.contents) (s.c c)) ∧
          (∀ o i, Holds Fca.Table.contents s' o i ↔ Holds Fca.Table.contents s o i) ∧
          ∀ i, (s'.m.cell i).map Prod.fst = (s.m.cell i).map Prod.fst) := by
  obtain ⟨s, bs, a, h1, h2, h3⟩ := program (cfg := ⟨u, true, pocma, pocs⟩) (FcaLaws.fcaLaws u) hash eq hl e0 ops hs
  exact ⟨s, bs, h1, fun hh hg => roundtrip (cfg := ⟨u, true, pocma, pocs⟩) (FcaLaws.fcaLaws u) h3 c h g k hgh hh hg⟩

/-! ### The hypotheses can be met -/

def exH : Nat → Nat := id
def exE (a b : Nat) : Bool := a == b

theorem ex_lawful : Spec.Lawful (fun k : Nat => k % 2 ^ 64) exE where
  hash_lt k := Nat.mod_lt _ (by decide)
  refl k := by simp [exE]
  symm a b h := by simp [exE] at *; exact h.symm
  trans a b c h1 h2 := by simp [exE] at *; exact h1.trans h2
  compat a b h := by simp [exE] at h; rw [h]

/-- two containers with allocators 0 and 0; a node travels: container 0 → handle 0 → handle 2 (key changed) → refused by
container 1 → handle 3 → key changed → container 1 -/
def exOps : List (Op Nat Nat) :=
  [.emplace 0 (5, 50), .emplace 0 (6, 60), .emplace 1 (7, 70), .extract 0 0 5, .moveHandle 2 0, .setKey 2 7,
   .insert 1 2 3, .setKey 3 8, .setMapped 3 80, .insert 1 3 2, .merge 0 1, .erase 0 6]

theorem getD_ite {α : Type} (b : Bool) (x : α) : (if b then x else x) = x := by split <;> rfl

/-- what is preserved along `exOps`: all allocators are 0 and all containers compare keys with `exE` -/
def ExInv (a : SpecNode.St Nat Nat) : Prop :=
  (∀ c, a.al c = 0) ∧ (∀ c, a.eq c = exE) ∧ (∀ h i, a.own i = some (.hand h) → a.hal h = some 0) ∧
    (∀ h, a.hal h = none ∨ a.hal h = some 0) ∧
    ∀ h i j, a.own i = some (.hand h) → a.own j = some (.hand h) → i = j

/-- calls that keep `ExInv` and are allowed in it -/
def ExOk : Op Nat Nat → Prop
  | .construct _ _ _ _ => False
  | .insertHint _ _ _ => False
  | .insert _ h g => h ≠ g
  | .moveHandle g h => g ≠ h
  | .assignHandle _ _ => False
  | .swapHandles _ _ => False
  | .merge c d => c ≠ d
  | _ => True

theorem ex_pre (u kp pocma pocs : Bool) {a : SpecNode.St Nat Nat} (ha : ExInv a) {op : Op Nat Nat} (ho : ExOk op) :
    SpecNode.Pre ⟨u, kp, pocma, pocs⟩ a op := by
  obtain ⟨h1, h2, h3, h4, -⟩ := ha
  cases op <;> simp only [ExOk, SpecNode.Pre] at *
  case insert c h g =>
    refine ⟨ho, ?_⟩
    by_cases he : SpecNode.Empty a h
    · exact Or.inl he
    · right
      simp only [SpecNode.Empty, not_forall, not_not] at he
      obtain ⟨i, hi⟩ := he
      rw [h3 h i hi, h1]
  case moveHandle g h => exact ho
  case merge c d => exact ⟨ho, by rw [h1, h1], fun _ => by rw [h2, h2]⟩
  case swap c d => exact Or.inr (by rw [h1, h1])
  case moveAssign c d => exact Or.inr (by rw [h1, h1])


theorem ex_step (u kp pocma pocs : Bool) {a a' : SpecNode.St Nat Nat} {b : Bool} (ha : ExInv a) {op : Op Nat Nat}
    (ho : ExOk op) (hs : SpecNode.Step ⟨u, kp, pocma, pocs⟩ a op b a') : ExInv a' := by
  obtain ⟨h1, h2, h3, h4, h5⟩ := ha
  cases op <;> simp only [ExOk] at ho
  case emplace c x =>
    rcases hs with ⟨-, -, -, rfl⟩ | ⟨-, -, i, -, rfl⟩
    · exact ⟨h1, h2, h3, h4, h5⟩
    · refine ⟨h1, h2, ?_, ?_, ?_⟩ <;> dsimp only [upd] <;> grind
  case erase c k =>
    obtain ⟨-, rfl⟩ := hs
    refine ⟨h1, h2, ?_, ?_, ?_⟩ <;> dsimp only [upd] <;> grind
  case clear c =>
    obtain ⟨-, rfl⟩ := hs
    refine ⟨h1, h2, ?_, ?_, ?_⟩ <;> dsimp only [upd, SpecNode.give] <;> grind
  case extract c g k =>
    rcases hs with ⟨-, -, rfl⟩ | ⟨-, i, -, -, rfl⟩
    · refine ⟨h1, h2, ?_, ?_, ?_⟩ <;> dsimp only [upd, SpecNode.give] <;> grind
    · refine ⟨h1, h2, ?_, ?_, ?_⟩ <;> dsimp only [upd, SpecNode.give] <;> grind
  case insert c h0 g =>
    rcases hs with ⟨-, -, rfl⟩ | ⟨i, hi, hu, -, -, rfl⟩ | ⟨i, hi, -, -, rfl⟩
    · cases u <;> refine ⟨h1, h2, ?_, ?_, ?_⟩ <;> grind [upd, SpecNode.give]
    · cases u <;> refine ⟨h1, h2, ?_, ?_, ?_⟩ <;> grind [upd, SpecNode.give]
    · cases u <;> cases kp <;> refine ⟨h1, h2, ?_, ?_, ?_⟩ <;> grind [upd, SpecNode.give]
  case moveHandle g h =>
    obtain ⟨-, rfl⟩ := hs
    refine ⟨h1, h2, ?_, ?_, ?_⟩ <;> dsimp only [upd, SpecNode.give] <;> grind
  case resetHandle g =>
    obtain ⟨-, rfl⟩ := hs
    refine ⟨h1, h2, ?_, ?_, ?_⟩ <;> dsimp only [upd, SpecNode.give] <;> grind
  case setKey h k => obtain ⟨-, rfl⟩ := hs; exact ⟨h1, h2, h3, h4, h5⟩
  case setMapped h k => obtain ⟨-, rfl⟩ := hs; exact ⟨h1, h2, h3, h4, h5⟩
  case merge c d =>
    obtain ⟨-, took, -, -, -, rfl⟩ := hs
    refine ⟨h1, h2, ?_, ?_, ?_⟩ <;> dsimp only [upd, SpecNode.give] <;> grind
  case swap c d =>
    obtain ⟨-, rfl⟩ := hs
    refine ⟨?_, ?_, ?_, ?_, ?_⟩ <;> dsimp only [upd, SpecNode.exchange] <;> grind
  case moveAssign c d =>
    obtain ⟨-, hs⟩ := hs
    split at hs
    · subst hs; exact ⟨h1, h2, h3, h4, h5⟩
    · obtain ⟨e, he, rfl⟩ := hs
      refine ⟨?_, ?_, ?_, ?_, ?_⟩ <;> dsimp only [upd, SpecNode.give] <;> grind

theorem ex_safe (u kp pocma pocs : Bool) : ∀ (ops : List (Op Nat Nat)) (a : SpecNode.St Nat Nat), ExInv a →
    (∀ op ∈ ops, ExOk op) → SpecNode.Safe ⟨u, kp, pocma, pocs⟩ ops a
  | [], _, _, _ => trivial
  | op :: ops, _, ha, ho => ⟨ex_pre u kp pocma pocs ha (ho op (by simp)), fun _ _ hs =>
      ex_safe u kp pocma pocs ops _ (ex_step u kp pocma pocs ha (ho op (by simp)) hs) (fun o h => ho o (by simp [h]))⟩

/-- the example program respects the preconditions, in all containers -/
theorem ex_ops_safe (u kp pocma pocs : Bool) :
    SpecNode.Safe ⟨u, kp, pocma, pocs⟩ exOps (SpecNode.start exE (fun _ => (0, 0))) := by
  refine ex_safe u kp pocma pocs exOps _ ⟨fun _ => rfl, fun _ => rfl, ?_, fun _ => Or.inl rfl, ?_⟩ ?_
  · intro h i hi; cases hi
  · intro h i j hi; cases hi
  · simp [exOps, ExOk]

example : ∀ op ∈ exOps, Below 4 op := by simp [exOps, Below]


set_option maxRecDepth 100000 in
set_option synthInstance.maxSize 100000 in
/-- the answers, final contents (key, node), nodes freed and handle pointers of the example program: open addressing … -/
example : (run (foaCont {}) ⟨true, false, false, false⟩ exOps (start (foaCont {}) (fun k : Nat => k % 2 ^ 64) exE)).map
    (fun r => (r.2, (r.1.c 0).contents, (r.1.c 1).contents, r.1.m.freed, (r.1.h 2).p, (r.1.h 3).p)) =
    some ([true, true, true, true, true, true, false, true, true, true, true, true], [(7, 2), (8, 0)], [], [1], none, none) := by
  decide +kernel

set_option maxRecDepth 100000 in
set_option synthInstance.maxSize 100000 in
/-- … closed addressing, unique keys … -/
example : (run (fcaCont true) ⟨true, true, false, false⟩ exOps (start (fcaCont true) (fun k : Nat => k % 2 ^ 64) exE)).map
    (fun r => (r.2, (r.1.c 0).contents, (r.1.c 1).contents, r.1.m.freed, (r.1.h 2).p, (r.1.h 3).p)) =
    some ([true, true, true, true, true, true, false, true, true, true, true, true], [(7, 2), (8, 0)], [], [1], none, none) := by
  decide +kernel

set_option maxRecDepth 100000 in
set_option synthInstance.maxSize 100000 in
/-- … equivalent keys: the node is not refused. -/
example : (run (fcaCont false) ⟨false, true, false, false⟩ exOps (start (fcaCont false) (fun k : Nat => k % 2 ^ 64) exE)).map
    (fun r => (r.2, (r.1.c 0).contents, (r.1.c 1).contents, r.1.m.freed, (r.1.h 2).p, (r.1.h 3).p)) =
    some ([true, true, true, true, true, true, true, true, true, false, true, true], [(7, 2), (7, 0)], [], [1], none, none) := by
  decide +kernel

/-- The preconditions matter: a closed-addressing container accepts a node of another allocator without complaint (there is no
assertion), and destroying it is undefined behaviour. -/
example : (run (fcaCont true) ⟨true, true, false, false⟩
      [.construct 1 (fun k : Nat => k % 2 ^ 64) exE 1, .emplace 0 (5, 50), .extract 0 0 5, .insert 1 0 1]
      (start (V := Nat) (fcaCont true) (fun k : Nat => k % 2 ^ 64) exE)).map
    (fun r => (r.2, (finish (fcaCont true) ⟨true, true, false, false⟩ 2 r.1).isSome)) = some ([true, true, true, true], false) := by
  decide +kernel

end Node.Props

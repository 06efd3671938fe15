/- Lemmas for C61. -/
import Verif.Obj.Insert
import Mathlib.Data.List.Nodup
import Mathlib.Tactic.Common

namespace Obj
open SpecArgs
variable {K V : Type}

theorem put_same {α : Type} (f : Nat → Cell α) (a : Nat) (c : Cell α) : put f a c a = c := by simp [put]
theorem put_ne {α : Type} (f : Nat → Cell α) {a x : Nat} (c : Cell α) (h : x ≠ a) : put f a c x = f x := by simp [put, h]

theorem readKey_some {m : Mem K V} {a : Nat} {k : K} (h : m.key a = .live k) : readKey m a = some k := by simp [readKey, h]

theorem takeVals_spec : ∀ (args : List Ref) (m : Mem K V), (∀ r ∈ args, ∃ v, m.val r.addr = .live v) →
    args.Pairwise (fun r r' => r.addr = r'.addr → r.rv = false ∧ r'.rv = false) →
    ∃ vs m', takeVals m args = some (vs, m') ∧ args.map (fun r => m.val r.addr) = vs.map .live ∧
      m'.key = m.key ∧ m'.next = m.next ∧ ∀ x, m'.val x = afterVal m args x
  | [], m, _, _ => ⟨[], m, rfl, rfl, rfl, rfl, fun x => by simp [afterVal]⟩
  | r :: rs, m, hv, hp => by
    rw [List.pairwise_cons] at hp
    obtain ⟨v, hv0⟩ := hv r (by simp)
    let m1 : Mem K V := if r.rv then { m with val := put m.val r.addr .husk } else m
    have e1 : takeVal m r = some (v, m1) := by simp [takeVal, hv0, m1]
    have hval : ∀ x, m1.val x = if r.rv = true ∧ x = r.addr then .husk else m.val x := by
      intro x; by_cases h : r.rv = true <;> simp [m1, h, put]
    have hsame : ∀ r' ∈ rs, m1.val r'.addr = m.val r'.addr := by
      intro r' hr'
      rw [hval, if_neg]
      rintro ⟨h1, h2⟩
      have := (hp.1 r' hr' h2.symm).1
      rw [h1] at this; cases this
    obtain ⟨vs, m', h1, h2, h3, h4, h5⟩ := takeVals_spec rs m1
      (fun r' hr' => by rw [hsame r' hr']; exact hv r' (by simp [hr'])) hp.2
    have hk : m1.key = m.key := by by_cases h : r.rv = true <;> simp [m1, h]
    have hn : m1.next = m.next := by by_cases h : r.rv = true <;> simp [m1, h]
    refine ⟨v :: vs, m', by simp [takeVals, e1, h1], ?_, h3.trans hk, h4.trans hn, fun x => ?_⟩
    · rw [List.map_cons, List.map_cons, hv0, ← h2]
      congr 1
      exact List.map_congr_left (fun r' hr' => (hsame r' hr').symm)
    · rw [h5, afterVal, afterVal, hval]
      by_cases hx : (⟨x, true⟩ : Ref) ∈ rs
      · simp [hx]
      · rw [if_neg hx]
        by_cases hr : r.rv = true ∧ x = r.addr
        · rw [if_pos hr, if_pos]
          obtain ⟨h1, rfl⟩ := hr
          simp [← h1]
        · rw [if_neg hr, if_neg]
          intro hc
          rcases List.mem_cons.1 hc with e | e
          · exact hr (by rw [← e]; exact ⟨rfl, rfl⟩)
          · exact hx e

theorem construct_spec {m : Mem K V} {k : Ref} {args : List Ref} (mk : List V → V) {k0 : K} (hk : m.key k.addr = .live k0)
    (hv : ∀ r ∈ args, ∃ v, m.val r.addr = .live v)
    (hp : args.Pairwise (fun r r' => r.addr = r'.addr → r.rv = false ∧ r'.rv = false)) :
    ∃ vs m', construct m k args mk = some (m.next, m') ∧ args.map (fun r => m.val r.addr) = vs.map .live ∧
      m'.next = m.next + 1 ∧ m'.key m.next = .live k0 ∧ m'.val m.next = .live (mk vs) ∧
      (∀ x, x ≠ m.next → m'.key x = afterKey m k x) ∧ ∀ x, x ≠ m.next → m'.val x = afterVal m args x := by
  let m1 : Mem K V := if k.rv then { m with key := put m.key k.addr .husk } else m
  have e1 : takeKey m k = some (k0, m1) := by simp [takeKey, hk, m1]
  have h1 : m1.val = m.val := by by_cases h : k.rv = true <;> simp [m1, h]
  have h2 : m1.next = m.next := by by_cases h : k.rv = true <;> simp [m1, h]
  have h3 : ∀ x, m1.key x = afterKey m k x := by
    intro x; by_cases h : k.rv = true <;> simp [m1, h, put, afterKey]
  obtain ⟨vs, m', j1, j2, j3, j4, j5⟩ := takeVals_spec args m1 (by rw [h1]; exact hv) hp
  refine ⟨vs, _, by simp only [construct, e1, j1, j4, h2]; rfl, by rw [← j2, h1], ?_, ?_, ?_, ?_, ?_⟩
  · simp
  · simp [put]
  · simp [put]
  · intro x hx; simp [put, hx, j3, h3]
  · intro x hx
    simp [put, hx, j5, afterVal, h1]

theorem find_spec (eq : K → K → Bool) {m : Mem K V} {k : Nat} {k0 : K} (hk : m.key k = .live k0) :
    ∀ els : List Nat, (∀ e ∈ els, ∃ ke, m.key e = .live ke) →
      (find eq m k els = some none ∧ ¬ Present eq m els k) ∨
      ∃ e ∈ els, find eq m k els = some (some e) ∧ Present eq m [e] k
  | [], _ => .inl ⟨rfl, by rintro ⟨e, he, _⟩; cases he⟩
  | e :: es, h => by
    obtain ⟨ke, hke⟩ := h e (by simp)
    by_cases hq : eq k0 ke = true
    · exact .inr ⟨e, by simp, by simp [find, readKey_some hk, readKey_some hke, hq],
        e, by simp, k0, ke, hk, hke, hq⟩
    · have e1 : find eq m k (e :: es) = find eq m k es := by
        simp [find, readKey_some hk, readKey_some hke, hq]
      rcases find_spec eq hk es (fun e he => h e (by simp [he])) with ⟨h1, h2⟩ | ⟨a, h1, h2, h3⟩
      · refine .inl ⟨e1.trans h1, ?_⟩
        rintro ⟨a, ha, k1, ka, j1, j2, j3⟩
        rcases List.mem_cons.1 ha with rfl | ha
        · rw [hk] at j1; rw [hke] at j2; cases j1; cases j2; exact hq j3
        · exact h2 ⟨a, ha, k1, ka, j1, j2, j3⟩
      · exact .inr ⟨a, by simp [h1], e1.trans h2, h3⟩

theorem Present.mono {eq : K → K → Bool} {m : Mem K V} {els els' : List Nat} {k : Nat} (h : Present eq m els k)
    (hs : ∀ e ∈ els, e ∈ els') : Present eq m els' k := by
  obtain ⟨e, he, r⟩ := h; exact ⟨e, hs e he, r⟩

theorem hashAll_spec {m : Mem K V} : ∀ els : List Nat, (∀ e ∈ els, ∃ ke, m.key e = .live ke) → hashAll m els = some ()
  | [], _ => rfl
  | e :: es, h => by
    obtain ⟨ke, hke⟩ := h e (by simp)
    simp [hashAll, readKey_some hke, hashAll_spec es (fun e he => h e (by simp [he]))]

/-! ### rehashing in open addressing -/

theorem destroy_spec {m : Mem K V} {a : Nat} (hk : m.key a ≠ .dead) (hv : m.val a ≠ .dead) :
    destroy m a = some { m with key := put m.key a .dead, val := put m.val a .dead } := by
  unfold destroy
  split
  · next h => exact absurd h hk
  · exact absurd ‹m.val a = Cell.dead› hv
  · rfl

theorem destroyAll_spec : ∀ (els : List Nat) (m : Mem K V), els.Nodup → (∀ e ∈ els, m.key e ≠ .dead ∧ m.val e ≠ .dead) →
    ∃ m', destroyAll m els = some m' ∧ m'.next = m.next ∧
      (∀ x, m'.key x = if x ∈ els then .dead else m.key x) ∧ ∀ x, m'.val x = if x ∈ els then .dead else m.val x
  | [], m, _, _ => ⟨m, rfl, rfl, fun x => by simp, fun x => by simp⟩
  | e :: es, m, hn, h => by
    rw [List.nodup_cons] at hn
    have h0 := h e (by simp)
    obtain ⟨m', h1, h2, h3, h4⟩ := destroyAll_spec es { m with key := put m.key e .dead, val := put m.val e .dead } hn.2
      (fun x hx => by
        have : x ≠ e := fun c => hn.1 (c ▸ hx)
        simp only [put, this, if_false]; exact h x (by simp [hx]))
    refine ⟨m', by simp [destroyAll, destroy_spec h0.1 h0.2, h1], h2, fun x => ?_, fun x => ?_⟩
    · rw [h3]; by_cases hx : x = e <;> simp [put, hx]
    · rw [h4]; by_cases hx : x = e <;> simp [put, hx]

theorem relocate_spec (mv : Bool) {m : Mem K V} {e : Nat} {k : K} (hk : m.key e = .live k) (hv : m.val e ≠ .dead) (he : e < m.next) :
    ∃ m', relocate mv m e = some (m.next, m') ∧ m'.next = m.next + 1 ∧ m'.key m.next = m.key e ∧ m'.val m.next = m.val e ∧
      (∀ x, x ≠ m.next → x ≠ e → m'.key x = m.key x ∧ m'.val x = m.val x) ∧ m'.key e ≠ .dead ∧ m'.val e ≠ .dead ∧
      (mv = false → m'.key e = m.key e ∧ m'.val e = m.val e) := by
  have hne : e ≠ m.next := by omega
  cases hve : m.val e with
  | dead => exact absurd hve hv
  | live v =>
    refine ⟨_, by simp only [relocate, hk, hve]; rfl, rfl, by simp [put, hk], by simp [put], ?_, ?_, ?_, ?_⟩
    · intro x h1 h2; cases mv <;> simp [put, h1, h2]
    · cases mv <;> simp [put, hne, hk]
    · cases mv <;> simp [put, hne, hve]
    · rintro rfl; simp [put, hne, hve]
  | husk =>
    refine ⟨_, by simp only [relocate, hk, hve]; rfl, rfl, by simp [put, hk], by simp [put], ?_, ?_, ?_, ?_⟩
    · intro x h1 h2; cases mv <;> simp [put, h1, h2]
    · cases mv <;> simp [put, hne, hk]
    · simp [put, hne, hve]
    · rintro rfl; simp [put, hne, hve]

/-- Moving or copying all elements of a list. -/
theorem transferAll_spec (kd : Kind) (hkd : kd ≠ .node) : ∀ (els : List Nat) (m : Mem K V), els.Nodup → (∀ e ∈ els, e < m.next) →
    (∀ e ∈ els, ∃ k, m.key e = .live k) → (∀ e ∈ els, m.val e ≠ .dead) →
    ∃ (f : Nat → Nat) (m' : Mem K V), transferAll kd m els = some (els.map f, m') ∧ m.next ≤ m'.next ∧ (els.map f).Nodup ∧
      (∀ e ∈ els, m.next ≤ f e ∧ f e < m'.next) ∧ (∀ x, m.next ≤ x → x < m'.next → x ∈ els.map f) ∧
      (∀ e ∈ els, m'.key (f e) = m.key e ∧ m'.val (f e) = m.val e) ∧
      (∀ x, x ∉ els → x ∉ els.map f → m'.key x = m.key x ∧ m'.val x = m.val x) ∧
      (kd = .move → ∀ e ∈ els, m'.key e = .dead ∧ m'.val e = .dead) ∧
      (kd = .copy → ∀ e ∈ els, m'.key e = m.key e ∧ m'.val e = m.val e)
  | [], m, _, _, _, _ => ⟨id, m, rfl, Nat.le_refl _, by simp, by simp, by intro x h1 h2; omega, by simp, by simp, by simp, by simp⟩
  | e :: es, m, hn, ho, hk, hv => by
    rw [List.nodup_cons] at hn
    obtain ⟨k, hke⟩ := hk e (by simp)
    have hlt := ho e (by simp)
    have hve := hv e (by simp)
    -- one element
    obtain ⟨m1, a1, a2, a3, a4, a5, a6, a7⟩ : ∃ m1, transferOne kd m e = some (m.next, m1) ∧ m1.next = m.next + 1 ∧
        m1.key m.next = m.key e ∧ m1.val m.next = m.val e ∧
        (∀ x, x ≠ m.next → x ≠ e → m1.key x = m.key x ∧ m1.val x = m.val x) ∧
        (kd = .move → m1.key e = .dead ∧ m1.val e = .dead) ∧ (kd = .copy → m1.key e = m.key e ∧ m1.val e = m.val e) := by
      cases kd with
      | node => exact absurd rfl hkd
      | copy =>
        obtain ⟨m1, b1, b2, b3, b4, b5, _, _, b8⟩ := relocate_spec false hke hve hlt
        exact ⟨m1, by simp [transferOne, readKey_some hke, b1], b2, b3, b4, b5, by simp, fun _ => b8 rfl⟩
      | move =>
        obtain ⟨m1, b1, b2, b3, b4, b5, b6, b7, _⟩ := relocate_spec true hke hve hlt
        have hne : m.next ≠ e := by omega
        refine ⟨{ m1 with key := put m1.key e .dead, val := put m1.val e .dead },
          by simp [transferOne, readKey_some hke, b1, destroy_spec b6 b7], b2, ?_, ?_, ?_, ?_, by simp⟩
        · simpa [put, hne] using b3
        · simpa [put, hne] using b4
        · intro x h1 h2; simpa [put, h2] using b5 x h1 h2
        · intro _; simp [put]
    have away : ∀ x ∈ es, x ≠ m.next ∧ x ≠ e := by
      intro x hx
      exact ⟨by have := ho x (by simp [hx]); omega, fun c => hn.1 (c ▸ hx)⟩
    obtain ⟨f, m', c1, c2, c3, c4, c5, c6, c7, c8, c9⟩ := transferAll_spec kd hkd es m1 hn.2
      (fun x hx => by have := ho x (by simp [hx]); omega)
      (fun x hx => by rw [(a5 x (away x hx).1 (away x hx).2).1]; exact hk x (by simp [hx]))
      (fun x hx => by rw [(a5 x (away x hx).1 (away x hx).2).2]; exact hv x (by simp [hx]))
    let g : Nat → Nat := fun x => if x = e then m.next else f x
    have ge : g e = m.next := by simp [g]
    have gs : ∀ x ∈ es, g x = f x := fun x hx => by simp [g, (away x hx).2]
    have gmap : (e :: es).map g = m.next :: es.map f := by
      rw [List.map_cons, ge]; congr 1; exact List.map_congr_left gs
    have nf : m.next ∉ es.map f := by
      intro hc
      obtain ⟨x, hx, e'⟩ := List.mem_map.1 hc
      have := (c4 x hx).1; omega
    have ne : m.next ∉ es := fun hc => (away _ hc).1 rfl
    have ef : e ∉ es.map f := by
      intro hc
      obtain ⟨x, hx, e'⟩ := List.mem_map.1 hc
      have := (c4 x hx).1; omega
    refine ⟨g, m', ?_, by omega, ?_, ?_, ?_, ?_, ?_, ?_, ?_⟩
    · rw [gmap]; simp [transferAll, a1, c1]
    · rw [gmap, List.nodup_cons]; exact ⟨nf, c3⟩
    · intro x hx
      rcases List.mem_cons.1 hx with rfl | hx
      · rw [ge]; omega
      · rw [gs x hx]; have := c4 x hx; omega
    · intro x h1 h2
      rw [gmap]
      by_cases hx : x = m.next
      · simp [hx]
      · exact List.mem_cons_of_mem _ (c5 x (by omega) h2)
    · intro x hx
      rcases List.mem_cons.1 hx with rfl | hx
      · rw [ge, (c7 _ ne nf).1, (c7 _ ne nf).2]; exact ⟨a3, a4⟩
      · rw [gs x hx, (c6 x hx).1, (c6 x hx).2]
        exact a5 x (away x hx).1 (away x hx).2
    · intro x h1 h2
      rw [gmap] at h2
      simp only [List.mem_cons, not_or] at h1 h2
      rw [(c7 x h1.2 h2.2).1, (c7 x h1.2 h2.2).2]
      exact a5 x h2.1 h1.1
    · intro hm x hx
      rcases List.mem_cons.1 hx with rfl | hx
      · rw [(c7 x hn.1 ef).1, (c7 x hn.1 ef).2]; exact a6 hm
      · exact c8 hm x hx
    · intro hm x hx
      rcases List.mem_cons.1 hx with rfl | hx
      · rw [(c7 x hn.1 ef).1, (c7 x hn.1 ef).2]; exact a7 hm
      · rw [(c9 hm x hx).1, (c9 hm x hx).2]; exact a5 x (away x hx).1 (away x hx).2

theorem transferAll_node : ∀ (els : List Nat) (m : Mem K V), (∀ e ∈ els, ∃ k, m.key e = .live k) →
    transferAll .node m els = some (els, m)
  | [], _, _ => rfl
  | e :: es, m, h => by
    obtain ⟨k, hk⟩ := h e (by simp)
    simp [transferAll, transferOne, readKey_some hk, transferAll_node es m (fun x hx => h x (by simp [hx]))]

/-- Rehashing keeps all elements, here or elsewhere, touches nothing else and leaves nothing behind. -/
theorem rehash_spec (kd : Kind) (m : Mem K V) (els : List Nat) (hn : els.Nodup) (ho : ∀ e ∈ els, e < m.next)
    (hk : ∀ e ∈ els, ∃ k, m.key e = .live k) (hv : ∀ e ∈ els, m.val e ≠ .dead)
    (hf : ∀ x, m.next ≤ x → m.key x = .dead ∧ m.val x = .dead) :
    ∃ (f : Nat → Nat) (m' : Mem K V), rehash kd m els = some (els.map f, m') ∧ m.next ≤ m'.next ∧ (els.map f).Nodup ∧
      (∀ e ∈ els, (f e ∈ els ∨ m.next ≤ f e) ∧ f e < m'.next) ∧
      (∀ e ∈ els, m'.key (f e) = m.key e ∧ m'.val (f e) = m.val e) ∧
      (∀ x, x ∉ els → x < m.next → m'.key x = m.key x ∧ m'.val x = m.val x) ∧
      (∀ x, x ∉ els.map f → m.next ≤ x ∨ x ∈ els → m'.key x = .dead ∧ m'.val x = .dead) := by
  by_cases hkd : kd = .node
  · subst hkd
    refine ⟨id, m, by simp [rehash, transferAll_node els m hk], Nat.le_refl _, by simpa using hn,
      fun e he => ⟨.inl he, ho e he⟩, fun _ _ => ⟨rfl, rfl⟩, fun _ _ _ => ⟨rfl, rfl⟩, fun x h1 h2 => ?_⟩
    rcases h2 with h2 | h2
    · exact hf x h2
    · exact absurd (by simpa using h2) h1
  · obtain ⟨f, m', c1, c2, c3, c4, c5, c6, c7, c8, c9⟩ := transferAll_spec kd hkd els m hn ho hk hv
    have old : ∀ x, x < m.next → x ∉ els.map f := by
      intro x hx hc
      obtain ⟨y, hy, e⟩ := List.mem_map.1 hc
      have := (c4 y hy).1; omega
    have dead : ∀ x, x ∉ els.map f → m.next ≤ x → m'.key x = .dead ∧ m'.val x = .dead := by
      intro x h1 h2
      have hx : x ∉ els := fun hc => by have := ho x hc; omega
      rw [(c7 x hx h1).1, (c7 x hx h1).2]; exact hf x h2
    cases kd with
    | node => exact absurd rfl hkd
    | move =>
      refine ⟨f, m', by simp [rehash, c1], c2, c3, fun e he => ⟨.inr (c4 e he).1, (c4 e he).2⟩, c6,
        fun x h1 h2 => c7 x h1 (old x h2), fun x h1 h2 => ?_⟩
      rcases h2 with h2 | h2
      · exact dead x h1 h2
      · exact c8 rfl x h2
    | copy =>
      obtain ⟨m2, d1, d2, d3, d4⟩ := destroyAll_spec els m' hn (fun e he => by
        obtain ⟨k, hk0⟩ := hk e he
        rw [(c9 rfl e he).1, (c9 rfl e he).2]
        exact ⟨by rw [hk0]; simp, hv e he⟩)
      have nf : ∀ e ∈ els, f e ∉ els := fun e he hc => by have := (c4 e he).1; have := ho _ hc; omega
      refine ⟨f, m2, by simp [rehash, c1, d1], by omega, c3, fun e he => ⟨.inr (c4 e he).1, by have := (c4 e he).2; omega⟩, ?_, ?_, ?_⟩
      · intro e he
        rw [d3, d4, if_neg (nf e he), if_neg (nf e he)]; exact c6 e he
      · intro x h1 h2
        rw [d3, d4, if_neg h1, if_neg h1]; exact c7 x h1 (old x h2)
      · intro x h1 h2
        rw [d3, d4]
        by_cases hx : x ∈ els
        · simp [hx]
        · rw [if_neg hx, if_neg hx]
          rcases h2 with h2 | h2
          · exact dead x h1 h2
          · exact absurd h2 hx

/-- What `rehash_spec` says. -/
structure Moved (m : Mem K V) (els : List Nat) (f : Nat → Nat) (m' : Mem K V) : Prop where
  next : m.next ≤ m'.next
  nodup : (els.map f).Nodup
  place : ∀ e ∈ els, (f e ∈ els ∨ m.next ≤ f e) ∧ f e < m'.next
  kept : ∀ e ∈ els, m'.key (f e) = m.key e ∧ m'.val (f e) = m.val e
  other : ∀ x, x ∉ els → x < m.next → m'.key x = m.key x ∧ m'.val x = m.val x
  gone : ∀ x, x ∉ els.map f → m.next ≤ x ∨ x ∈ els → m'.key x = .dead ∧ m'.val x = .dead

theorem rehash_moved (kd : Kind) {m : Mem K V} {els : List Nat} (h : Wf m els) :
    ∃ f m', rehash kd m els = some (els.map f, m') ∧ Moved m els f m' := by
  obtain ⟨f, m', h1, h2, h3, h4, h5, h6, h7⟩ := rehash_spec kd m els h.nodup h.old h.key h.val h.free
  exact ⟨f, m', h1, h2, h3, h4, h5, h6, h7⟩

theorem Moved.refl {m : Mem K V} {els : List Nat} (h : Wf m els) : Moved m els id m where
  next := Nat.le_refl _
  nodup := by simpa using h.nodup
  place e he := ⟨.inl he, h.old e he⟩
  kept _ _ := ⟨rfl, rfl⟩
  other _ _ _ := ⟨rfl, rfl⟩
  gone x h1 h2 := by
    rcases h2 with h2 | h2
    · exact h.free x h2
    · exact absurd (by simpa using h2) h1

/-- The state after the new element was constructed, the container still having the old ones. -/
theorem wf_construct {m m1 : Mem K V} {els : List Nat} {k : Ref} {args : List Ref} (hw : Wf m els) (ha : ArgsOk m els k args)
    (hn : m1.next = m.next + 1) (hk : ∀ x, x ≠ m.next → m1.key x = afterKey m k x)
    (hv : ∀ x, x ≠ m.next → m1.val x = afterVal m args x) : Wf m1 els ∧ (∀ e ∈ els, m1.key e = m.key e) := by
  have ne : ∀ e ∈ els, e ≠ m.next := fun e he => by have := hw.old e he; omega
  have hke : ∀ e ∈ els, m1.key e = m.key e := by
    intro e he
    rw [hk e (ne e he), afterKey, if_neg]
    rintro ⟨h1, rfl⟩
    exact ha.keyOut h1 he
  refine ⟨⟨hw.nodup, fun e he => by have := hw.old e he; omega, fun e he => by rw [hke e he]; exact hw.key e he, fun e he => ?_, ?_⟩, hke⟩
  · rw [hv e (ne e he), afterVal]
    split
    · simp
    · exact hw.val e he
  · intro x hx
    have hx' : x ≠ m.next := by omega
    have hf := hw.free x (by omega)
    rw [hk x hx', hv x hx', afterKey, afterVal]
    refine ⟨?_, ?_⟩
    · rw [if_neg]; exact hf.1
      rintro ⟨_, rfl⟩
      obtain ⟨k0, h⟩ := ha.key
      rw [hf.1] at h; cases h
    · rw [if_neg]; exact hf.2
      intro hc
      obtain ⟨v, h⟩ := ha.vals _ hc
      rw [hf.2] at h; cases h

theorem inserted_of {m m1 m' : Mem K V} {els : List Nat} {k : Ref} {args : List Ref} {mk : List V → V} {k0 : K} {vs : List V}
    {f : Nat → Nat} (hw : Wf m els) (ha : ArgsOk m els k args) (hk0 : m.key k.addr = .live k0)
    (hvs : args.map (fun r => m.val r.addr) = vs.map .live) (hn : m1.next = m.next + 1) (h1 : m1.key m.next = .live k0)
    (h2 : m1.val m.next = .live (mk vs)) (hk : ∀ x, x ≠ m.next → m1.key x = afterKey m k x)
    (hv : ∀ x, x ≠ m.next → m1.val x = afterVal m args x) (hm : Moved m1 els f m') :
    Inserted m els k args mk m' (m.next :: els.map f) m.next ∧ Wf m' (m.next :: els.map f) := by
  obtain ⟨w1, hke⟩ := wf_construct hw ha hn hk hv
  have nin : m.next ∉ els := fun hc => by have := hw.old _ hc; omega
  have keep := hm.other m.next nin (by omega)
  have nf : m.next ∉ els.map f := by
    intro hc
    obtain ⟨e, he, h⟩ := List.mem_map.1 hc
    rcases (hm.place e he).1 with h' | h'
    · rw [h] at h'; exact nin h'
    · omega
  refine ⟨⟨⟨k0, hk0, by rw [keep.1, h1]⟩, ⟨vs, hvs, by rw [keep.2, h2]⟩, nin, ⟨f, .refl _, fun e he => ?_⟩, fun x h3 h4 => ?_,
    fun x h3 h4 => ?_⟩, ⟨?_, ?_, ?_, ?_, ?_⟩⟩
  · have ne : e ≠ m.next := fun c => nin (c ▸ he)
    rw [(hm.kept e he).1, (hm.kept e he).2, hke e he, hv e ne]
    exact ⟨rfl, rfl⟩
  · rw [(hm.other x h4 (by omega)).1, (hm.other x h4 (by omega)).2]
    exact ⟨hk x (by omega), hv x (by omega)⟩
  · simp only [List.mem_cons, not_or] at h3
    refine hm.gone x h3.2 ?_
    rcases h4 with h4 | h4
    · left; omega
    · exact .inr h4
  · exact List.nodup_cons.2 ⟨nf, hm.nodup⟩
  · intro e he
    rcases List.mem_cons.1 he with rfl | he
    · have := hm.next; omega
    · obtain ⟨y, hy, rfl⟩ := List.mem_map.1 he
      exact (hm.place y hy).2
  · intro e he
    rcases List.mem_cons.1 he with rfl | he
    · exact ⟨k0, by rw [keep.1, h1]⟩
    · obtain ⟨y, hy, rfl⟩ := List.mem_map.1 he
      rw [(hm.kept y hy).1]; exact w1.key y hy
  · intro e he
    rcases List.mem_cons.1 he with rfl | he
    · rw [keep.2, h2]; simp
    · obtain ⟨y, hy, rfl⟩ := List.mem_map.1 he
      rw [(hm.kept y hy).2]; exact w1.val y hy
  · intro x hx
    have h3 := hm.next
    refine hm.gone x (fun hc => ?_) (.inl (by omega))
    obtain ⟨y, hy, rfl⟩ := List.mem_map.1 hc
    have := (hm.place y hy).2
    omega

end Obj

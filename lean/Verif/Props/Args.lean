/-
Property C61: what insertions do to the objects their arguments refer to. Specification: `Verif/SpecArgs.lean`.
-/
import Verif.Obj.Lemmas

namespace Props.Args
open SpecArgs Obj
variable {K V : Type}

/-! ### a concrete state, for the examples -/

/-- A map with the elements 10 ↦ 100, 11 ↦ 101 and 12 ↦ a mapped value that was moved from, at the addresses 0, 1, 2; the caller has a key 13
at 3 and a pair (11, 7) at 4. -/
def mem0 : Mem Nat Nat where
  key := fun x => if x = 0 then .live 10 else if x = 1 then .live 11 else if x = 2 then .live 12 else if x = 3 then .live 13
    else if x = 4 then .live 11 else .dead
  val := fun x => if x = 0 then .live 100 else if x = 1 then .live 101 else if x = 2 then .husk else if x = 3 then .live 0
    else if x = 4 then .live 7 else .dead
  next := 5

theorem wf0 : Wf mem0 [0, 1, 2] where
  nodup := by decide
  old := by decide
  key := by intro e he; simp only [List.mem_cons, List.not_mem_nil, or_false] at he; rcases he with rfl | rfl | rfl <;> exact ⟨_, rfl⟩
  val := by decide
  free := by
    intro x hx
    have : 5 ≤ x := hx
    have h : x ≠ 0 ∧ x ≠ 1 ∧ x ≠ 2 ∧ x ≠ 3 ∧ x ≠ 4 := by omega
    simp [mem0, h]

/-- `try_emplace(std::move(key), m.at(11), std::move(m.at(10)))`: the arguments refer to elements -/
theorem args0 : ArgsOk mem0 [0, 1, 2] ⟨3, true⟩ [⟨1, false⟩, ⟨0, true⟩] where
  key := ⟨13, rfl⟩
  keyOut := by decide
  vals := by intro r hr; simp only [List.mem_cons, List.not_mem_nil, or_false] at hr; rcases hr with rfl | rfl <;> exact ⟨_, rfl⟩
  apart := by simp

/-- `insert(pair)`, the key being there already -/
theorem args1 : ArgsOk mem0 [0, 1, 2] ⟨4, true⟩ [⟨4, true⟩] where
  key := ⟨11, rfl⟩
  keyOut := by decide
  vals := by intro r hr; simp only [List.mem_cons, List.not_mem_nil, or_false] at hr; subst hr; exact ⟨_, rfl⟩
  apart := by simp

/-- `insert_or_assign(key, std::move(m.at(10)))` with a new key -/
theorem args2 : ArgsOk mem0 [0, 1, 2] ⟨3, true⟩ [⟨0, true⟩] where
  key := ⟨13, rfl⟩
  keyOut := by decide
  vals := by intro r hr; simp only [List.mem_cons, List.not_mem_nil, or_false] at hr; subst hr; exact ⟨_, rfl⟩
  apart := by simp

def sum (vs : List Nat) : Nat := vs.foldl (· + ·) 0
def eqN (a b : Nat) : Bool := a == b

/-- the objects at the first `n` addresses, and the rest of a result -/
def show0 (n : Nat) (r : Option (Mem Nat Nat × List Nat × Nat × Bool)) : Option (List (Cell Nat) × List (Cell Nat) × List Nat × Nat × Bool) :=
  r.map fun r => ((List.range n).map r.1.key, (List.range n).map r.1.val, r.2)

/-! ### open addressing -/

/-- **C61** `try_emplace(k,args...)`, `insert(x)`, `emplace(x)`, `emplace(k,v)` of flat and node containers, rehashing or not, the
arguments being objects of the caller or elements of the container: no object is read after it was moved from or destroyed; if there
is an equal element nothing at all changes; otherwise the new element has the values the arguments had, and only what was passed as
an rvalue is moved from. -/
theorem C61_foa_emplace (eq : K → K → Bool) (kd : Kind) (full : Bool) (m : Mem K V) (els : List Nat) (k : Ref) (args : List Ref)
    (mk : List V → V) (hw : Wf m els) (ha : ArgsOk m els k args) :
    ∃ r, emplaceImpl eq kd full m els k args mk = some r ∧ Right eq m els k args mk r := by
  obtain ⟨k0, hk0⟩ := ha.key
  rcases find_spec eq hk0 els hw.key with ⟨h1, h2⟩ | ⟨e, he, h1, h2⟩
  · obtain ⟨vs, m1, c1, c2, c3, c4, c5, c6, c7⟩ := construct_spec mk hk0 ha.vals ha.apart
    obtain ⟨w1, -⟩ := wf_construct hw ha c3 c6 c7
    cases full with
    | true =>
      obtain ⟨f, m', r1, r2⟩ := rehash_moved kd w1
      obtain ⟨i1, i2⟩ := inserted_of hw ha hk0 c2 c3 c4 c5 c6 c7 r2
      exact ⟨(m', m.next :: els.map f, m.next, true), by simp [emplaceImpl, readKey_some hk0, h1, c1, r1],
        ⟨fun _ => h2, fun _ => rfl⟩, i2, fun _ => i1, (fun h => by cases h)⟩
    | false =>
      obtain ⟨i1, i2⟩ := inserted_of hw ha hk0 c2 c3 c4 c5 c6 c7 (Moved.refl w1)
      rw [List.map_id] at i1 i2
      exact ⟨(m1, m.next :: els, m.next, true), by simp [emplaceImpl, readKey_some hk0, h1, c1],
        ⟨fun _ => h2, fun _ => rfl⟩, i2, fun _ => i1, (fun h => by cases h)⟩
  · exact ⟨(m, els, e, false), by simp only [emplaceImpl, readKey_some hk0, h1],
      ⟨(fun h => by cases h), fun h => absurd (Obj.Present.mono h2 (by simpa using he)) h⟩, hw, (fun h => by cases h),
      fun _ => ⟨⟨fun _ => rfl, fun _ => rfl⟩, rfl, he, h2⟩⟩

set_option maxRecDepth 100000 in
/-- a full flat map, arguments that refer to its elements: the new element is at 5, the others are moved to 6, 7, 8 -/
example : (∃ r, emplaceImpl eqN .move true mem0 [0, 1, 2] ⟨3, true⟩ [⟨1, false⟩, ⟨0, true⟩] sum = some r ∧
      Right eqN mem0 [0, 1, 2] ⟨3, true⟩ [⟨1, false⟩, ⟨0, true⟩] sum r) ∧
    show0 9 (emplaceImpl eqN .move true mem0 [0, 1, 2] ⟨3, true⟩ [⟨1, false⟩, ⟨0, true⟩] sum) =
      some ([.dead, .dead, .dead, .husk, .live 11, .live 13, .live 10, .live 11, .live 12],
        [.dead, .dead, .dead, .live 0, .live 7, .live 201, .husk, .live 101, .husk], [5, 6, 7, 8], 5, true) ∧
    show0 6 (emplaceImpl eqN .move true mem0 [0, 1, 2] ⟨4, true⟩ [⟨4, true⟩] sum) =
      some ((List.range 6).map mem0.key, (List.range 6).map mem0.val, [0, 1, 2], 1, false) :=
  ⟨C61_foa_emplace eqN .move true mem0 _ _ _ sum wf0 args0, by decide, by decide⟩

/-- Something is built from the arguments, used for an insertion and destroyed. -/
theorem temp_right {eq : K → K → Bool} {m m1 : Mem K V} {els : List Nat} {k : Ref} {args args' args1 : List Ref}
    {mk mk1 : List V → V} {k0 : K} {v0 : V} (hw : Wf m els) (hk0 : m.key k.addr = .live k0)
    (hvals : ∀ r ∈ args', ∃ v, m.val r.addr = .live v)
    (hk : ∀ x, x ≠ m.next → m1.key x = afterKey m k x)
    (hv : ∀ x, x ≠ m.next → m1.val x = afterVal m args' x) (hn : m1.next = m.next + 1) (h1 : m1.key m.next = .live k0)
    (h2 : m1.val m.next = .live v0) (hke : ∀ e ∈ els, m1.key e = m.key e)
    (hy : ∀ y, y ≠ m.next → afterVal m1 args1 y = afterVal m args y)
    (hval : ∀ vs1, args1.map (fun r => m1.val r.addr) = vs1.map .live → ∃ vs, args.map (fun r => m.val r.addr) = vs.map .live ∧
      mk1 vs1 = mk vs)
    {r : Mem K V × List Nat × Nat × Bool} (hr : Right eq m1 els ⟨m.next, true⟩ args1 mk1 r) :
    ∃ m', destroy r.1 m.next = some m' ∧ RightEager eq m els k args mk k args' (m', r.2) := by
  obtain ⟨m2, els', a, b⟩ := r
  obtain ⟨r1, r2, r3, r4⟩ := hr
  simp only at r1 r2 r3 r4
  have nin : m.next ∉ els := fun hc => by have := hw.old _ hc; omega
  have pres : ∀ es : List Nat, (∀ e ∈ es, e ∈ els) → (Present eq m1 es m.next ↔ Present eq m es k.addr) := by
    intro es hes
    constructor
    · rintro ⟨e, he, k1, ke, j1, j2, j3⟩
      rw [h1] at j1; cases j1
      exact ⟨e, he, _, ke, hk0, by rw [← hke e (hes e he)]; exact j2, j3⟩
    · rintro ⟨e, he, k1, ke, j1, j2, j3⟩
      rw [hk0] at j1; cases j1
      exact ⟨e, he, _, ke, h1, by rw [hke e (hes e he)]; exact j2, j3⟩
  have hd := hw.free m.next (Nat.le_refl _)
  have knext : k.addr ≠ m.next := fun c => by rw [c, hd.1] at hk0; cases hk0
  cases b with
  | true =>
    have hi := r3 rfl
    have hx := hi.outside m.next (by omega) nin
    have xk : m2.key m.next = .husk := by rw [hx.1, afterKey]; simp
    have xv : m2.val m.next ≠ .dead := by
      rw [hx.2, afterVal]; split
      · simp
      · rw [h2]; simp
    have xin : m.next ∉ els' := fun hc => by
      obtain ⟨k', hk'⟩ := r2.key _ hc
      rw [xk] at hk'; cases hk'
    obtain ⟨k1, j1, j2⟩ := hi.key
    simp only at j1
    rw [h1] at j1; cases j1
    have ain : a ∈ els' := by
      obtain ⟨f, hf, -⟩ := hi.elems
      exact hf.mem_iff.2 (by simp)
    have ax : a ≠ m.next := fun c => xin (c ▸ ain)
    refine ⟨_, destroy_spec (by rw [xk]; simp) xv, ⟨fun _ => ?_, fun _ => rfl⟩, ?_, fun _ => ?_, (fun h => by cases h)⟩
    · rw [← pres els (fun _ h => h)]; exact r1.1 rfl
    · refine ⟨r2.nodup, r2.old, fun e he => ?_, fun e he => ?_, fun y hy => ?_⟩
      · have : e ≠ m.next := fun c => xin (c ▸ he)
        simp only [put, this, if_false]; exact r2.key e he
      · have : e ≠ m.next := fun c => xin (c ▸ he)
        simp only [put, this, if_false]; exact r2.val e he
      · by_cases c : y = m.next
        · simp [put, c]
        · simp only [put, c, if_false]; exact r2.free y hy
    · refine ⟨⟨k0, hk0, by simp only [put, ax, if_false]; exact j2⟩, ?_, hi.fresh, ?_, ?_, ?_⟩
      · obtain ⟨vs1, j3, j4⟩ := hi.val
        obtain ⟨vs, j5, j6⟩ := hval vs1 j3
        exact ⟨vs, j5, by simp only [put, ax, if_false]; rw [j4, j6]⟩
      · obtain ⟨f, f1, f2⟩ := hi.elems
        refine ⟨f, f1, fun e he => ?_⟩
        have fe : f e ≠ m.next := fun c => xin (c ▸ f1.mem_iff.2 (List.mem_cons_of_mem _ (List.mem_map_of_mem he)))
        have ee : e ≠ m.next := fun c => nin (c ▸ he)
        simp only [put, fe, if_false]
        rw [(f2 e he).1, (f2 e he).2, hke e he, hy e ee]
        exact ⟨rfl, rfl⟩
      · intro x hx hxe
        have c : x ≠ m.next := by omega
        have := hi.outside x (by omega) hxe
        simp only [put, c, if_false]
        rw [this.1, this.2, hy x c, ← hk x c]
        exact ⟨by simp [afterKey, c], rfl⟩
      · intro x h3 h4
        by_cases c : x = m.next
        · simp [put, c]
        · simp only [put, c, if_false]
          refine hi.gone x h3 ?_
          rcases h4 with h4 | h4
          · left; omega
          · exact .inr h4
  | false =>
    obtain ⟨⟨s1, s2⟩, s3, s4, s5⟩ := r4 rfl
    refine ⟨_, destroy_spec (by rw [s1, h1]; simp) (by rw [s2, h2]; simp), ⟨(fun h => by cases h), fun h => ?_⟩, ?_, (fun h => by cases h),
      fun _ => ⟨⟨fun x => ?_, fun x => ?_⟩, s3, s4, (pres _ (by simpa using s4)).1 s5⟩⟩
    · exact r1.2 (fun c => h ((pres els (fun _ h => h)).1 c))
    · refine ⟨r2.nodup, r2.old, fun e he => ?_, fun e he => ?_, fun y hy => ?_⟩
      · have : e ≠ m.next := fun c => nin (by rw [← c, ← s3]; exact he)
        simp only [put, this, if_false]; exact r2.key e he
      · have : e ≠ m.next := fun c => nin (by rw [← c, ← s3]; exact he)
        simp only [put, this, if_false]; exact r2.val e he
      · by_cases c : y = m.next
        · simp [put, c]
        · simp only [put, c, if_false]; exact r2.free y hy
    · by_cases c : x = m.next
      · subst c
        simp [put, afterKey, hd.1, Ne.symm knext]
      · simp only [put, c, if_false]; rw [s1, hk x c]
    · by_cases c : x = m.next
      · subst c
        have : (⟨m.next, true⟩ : Ref) ∉ args' := fun hc => by
          obtain ⟨v, hv⟩ := hvals _ hc
          rw [hd.2] at hv; cases hv
        simp [put, afterVal, this, hd.2]
      · simp only [put, c, if_false]; rw [s2, hv x c]

/-- **C61** The general `emplace(args...)` of flat and node containers, which builds a value first: the same, except that the arguments
are consumed also if nothing is inserted; the temporary value is gone in the end. -/
theorem C61_foa_emplace_general (eq : K → K → Bool) (kd : Kind) (full : Bool) (m : Mem K V) (els : List Nat) (k : Ref)
    (args : List Ref) (mk : List V → V) (hw : Wf m els) (ha : ArgsOk m els k args) :
    ∃ r, emplaceTemp eq kd full m els k args mk = some r ∧ RightEager eq m els k args mk k args r := by
  obtain ⟨k0, hk0⟩ := ha.key
  obtain ⟨vs, m1, c1, c2, c3, c4, c5, c6, c7⟩ := construct_spec mk hk0 ha.vals ha.apart
  obtain ⟨w1, hke⟩ := wf_construct hw ha c3 c6 c7
  have nin : m.next ∉ els := fun hc => by have := hw.old _ hc; omega
  obtain ⟨r, hr, hr'⟩ := C61_foa_emplace eq kd full m1 els ⟨m.next, true⟩ [⟨m.next, true⟩] (fun vs => vs.headD (mk [])) w1
    ⟨⟨k0, c4⟩, fun _ => nin, by simp [c5], by simp⟩
  obtain ⟨m', d1, d2⟩ := temp_right (mk := mk) (args := args) hw hk0 ha.vals c6 c7 c3 c4 c5 hke
    (fun y hy => by simp [afterVal, hy]; rw [c7 y hy, afterVal]) (fun vs1 h => by
      refine ⟨vs, c2, ?_⟩
      cases vs1 with
      | nil => simp at h
      | cons v vs1 =>
        simp only [List.map_cons, List.map_nil, c5] at h
        cases vs1 with
        | nil => simpa using h.symm
        | cons _ _ => simp at h) hr'
  obtain ⟨m2, els', a, b⟩ := r
  exact ⟨(m', els', a, b), by simp only [emplaceTemp, c1, hr]; rw [d1]; rfl, d2⟩

set_option maxRecDepth 100000 in
/-- the rvalue pair is consumed though nothing is inserted -/
example : (∃ r, emplaceTemp eqN .move true mem0 [0, 1, 2] ⟨4, true⟩ [⟨4, true⟩] sum = some r ∧
      RightEager eqN mem0 [0, 1, 2] ⟨4, true⟩ [⟨4, true⟩] sum ⟨4, true⟩ [⟨4, true⟩] r) ∧
    show0 6 (emplaceTemp eqN .move true mem0 [0, 1, 2] ⟨4, true⟩ [⟨4, true⟩] sum) =
      some ([.live 10, .live 11, .live 12, .live 13, .husk, .dead], [.live 100, .live 101, .husk, .live 0, .husk, .dead],
        [0, 1, 2], 1, false) :=
  ⟨C61_foa_emplace_general eqN .move true mem0 _ _ _ sum wf0 args1, by decide⟩

theorem assign_spec {m : Mem K V} {els : List Nat} {e : Nat} {obj : Ref} (hw : Wf m els) (he : e ∈ els)
    (hv : ∃ v, m.val obj.addr = .live v) :
    ∃ m', assign m e obj = some m' ∧ m'.val e = m.val obj.addr ∧ (∀ x, m'.key x = m.key x) ∧
      (∀ x, x ≠ e → m'.val x = afterVal m [obj] x) ∧ Wf m' els := by
  obtain ⟨v, hv⟩ := hv
  let m1 : Mem K V := if obj.rv then { m with val := put m.val obj.addr .husk } else m
  have e1 : takeVal m obj = some (v, m1) := by simp [takeVal, hv, m1]
  have hk : m1.key = m.key := by by_cases h : obj.rv = true <;> simp [m1, h]
  have hn : m1.next = m.next := by by_cases h : obj.rv = true <;> simp [m1, h]
  have hval : ∀ x, m1.val x = afterVal m [obj] x := by
    intro x
    obtain ⟨a, rv⟩ := obj
    cases rv
    · simp [m1, afterVal]
    · simp [m1, put, afterVal]
  have hxe : ∀ x, x ≠ e → put m1.val e (.live v) x = afterVal m [obj] x := fun x hx => by rw [put_ne _ _ hx, hval]
  have hne : m.next ≤ obj.addr → False := fun hc => by rw [(hw.free _ hc).2] at hv; cases hv
  refine ⟨{ m1 with val := put m1.val e (.live v) }, by simp [assign, e1], by simp [put, hv], fun x => by simp [hk], hxe,
    ⟨hw.nodup, by simpa [hn] using hw.old, by simpa [hk] using hw.key, fun x hx => ?_, fun x hx => ?_⟩⟩
  · show put m1.val e (.live v) x ≠ .dead
    by_cases c : x = e
    · simp [put, c]
    · rw [hxe x c, afterVal]
      split
      · simp
      · exact hw.val x hx
  · have hx : m.next ≤ x := by simpa [hn] using hx
    refine ⟨by simpa [hk] using (hw.free x hx).1, ?_⟩
    show put m1.val e (.live v) x = .dead
    have c : x ≠ e := fun c => by have := hw.old e he; omega
    rw [hxe x c, afterVal, if_neg]
    · exact (hw.free x hx).2
    · intro hc
      rw [List.mem_singleton] at hc
      exact hne (by rw [← hc]; exact hx)

/-- **C61** `insert_or_assign(k,obj)` of flat and node maps, though it forwards `obj` twice: inserted as above, or the mapped value of the
equal element becomes the value `obj` had, `obj` being moved from only if it is an rvalue, and the key argument is left alone. -/
theorem C61_foa_insert_or_assign (eq : K → K → Bool) (kd : Kind) (full : Bool) (m : Mem K V) (els : List Nat) (k obj : Ref) (dflt : V)
    (hw : Wf m els) (ha : ArgsOk m els k [obj]) :
    ∃ r, insertOrAssign eq kd full m els k obj dflt = some r ∧ RightAssign eq m els k obj (fun vs => vs.headD dflt) r := by
  obtain ⟨⟨m1, els1, a, b⟩, h1, h2, h3, h4, h5⟩ := C61_foa_emplace eq kd full m els k [obj] (fun vs => vs.headD dflt) hw ha
  simp only at h2 h3 h4 h5
  cases b with
  | true => exact ⟨(m1, els1, a, true), by simp only [insertOrAssign, h1], h2, h3, h4, (fun h => by cases h)⟩
  | false =>
    obtain ⟨s1, s2, s3, s4⟩ := h5 rfl
    subst s2
    obtain ⟨v, hv⟩ := ha.vals obj (by simp)
    obtain ⟨m', e1, e2, e3, e4, e5⟩ := assign_spec (obj := obj) h3 s3 ⟨v, by rw [s1.2]; exact hv⟩
    refine ⟨(m', els1, a, false), by simp only [insertOrAssign, h1, e1, Option.map_some], h2, e5, (fun h => by cases h), fun _ =>
      ⟨rfl, s3, s4, by rw [e2, s1.2], fun x => by rw [e3, s1.1], fun x hx => ?_⟩⟩
    rw [e4 x hx, afterVal, afterVal, s1.2]

set_option maxRecDepth 100000 in
/-- assigned: only the mapped part of the rvalue pair is consumed; inserted with an rvalue mapped value from inside the container -/
example : ((∃ r, insertOrAssign eqN .move true mem0 [0, 1, 2] ⟨4, true⟩ ⟨4, true⟩ 0 = some r ∧
      RightAssign eqN mem0 [0, 1, 2] ⟨4, true⟩ ⟨4, true⟩ (fun vs => vs.headD 0) r) ∧
    show0 6 (insertOrAssign eqN .move true mem0 [0, 1, 2] ⟨4, true⟩ ⟨4, true⟩ 0) =
      some ([.live 10, .live 11, .live 12, .live 13, .live 11, .dead], [.live 100, .live 7, .husk, .live 0, .husk, .dead],
        [0, 1, 2], 1, false)) ∧
    (∃ r, insertOrAssign eqN .copy true mem0 [0, 1, 2] ⟨3, true⟩ ⟨0, true⟩ 0 = some r ∧
      RightAssign eqN mem0 [0, 1, 2] ⟨3, true⟩ ⟨0, true⟩ (fun vs => vs.headD 0) r) :=
  ⟨⟨C61_foa_insert_or_assign eqN .move true mem0 _ _ _ 0 wf0 args1, by decide⟩,
    C61_foa_insert_or_assign eqN .copy true mem0 _ _ _ 0 wf0 args2⟩

/-! ### concurrent open addressing -/

/-- Between two rounds other threads do what they want with objects and elements, but not with the arguments; the container's keys hold
values. `m` is the memory before the first of the rounds. -/
def EnvsOk (k : Ref) (args : List Ref) : Mem K V → List (Round K V) → Prop
  | _, [] => True
  | m, r :: rs => (r.env m).key k.addr = m.key k.addr ∧ (∀ x ∈ args, (r.env m).val x.addr = m.val x.addr) ∧
    (∀ e ∈ r.els, ∃ ke, (r.env m).key e = .live ke) ∧ (∀ x, (r.env m).next ≤ x → (r.env m).key x = .dead ∧ (r.env m).val x = .dead) ∧
    EnvsOk k args (r.env m) rs

theorem pairwise_mem {α : Type} {R : α → α → Prop} : ∀ {l : List α}, l.Pairwise R → ∀ a ∈ l, ∀ b ∈ l, a ≠ b → R a b ∨ R b a
  | [], _, _, h, _, _, _ => by cases h
  | x :: xs, hp, a, ha, b, hb, hab => by
    rw [List.pairwise_cons] at hp
    rcases List.mem_cons.1 ha with rfl | ha <;> rcases List.mem_cons.1 hb with rfl | hb
    · exact absurd rfl hab
    · exact .inl (hp.1 b ‹_›)
    · exact .inr (hp.1 a ‹_›)
    · exact pairwise_mem hp.2 a ha b hb hab

/-- **C61** Insertion in concurrent containers, however often it has to start over or wait for a rehash: the arguments are consumed
exactly if the element is inserted, and then the element has the values they had at the call. -/
theorem C61_concurrent_emplace (eq : K → K → Bool) (k : Ref) (args : List Ref) (mk : List V → V) (k0 : K) (vs : List V) :
    ∀ (rs : List (Round K V)) (m : Mem K V), m.key k.addr = .live k0 → args.map (fun r => m.val r.addr) = vs.map .live →
      args.Pairwise (fun r r' => r.addr = r'.addr → r.rv = false ∧ r'.rv = false) → EnvsOk k args m rs →
      ∃ res, concEmplace eq k args mk m rs = some res ∧ ∀ m' a b, res = some (m', a, b) →
        (b = true → m'.key a = .live k0 ∧ m'.val a = .live (mk vs) ∧ m'.key k.addr = (if k.rv then .husk else .live k0) ∧
          ∀ r ∈ args, m'.val r.addr = if r.rv then .husk else m.val r.addr) ∧
        (b = false → m'.key k.addr = .live k0 ∧ (∀ r ∈ args, m'.val r.addr = m.val r.addr) ∧ Present eq m' [a] k.addr)
  | [], _, _, _, _, _ => ⟨none, rfl, fun _ _ _ h => by cases h⟩
  | r :: rs, m, hk, hv, hp, he => by
    obtain ⟨e1, e2, e3, e4, e5⟩ := he
    have hk1 : (r.env m).key k.addr = .live k0 := by rw [e1]; exact hk
    have hv1 : args.map (fun r' => (r.env m).val r'.addr) = vs.map .live := by
      rw [← hv]; exact List.map_congr_left e2
    have hlive : ∀ x ∈ args, ∃ v, (r.env m).val x.addr = .live v := by
      intro x hx
      have : (r.env m).val x.addr ∈ vs.map Cell.live := by rw [← hv1]; exact List.mem_map_of_mem (f := fun r' => (r.env m).val r'.addr) hx
      obtain ⟨v, -, h⟩ := List.mem_map.1 this
      exact ⟨v, h.symm⟩
    rcases find_spec eq hk1 r.els e3 with ⟨h1, -⟩ | ⟨e, _, h1, h2⟩
    · have again : ∃ res, concEmplace eq k args mk (r.env m) rs = some res ∧ ∀ m' a b, res = some (m', a, b) →
        (b = true → m'.key a = .live k0 ∧ m'.val a = .live (mk vs) ∧ m'.key k.addr = (if k.rv then .husk else .live k0) ∧
          ∀ r ∈ args, m'.val r.addr = if r.rv then .husk else m.val r.addr) ∧
        (b = false → m'.key k.addr = .live k0 ∧ (∀ r ∈ args, m'.val r.addr = m.val r.addr) ∧ Present eq m' [a] k.addr) := by
        obtain ⟨res, i1, i2⟩ := C61_concurrent_emplace eq k args mk k0 vs rs (r.env m) hk1 hv1 hp e5
        refine ⟨res, i1, fun m' a b h => ?_⟩
        obtain ⟨j1, j2⟩ := i2 m' a b h
        refine ⟨fun hb => ?_, fun hb => ?_⟩
        · obtain ⟨q1, q2, q3, q4⟩ := j1 hb
          exact ⟨q1, q2, q3, fun x hx => by rw [q4 x hx, e2 x hx]⟩
        · obtain ⟨q1, q2, q3⟩ := j2 hb
          exact ⟨q1, fun x hx => by rw [q2 x hx, e2 x hx], q3⟩
      cases hs : r.stop with
      | isFull => simpa only [concEmplace, readKey_some hk1, h1, hs] using again
      | overtaken => simpa only [concEmplace, readKey_some hk1, h1, hs] using again
      | goes =>
        obtain ⟨ws, m1, c1, c2, c3, c4, c5, c6, c7⟩ := construct_spec mk hk1 hlive hp
        have ew : ws = vs := by
          rw [hv1] at c2
          exact (List.map_injective_iff.2 (fun a b h => by cases h; rfl) c2).symm
        subst ew
        have far : ∀ x, (r.env m).key x ≠ .dead ∨ (r.env m).val x ≠ .dead → x ≠ (r.env m).next := by
          rintro x h rfl
          have := e4 _ (Nat.le_refl _)
          rcases h with h | h
          · exact h this.1
          · exact h this.2
        refine ⟨some (m1, (r.env m).next, true), by simp only [concEmplace, readKey_some hk1, h1, hs, c1, Option.map_some],
          fun m' a b h => ?_⟩
        cases h
        refine ⟨fun _ => ⟨c4, c5, ?_, fun x hx => ?_⟩, (fun h => by cases h)⟩
        · rw [c6 _ (far _ (.inl (by rw [hk1]; simp))), afterKey, hk1]
          cases k.rv <;> simp
        · obtain ⟨v, hv'⟩ := hlive x hx
          rw [c7 _ (far _ (.inr (by rw [hv']; simp))), afterVal, e2 x hx]
          by_cases hrv : x.rv = true
          · rw [if_pos hrv, if_pos]
            rw [← hrv]; exact hx
          · rw [if_neg hrv, if_neg]
            intro hc
            by_cases hex : (⟨x.addr, true⟩ : Ref) = x
            · rw [← hex] at hrv; exact hrv rfl
            · have hsym : ∀ a ∈ args, ∀ b ∈ args, a ≠ b → (a.addr = b.addr → a.rv = false ∧ b.rv = false) :=
                fun a ha b hb hab => by
                  rcases pairwise_mem hp a ha b hb hab with h | h
                  · exact h
                  · exact fun e => (h e.symm).symm
              have := (hsym _ hc _ hx hex rfl).1
              cases this
    · refine ⟨some (r.env m, e, false), by simp only [concEmplace, readKey_some hk1, h1], fun m' a b h => ?_⟩
      cases h
      exact ⟨(fun h => by cases h), fun _ => ⟨hk1, e2, h2⟩⟩

/-- another thread inserts an element with key 20, at 5 -/
def other0 (m : Mem Nat Nat) : Mem Nat Nat := { key := put m.key 5 (.live 20), val := put m.val 5 (.live 1), next := 6 }

def rounds0 : List (Round Nat Nat) := [⟨id, [0, 1, 2], .isFull⟩, ⟨other0, [0, 1, 2, 5], .overtaken⟩, ⟨id, [0, 1, 2, 5], .goes⟩]

theorem envs0 : EnvsOk ⟨3, true⟩ [⟨4, true⟩] mem0 rounds0 := by
  have f1 := wf0.free
  have l1 : ∀ e ∈ [0, 1, 2], ∃ ke, (id mem0).key e = .live ke := wf0.key
  have l2 : ∀ e ∈ [0, 1, 2, 5], ∃ ke, (other0 mem0).key e = .live ke := by
    intro e he
    simp only [List.mem_cons, List.not_mem_nil, or_false] at he
    rcases he with rfl | rfl | rfl | rfl <;> exact ⟨_, rfl⟩
  have f2 : ∀ x, (other0 mem0).next ≤ x → (other0 mem0).key x = .dead ∧ (other0 mem0).val x = .dead := by
    intro x hx
    have hx : 6 ≤ x := hx
    have h := f1 x (by show 5 ≤ x; omega)
    have h5 : x ≠ 5 := by omega
    simp [other0, put, h5, h]
  have a2 : (other0 mem0).key 3 = mem0.key 3 := rfl
  have a3 : (other0 mem0).val 4 = mem0.val 4 := rfl
  exact ⟨rfl, fun _ _ => rfl, l1, f1, a2, by simpa using a3, l2, f2, rfl, fun _ _ => rfl, l2, f2, trivial⟩

set_option maxRecDepth 100000 in
/-- two rounds in vain, then the insertion; nothing is consumed before -/
example : (∃ res, concEmplace eqN ⟨3, true⟩ [⟨4, true⟩] sum mem0 rounds0 = some res ∧ ∀ m' a b, res = some (m', a, b) →
      (b = true → m'.key a = .live 13 ∧ m'.val a = .live (sum [7]) ∧ m'.key 3 = .husk ∧
        ∀ r ∈ [(⟨4, true⟩ : Ref)], m'.val r.addr = if r.rv then .husk else mem0.val r.addr) ∧
      (b = false → m'.key 3 = .live 13 ∧ (∀ r ∈ [(⟨4, true⟩ : Ref)], m'.val r.addr = mem0.val r.addr) ∧ Present eqN m' [a] 3)) ∧
    (concEmplace eqN ⟨3, true⟩ [⟨4, true⟩] sum mem0 rounds0).map
        (fun r => r.map fun r => ((List.range 7).map r.1.key, (List.range 7).map r.1.val, r.2)) =
      some (some ([.live 10, .live 11, .live 12, .husk, .live 11, .live 20, .live 13],
        [.live 100, .live 101, .husk, .live 0, .husk, .live 1, .live 7], 6, true)) :=
  ⟨C61_concurrent_emplace eqN ⟨3, true⟩ [⟨4, true⟩] sum 13 [7] rounds0 mem0 rfl rfl (by simp) envs0, by decide⟩

/-! ### closed addressing -/

theorem link_spec {m m1 : Mem K V} {els : List Nat} {k : Ref} {args : List Ref} {mk : List V → V} {k0 : K} {vs : List V} (full : Bool)
    (hw : Wf m els) (ha : ArgsOk m els k args) (hk0 : m.key k.addr = .live k0)
    (hvs : args.map (fun r => m.val r.addr) = vs.map .live) (hn : m1.next = m.next + 1) (h1 : m1.key m.next = .live k0)
    (h2 : m1.val m.next = .live (mk vs)) (hk : ∀ x, x ≠ m.next → m1.key x = afterKey m k x)
    (hv : ∀ x, x ≠ m.next → m1.val x = afterVal m args x) :
    link full m1 els m.next = some (m1, m.next :: els, m.next, true) ∧
      Inserted m els k args mk m1 (m.next :: els) m.next ∧ Wf m1 (m.next :: els) := by
  obtain ⟨w1, -⟩ := wf_construct hw ha hn hk hv
  have hi := inserted_of hw ha hk0 hvs hn h1 h2 hk hv (Moved.refl w1)
  rw [List.map_id] at hi
  refine ⟨?_, hi⟩
  cases full
  · simp [link]
  · simp [link, hashAll_spec els w1.key]

/-- **C61** `insert(x)`, `emplace(x)`, `emplace(k,v)`, `try_emplace(k)` of closed-addressing containers with unique keys. -/
theorem C61_fca_emplace (eq : K → K → Bool) (full : Bool) (m : Mem K V) (els : List Nat) (k : Ref) (args : List Ref)
    (mk : List V → V) (hw : Wf m els) (ha : ArgsOk m els k args) :
    ∃ r, emplaceUnique eq full m els k args mk = some r ∧ Right eq m els k args mk r := by
  obtain ⟨k0, hk0⟩ := ha.key
  rcases find_spec eq hk0 els hw.key with ⟨h1, h2⟩ | ⟨e, he, h1, h2⟩
  · obtain ⟨vs, m1, c1, c2, c3, c4, c5, c6, c7⟩ := construct_spec mk hk0 ha.vals ha.apart
    obtain ⟨l1, i1, i2⟩ := link_spec (mk := mk) full hw ha hk0 c2 c3 c4 c5 c6 c7
    exact ⟨(m1, m.next :: els, m.next, true), by simp only [emplaceUnique, readKey_some hk0, h1, c1, l1],
      ⟨fun _ => h2, fun _ => rfl⟩, i2, fun _ => i1, (fun h => by cases h)⟩
  · exact ⟨(m, els, e, false), by simp only [emplaceUnique, readKey_some hk0, h1],
      ⟨(fun h => by cases h), fun h => absurd (Obj.Present.mono h2 (by simpa using he)) h⟩, hw, (fun h => by cases h),
      fun _ => ⟨⟨fun _ => rfl, fun _ => rfl⟩, rfl, he, h2⟩⟩

/-- growing; arguments that refer to elements -/
example : (∃ r, emplaceUnique eqN true mem0 [0, 1, 2] ⟨3, true⟩ [⟨1, false⟩, ⟨0, true⟩] sum = some r ∧
      Right eqN mem0 [0, 1, 2] ⟨3, true⟩ [⟨1, false⟩, ⟨0, true⟩] sum r) ∧
    show0 6 (emplaceUnique eqN true mem0 [0, 1, 2] ⟨3, true⟩ [⟨1, false⟩, ⟨0, true⟩] sum) =
      some ([.live 10, .live 11, .live 12, .husk, .live 11, .live 13], [.husk, .live 101, .husk, .live 0, .live 7, .live 201],
        [5, 0, 1, 2], 5, true) :=
  ⟨C61_fca_emplace eqN true mem0 _ _ _ sum wf0 args0, by decide⟩

/-- an rvalue key treated as an lvalue -/
theorem args_lv {m : Mem K V} {els : List Nat} {k : Ref} {args : List Ref} (h : ArgsOk m els k args) :
    ArgsOk m els ⟨k.addr, false⟩ args :=
  ⟨h.key, (fun h => by cases h), h.vals, h.apart⟩

/-- **C61** `try_emplace(k,args...)` of closed-addressing maps: as above, except that if there are arguments for the mapped value the
key is copied also if it is an rvalue. -/
theorem C61_fca_try_emplace (eq : K → K → Bool) (full : Bool) (m : Mem K V) (els : List Nat) (k : Ref) (args : List Ref)
    (mk : List V → V) (hw : Wf m els) (ha : ArgsOk m els k args) :
    ∃ r, tryEmplaceUnique eq full m els k args mk = some r ∧
      Right eq m els (if args = [] then k else ⟨k.addr, false⟩) args mk r := by
  cases args with
  | nil => simpa [tryEmplaceUnique] using C61_fca_emplace eq full m els k [] mk hw ha
  | cons r rs => simpa [tryEmplaceUnique] using C61_fca_emplace eq full m els ⟨k.addr, false⟩ (r :: rs) mk hw (args_lv ha)

/-- **C61** (what is wrong) `try_emplace(std::move(k),args...)` of closed-addressing maps never moves from `k`. -/
theorem C61_fca_try_emplace_copies_key (eq : K → K → Bool) (full : Bool) (m : Mem K V) (els : List Nat) (k r0 : Ref)
    (args : List Ref) (mk : List V → V) (hw : Wf m els) (ha : ArgsOk m els k (r0 :: args)) (hout : k.addr ∉ els)
    (r : Mem K V × List Nat × Nat × Bool) (hr : tryEmplaceUnique eq full m els k (r0 :: args) mk = some r) :
    r.1.key k.addr = m.key k.addr := by
  obtain ⟨r', h1, -, -, h2, h3⟩ := C61_fca_try_emplace eq full m els k (r0 :: args) mk hw ha
  rw [hr] at h1
  obtain rfl := Option.some.inj h1
  cases hb : r.2.2.2 with
  | true =>
    obtain ⟨k0, hk0⟩ := ha.key
    have hlt : k.addr < m.next := Decidable.by_contra fun c => by
      rw [(hw.free k.addr (by omega)).1] at hk0; cases hk0
    rw [((h2 hb).outside _ hlt hout).1]
    simp [afterKey]
  | false => exact (h3 hb).1.1 _

/-- the key at 3 is passed as an rvalue and stays as it is -/
example : show0 6 (tryEmplaceUnique eqN true mem0 [0, 1, 2] ⟨3, true⟩ [⟨1, false⟩, ⟨0, true⟩] sum) =
    some ([.live 10, .live 11, .live 12, .live 13, .live 11, .live 13], [.husk, .live 101, .husk, .live 0, .live 7, .live 201],
      [5, 0, 1, 2], 5, true) ∧
    ∃ r, tryEmplaceUnique eqN true mem0 [0, 1, 2] ⟨3, true⟩ [⟨1, false⟩, ⟨0, true⟩] sum = some r ∧
      Right eqN mem0 [0, 1, 2] ⟨3, false⟩ [⟨1, false⟩, ⟨0, true⟩] sum r :=
  ⟨by decide, C61_fca_try_emplace eqN true mem0 _ _ _ sum wf0 args0⟩

/-- **C61** The overloads with a hint (`lv`: those of `try_emplace`, which copy rvalue keys): the same as without, whatever element the hint
denotes. -/
theorem C61_fca_hint (eq : K → K → Bool) (lv full : Bool) (m : Mem K V) (els : List Nat) (hint : Option Nat) (k : Ref) (args : List Ref)
    (mk : List V → V) (hw : Wf m els) (ha : ArgsOk m els k args) (hh : ∀ e, hint = some e → e ∈ els) :
    ∃ r, hinted eq lv full m els hint k args mk = some r ∧ Right eq m els (if lv then ⟨k.addr, false⟩ else k) args mk r := by
  have rest : ∃ r, emplaceUnique eq full m els (if lv then ⟨k.addr, false⟩ else k) args mk = some r ∧
      Right eq m els (if lv then ⟨k.addr, false⟩ else k) args mk r := by
    cases lv
    · exact C61_fca_emplace eq full m els k args mk hw ha
    · exact C61_fca_emplace eq full m els ⟨k.addr, false⟩ args mk hw (args_lv ha)
  cases hint with
  | none => simpa only [hinted] using rest
  | some e =>
    obtain ⟨k0, hk0⟩ := ha.key
    obtain ⟨ke, hke⟩ := hw.key e (hh e rfl)
    by_cases hq : eq k0 ke = true
    · have ek : (if lv then (⟨k.addr, false⟩ : Ref) else k).addr = k.addr := by cases lv <;> rfl
      have hp : Present eq m [e] k.addr := ⟨e, by simp, k0, ke, hk0, hke, hq⟩
      refine ⟨(m, els, e, false), by simp [hinted, readKey_some hk0, readKey_some hke, hq], ⟨(fun h => by cases h), fun h => ?_⟩, hw,
        (fun h => by cases h), fun _ => ⟨⟨fun _ => rfl, fun _ => rfl⟩, rfl, hh e rfl, by rw [ek]; exact hp⟩⟩
      rw [ek] at h
      exact absurd (Obj.Present.mono hp (by simpa using hh e rfl)) h
    · have e1 : hinted eq lv full m els (some e) k args mk =
          emplaceUnique eq full m els (if lv then ⟨k.addr, false⟩ else k) args mk := by
        simp [hinted, readKey_some hk0, readKey_some hke, hq]
      rw [e1]; exact rest

/-- a hint that denotes the equal element, and one that does not -/
example : show0 6 (hinted eqN false true mem0 [0, 1, 2] (some 1) ⟨4, true⟩ [⟨4, true⟩] sum) =
      some ((List.range 6).map mem0.key, (List.range 6).map mem0.val, [0, 1, 2], 1, false) ∧
    (∃ r, hinted eqN false true mem0 [0, 1, 2] (some 1) ⟨4, true⟩ [⟨4, true⟩] sum = some r ∧
      Right eqN mem0 [0, 1, 2] ⟨4, true⟩ [⟨4, true⟩] sum r) ∧
    ∃ r, hinted eqN true true mem0 [0, 1, 2] (some 2) ⟨3, true⟩ [⟨1, false⟩, ⟨0, true⟩] sum = some r ∧
      Right eqN mem0 [0, 1, 2] ⟨3, false⟩ [⟨1, false⟩, ⟨0, true⟩] sum r :=
  ⟨by decide, C61_fca_hint eqN false true mem0 _ _ _ _ sum wf0 args1 (by simp),
    C61_fca_hint eqN true true mem0 _ _ _ _ sum wf0 args0 (by simp)⟩

/-- **C61** The general `emplace(args...)`, which builds a node first: the arguments are consumed also if nothing is inserted. -/
theorem C61_fca_emplace_general (eq : K → K → Bool) (full : Bool) (m : Mem K V) (els : List Nat) (k : Ref) (args : List Ref)
    (mk : List V → V) (hw : Wf m els) (ha : ArgsOk m els k args) :
    ∃ r, emplaceNoKey eq full m els k args mk = some r ∧ RightEager eq m els k args mk k args r := by
  obtain ⟨k0, hk0⟩ := ha.key
  obtain ⟨vs, m1, c1, c2, c3, c4, c5, c6, c7⟩ := construct_spec mk hk0 ha.vals ha.apart
  obtain ⟨w1, hke⟩ := wf_construct hw ha c3 c6 c7
  have pres : ∀ es : List Nat, (∀ e ∈ es, e ∈ els) → (Present eq m1 es m.next ↔ Present eq m es k.addr) := by
    intro es hes
    constructor
    · rintro ⟨e, he, k1, ke, j1, j2, j3⟩
      rw [c4] at j1; cases j1
      exact ⟨e, he, _, ke, hk0, by rw [← hke e (hes e he)]; exact j2, j3⟩
    · rintro ⟨e, he, k1, ke, j1, j2, j3⟩
      rw [hk0] at j1; cases j1
      exact ⟨e, he, _, ke, c4, by rw [hke e (hes e he)]; exact j2, j3⟩
  have nin : m.next ∉ els := fun hc => by have := hw.old _ hc; omega
  have hd := hw.free m.next (Nat.le_refl _)
  have knext : k.addr ≠ m.next := fun c => by rw [c, hd.1] at hk0; cases hk0
  rcases find_spec eq c4 els w1.key with ⟨h1, h2⟩ | ⟨e, he, h1, h2⟩
  · obtain ⟨l1, i1, i2⟩ := link_spec (mk := mk) full hw ha hk0 c2 c3 c4 c5 c6 c7
    exact ⟨(m1, m.next :: els, m.next, true), by simp only [emplaceNoKey, c1, readKey_some c4, h1, l1],
      ⟨fun _ => fun c => h2 ((pres els (fun _ h => h)).2 c), fun _ => rfl⟩, i2, fun _ => i1, (fun h => by cases h)⟩
  · have hp := (pres [e] (by simpa using he)).1 h2
    refine ⟨({ m1 with key := put m1.key m.next .dead, val := put m1.val m.next .dead }, els, e, false),
      by simp only [emplaceNoKey, c1, readKey_some c4, h1, destroy_spec (m := m1) (a := m.next) (by rw [c4]; simp) (by rw [c5]; simp),
        Option.map_some],
      ⟨(fun h => by cases h), fun h => absurd (Obj.Present.mono hp (by simpa using he)) h⟩, ?_, (fun h => by cases h),
      fun _ => ⟨⟨fun x => ?_, fun x => ?_⟩, rfl, he, hp⟩⟩
    · refine ⟨w1.nodup, w1.old, fun e he => ?_, fun e he => ?_, fun y hy => ?_⟩
      · have : e ≠ m.next := fun c => nin (c ▸ he)
        simp only [put, this, if_false]; exact w1.key e he
      · have : e ≠ m.next := fun c => nin (c ▸ he)
        simp only [put, this, if_false]; exact w1.val e he
      · by_cases c : y = m.next
        · simp [put, c]
        · simp only [put, c, if_false]; exact w1.free y hy
    · by_cases c : x = m.next
      · subst c
        simp [put, afterKey, hd.1, Ne.symm knext]
      · simp only [put, c, if_false]; exact c6 x c
    · by_cases c : x = m.next
      · subst c
        have : (⟨m.next, true⟩ : Ref) ∉ args := fun hc => by
          obtain ⟨v, hv⟩ := ha.vals _ hc
          rw [hd.2] at hv; cases hv
        simp [put, afterVal, this, hd.2]
      · simp only [put, c, if_false]; exact c7 x c

example : (∃ r, emplaceNoKey eqN true mem0 [0, 1, 2] ⟨4, true⟩ [⟨4, true⟩] sum = some r ∧
      RightEager eqN mem0 [0, 1, 2] ⟨4, true⟩ [⟨4, true⟩] sum ⟨4, true⟩ [⟨4, true⟩] r) ∧
    show0 6 (emplaceNoKey eqN true mem0 [0, 1, 2] ⟨4, true⟩ [⟨4, true⟩] sum) =
      some ([.live 10, .live 11, .live 12, .live 13, .husk, .dead], [.live 100, .live 101, .husk, .live 0, .husk, .dead],
        [0, 1, 2], 1, false) :=
  ⟨C61_fca_emplace_general eqN true mem0 _ _ _ sum wf0 args1, by decide⟩

/-- **C61** `emplace(k,v)` with a `k` that has to be converted to the key type: the key argument is consumed also if nothing is inserted,
the mapped value only if it is. -/
theorem C61_fca_emplace_converting (eq : K → K → Bool) (full : Bool) (m : Mem K V) (els : List Nat) (k v : Ref) (dflt : V)
    (hw : Wf m els) (ha : ArgsOk m els k [v]) :
    ∃ r, emplaceConverting eq full m els k v dflt = some r ∧ RightEager eq m els k [v] (fun vs => vs.headD dflt) k [] r := by
  obtain ⟨k0, hk0⟩ := ha.key
  obtain ⟨v0, hv0⟩ := ha.vals v (by simp)
  obtain ⟨vs, m1, c1, c2, c3, c4, c5, c6, c7⟩ := construct_spec (args := []) (fun _ => dflt) hk0 (by simp) (by simp)
  obtain ⟨w1, hke⟩ := wf_construct (args := []) hw ⟨ha.key, ha.keyOut, by simp, by simp⟩ c3 c6 c7
  have nin : m.next ∉ els := fun hc => by have := hw.old _ hc; omega
  have hd := hw.free m.next (Nat.le_refl _)
  have vn : v.addr ≠ m.next := fun c => by rw [c, hd.2] at hv0; cases hv0
  have c7' : ∀ x, x ≠ m.next → m1.val x = m.val x := fun x hx => by rw [c7 x hx]; simp [afterVal]
  obtain ⟨r, hr, hr'⟩ := C61_fca_emplace eq full m1 els ⟨m.next, true⟩ [v] (fun vs => vs.headD dflt) w1
    ⟨⟨k0, c4⟩, fun _ => nin, by simp [c7' _ vn, hv0], by simp⟩
  obtain ⟨m', d1, d2⟩ := temp_right (mk := fun vs => vs.headD dflt) (args := [v]) (args' := []) hw hk0 (by simp) c6 c7 c3 c4 c5 hke
    (fun y hy => by simp only [afterVal, c7' y hy]) (fun vs1 h => ⟨vs1, by simpa [c7' _ vn] using h, rfl⟩) hr'
  obtain ⟨m2, els', a, b⟩ := r
  exact ⟨(m', els', a, b), by simp only [emplaceConverting, c1, hr]; rw [d1]; rfl, d2⟩

/-- the key argument is consumed, the mapped value is not -/
example : (∃ r, emplaceConverting eqN true mem0 [0, 1, 2] ⟨4, true⟩ ⟨4, true⟩ 0 = some r ∧
      RightEager eqN mem0 [0, 1, 2] ⟨4, true⟩ [⟨4, true⟩] (fun vs => vs.headD 0) ⟨4, true⟩ [] r) ∧
    show0 6 (emplaceConverting eqN true mem0 [0, 1, 2] ⟨4, true⟩ ⟨4, true⟩ 0) =
      some ([.live 10, .live 11, .live 12, .live 13, .husk, .dead], [.live 100, .live 101, .husk, .live 0, .live 7, .dead],
        [0, 1, 2], 1, false) :=
  ⟨C61_fca_emplace_converting eqN true mem0 _ _ _ 0 wf0 args1, by decide⟩

/-- **C61** `insert_or_assign(k,obj)` of closed-addressing maps. -/
theorem C61_fca_insert_or_assign (eq : K → K → Bool) (full : Bool) (m : Mem K V) (els : List Nat) (k obj : Ref) (dflt : V)
    (hw : Wf m els) (ha : ArgsOk m els k [obj]) :
    ∃ r, insertOrAssignUnique eq full m els k obj dflt = some r ∧ RightAssign eq m els k obj (fun vs => vs.headD dflt) r := by
  obtain ⟨k0, hk0⟩ := ha.key
  rcases find_spec eq hk0 els hw.key with ⟨h1, h2⟩ | ⟨e, he, h1, h2⟩
  · obtain ⟨vs, m1, c1, c2, c3, c4, c5, c6, c7⟩ := construct_spec (fun vs => vs.headD dflt) hk0 ha.vals ha.apart
    obtain ⟨l1, i1, i2⟩ := link_spec (mk := fun vs => vs.headD dflt) full hw ha hk0 c2 c3 c4 c5 c6 c7
    exact ⟨(m1, m.next :: els, m.next, true), by simp only [insertOrAssignUnique, readKey_some hk0, h1, c1, l1],
      ⟨fun _ => h2, fun _ => rfl⟩, i2, fun _ => i1, (fun h => by cases h)⟩
  · obtain ⟨m', e1, e2, e3, e4, e5⟩ := assign_spec (obj := obj) hw he (ha.vals obj (by simp))
    exact ⟨(m', els, e, false), by simp only [insertOrAssignUnique, readKey_some hk0, h1, e1, Option.map_some],
      ⟨(fun h => by cases h), fun h => absurd (Obj.Present.mono h2 (by simpa using he)) h⟩, e5, (fun h => by cases h),
      fun _ => ⟨rfl, he, h2, e2, e3, e4⟩⟩

example : (∃ r, insertOrAssignUnique eqN true mem0 [0, 1, 2] ⟨4, true⟩ ⟨4, true⟩ 0 = some r ∧
      RightAssign eqN mem0 [0, 1, 2] ⟨4, true⟩ ⟨4, true⟩ (fun vs => vs.headD 0) r) ∧
    show0 6 (insertOrAssignUnique eqN true mem0 [0, 1, 2] ⟨4, true⟩ ⟨4, true⟩ 0) =
      some ([.live 10, .live 11, .live 12, .live 13, .live 11, .dead], [.live 100, .live 7, .husk, .live 0, .husk, .dead],
        [0, 1, 2], 1, false) :=
  ⟨C61_fca_insert_or_assign eqN true mem0 _ _ _ 0 wf0 args1, by decide⟩

/-- **C61** `insert` and `emplace` of multisets and multimaps: always inserted, as above. -/
theorem C61_fca_multi (eq : K → K → Bool) (full : Bool) (m : Mem K V) (els : List Nat) (k : Ref) (args : List Ref)
    (mk : List V → V) (hw : Wf m els) (ha : ArgsOk m els k args) :
    ∃ m' els' a, emplaceEquiv eq full m els k args mk = some (m', els', a, true) ∧ Wf m' els' ∧
      Inserted m els k args mk m' els' a := by
  obtain ⟨k0, hk0⟩ := ha.key
  obtain ⟨vs, m1, c1, c2, c3, c4, c5, c6, c7⟩ := construct_spec mk hk0 ha.vals ha.apart
  obtain ⟨w1, hke⟩ := wf_construct hw ha c3 c6 c7
  obtain ⟨l1, i1, i2⟩ := link_spec (mk := mk) full hw ha hk0 c2 c3 c4 c5 c6 c7
  refine ⟨m1, m.next :: els, m.next, ?_, i2, i1⟩
  rcases find_spec eq c4 els w1.key with ⟨h1, -⟩ | ⟨e, he, h1, -⟩ <;>
    simp only [emplaceEquiv, c1, readKey_some c4, h1, l1]

example : ∃ m' els' a, emplaceEquiv eqN true mem0 [0, 1, 2] ⟨4, true⟩ [⟨4, true⟩] sum = some (m', els', a, true) ∧ Wf m' els' ∧
    Inserted mem0 [0, 1, 2] ⟨4, true⟩ [⟨4, true⟩] sum m' els' a :=
  C61_fca_multi eqN true mem0 _ _ _ sum wf0 args1

end Props.Args

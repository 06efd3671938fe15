/-
Throwing executions of the closed-addressing containers: rules of the `Sat` calculus, searches, and `rehash_impl`.
-/
import Verif.Fca.Exceptions
import Verif.Fca.Unlink
import Verif.Fca.Ops2

namespace Fca
variable {K V : Type}

/-- The outcome is not UB, returns satisfy `D`, exceptions satisfy `T`. -/
def Out.Sat {α σ : Type} (o : Out α σ) (D : Env → α → Prop) (T : Env → σ → Prop) : Prop :=
  match o with
  | .done e a => D e a
  | .threw e s => T e s
  | .bad => False

theorem Out.Sat.bind {α β σ : Type} {o : Out α σ} {f : Env → α → Out β σ} {D : Env → β → Prop} {T : Env → σ → Prop}
    (h : o.Sat (fun e a => (f e a).Sat D T) T) : (o.bind f).Sat D T := by
  cases o with
  | done e a => exact h
  | threw e s => exact h
  | bad => exact h.elim

theorem Out.Sat.onThrow {α σ τ : Type} {o : Out α σ} {g : Env → σ → Option (Env × τ)} {D : Env → α → Prop} {T : Env → τ → Prop}
    (h : o.Sat D (fun e s => ∃ e' s', g e s = some (e', s') ∧ T e' s')) : (o.onThrow g).Sat D T := by
  cases o with
  | done e a => exact h
  | threw e s =>
    obtain ⟨e', s', h1, h2⟩ := h
    simp only [Out.onThrow, h1]; exact h2
  | bad => exact h.elim

theorem Out.Sat.mono {α σ : Type} {o : Out α σ} {D D' : Env → α → Prop} {T T' : Env → σ → Prop} (h : o.Sat D T)
    (hd : ∀ e a, D e a → D' e a) (ht : ∀ e s, T e s → T' e s) : o.Sat D' T' := by
  cases o with
  | done e a => exact hd e a h
  | threw e s => exact ht e s h
  | bad => exact h.elim

theorem ofOpt_sat {α σ : Type} {o : Option α} {a : α} {e : Env} {D : Env → α → Prop} {T : Env → σ → Prop} (h : o = some a)
    (hd : D e a) : (ofOpt o e : Out α σ).Sat D T := by subst h; exact hd

/-- the ledgers have moved by `dn` nodes and `db` blocks -/
structure Led (e e' : Env) (dn db : Int) : Prop where
  nodes : e'.nodes = e.nodes + dn
  blocks : e'.blocks = e.blocks + db

theorem Led.refl (e : Env) : Led e e 0 0 := ⟨by omega, by omega⟩
theorem Led.trans {e e' e'' : Env} {a b c d x y : Int} (h : Led e e' a b) (h' : Led e' e'' c d) (hx : x = a + c) (hy : y = b + d) :
    Led e e'' x y :=
  ⟨by rw [h'.nodes, h.nodes]; omega, by rw [h'.blocks, h.blocks]; omega⟩
theorem led_nodes (e : Env) (n : Int) : Led e (e.addNodes n) n 0 := ⟨rfl, by simp [Env.addNodes]⟩
theorem led_blocks (e : Env) (n : Int) : Led e (e.addBlocks n) 0 n := ⟨by simp [Env.addBlocks], rfl⟩
theorem Led.congr {e e' : Env} {a b x y : Int} (h : Led e e' a b) (hx : x = a) (hy : y = b) : Led e e' x y := by
  subst hx; subst hy; exact h

theorem ask_sat {σ : Type} (may : Call → Bool) (k : Call) (s : σ) (e : Env) {D : Env → Unit → Prop} {T : Env → σ → Prop}
    (hd : ∀ e', Led e e' 0 0 → D e' ()) (ht : may k = true → ∀ e', Led e e' 0 0 → T e' s) : (ask may k s e).Sat D T := by
  unfold ask
  split
  · rename_i hm
    cases e.left with
    | zero => exact ht hm e (Led.refl e)
    | succ n => exact hd _ ⟨by simp, by simp⟩
  · exact hd e (Led.refl e)

theorem newNode_sat {σ : Type} (may : Call → Bool) (s : σ) (e : Env) {D : Env → Unit → Prop} {T : Env → σ → Prop}
    (hd : ∀ e', Led e e' 1 0 → D e' ()) (ht : ∀ e', Led e e' 0 0 → T e' s) : (newNode may s e).Sat D T := by
  unfold newNode
  apply Out.Sat.bind
  apply ask_sat
  · intro e1 h1
    apply Out.Sat.bind
    apply ask_sat
    · intro e2 h2
      exact hd _ ((h1.trans h2 rfl rfl).trans (led_nodes e2 1) (by omega) (by omega))
    · intro _ e2 h2
      exact ht _ (h1.trans h2 (by omega) (by omega))
  · intro _ e1 h1; exact ht _ h1

theorem findRunX_sat {σ : Type} (may : Call → Bool) (s : σ) (p : K × V → Bool) : ∀ (l : List (K × V)) (e : Env)
    {D : Env → Option Nat → Prop} {T : Env → σ → Prop}, (∀ e', Led e e' 0 0 → D e' (l.findIdx? p)) →
    (∀ e', Led e e' 0 0 → T e' s) → (findRunX may s p l e).Sat D T := by
  intro l
  induction l with
  | nil => intro e D T hd ht; exact hd e (Led.refl e)
  | cons x xs ih =>
    intro e D T hd ht
    unfold findRunX
    apply Out.Sat.bind
    apply ask_sat
    · intro e1 h1
      by_cases hp : p x = true
      · rw [if_pos hp]
        have := hd e1 h1
        rw [List.findIdx?_cons, if_pos hp] at this
        exact this
      · rw [if_neg hp]
        apply Out.Sat.bind
        apply ih
        · intro e2 h2
          have := hd e2 (h1.trans h2 (by omega) (by omega))
          rw [List.findIdx?_cons, if_neg hp] at this
          exact this
        · intro e2 h2; exact ht e2 (h1.trans h2 (by omega) (by omega))
    · intro _ e1 h1; exact ht e1 h1

theorem findImplX_sat {σ : Type} (may : Call → Bool) {t : Table K V} {k : K} {itb : BIt} {r : Option Nat}
    (hr : t.findImpl k itb = some r) (s : σ) (e : Env) {D : Env → Option Nat → Prop} {T : Env → σ → Prop}
    (hd : ∀ e', Led e e' 0 0 → D e' r) (ht : ∀ e', Led e e' 0 0 → T e' s) : (t.findImplX may k itb s e).Sat D T := by
  unfold Table.findImpl at hr
  unfold Table.findImplX
  split at hr
  · rename_i h; rw [if_pos h]; cases hr; exact hd e (Led.refl e)
  · rename_i h; rw [if_neg h]
    cases hg : t.b.get itb with
    | none => rw [hg] at hr; cases hr
    | some l =>
      rw [hg] at hr
      simp only [Option.some.injEq] at hr
      exact findRunX_sat may s _ l e (by rw [hr]; exact hd) ht

theorem hashFind_sat {σ : Type} (may : Call → Bool) {t : Table K V} {k : K} {itb : BIt} {r : Option Nat}
    (hr : t.findImpl k itb = some r) (s : σ) (e : Env) {D : Env → Option Nat → Prop} {T : Env → σ → Prop}
    (hd : ∀ e', Led e e' 0 0 → D e' r) (ht : ∀ e', Led e e' 0 0 → T e' s) :
    ((ask may .hash s e).bind fun e _ => t.findImplX may k itb s e).Sat D T := by
  apply Out.Sat.bind
  apply ask_sat
  · intro e1 h1
    exact findImplX_sat may hr s e1 (fun e2 h2 => hd e2 (h1.trans h2 (by omega) (by omega)))
      (fun e2 h2 => ht e2 (h1.trans h2 (by omega) (by omega)))
  · intro _ e1 h1; exact ht e1 h1

theorem findX_sat {σ : Type} (may : Call → Bool) {t : Table K V} {k : K} {r : It} (hr : t.find k = some r) (s : σ) (e : Env)
    {D : Env → It → Prop} {T : Env → σ → Prop}
    (hd : ∀ e', Led e e' 0 0 → D e' r) (ht : ∀ e', Led e e' 0 0 → T e' s) : (t.findX may k s e).Sat D T := by
  unfold Table.find at hr
  unfold Table.findX
  split at hr
  · rename_i h; rw [if_pos h]
    apply Out.Sat.bind
    apply ask_sat
    · intro e1 h1
      cases hg : t.b.get (t.bucketFor (t.fns.hash k)) with
      | none => simp only [hg] at hr; cases hr
      | some l =>
        simp only [hg] at hr
        apply Out.Sat.bind
        apply findRunX_sat
        · intro e2 h2
          have := hd e2 (h1.trans h2 (by omega) (by omega))
          cases hf : l.findIdx? (fun e => t.fns.eq k e.1) with
          | none => rw [hf] at hr; cases hr; exact this
          | some i => rw [hf] at hr; cases hr; exact this
        · intro e2 h2; exact ht e2 (h1.trans h2 (by omega) (by omega))
    · intro _ e1 h1; exact ht e1 h1
  · rename_i h; rw [if_neg h]; cases hr; exact hd e (Led.refl e)

theorem findNodeX_sat {σ : Type} (may : Call → Bool) {t : Table K V} {k : K} {r : It} (hr : t.findNode k = some r) (s : σ) (e : Env)
    {D : Env → It → Prop} {T : Env → σ → Prop}
    (hd : ∀ e', Led e e' 0 0 → D e' r) (ht : ∀ e', Led e e' 0 0 → T e' s) : (t.findNodeX may k s e).Sat D T := by
  unfold Table.findNode at hr
  unfold Table.findNodeX
  apply Out.Sat.bind
  apply ask_sat
  · intro e1 h1
    cases hf : t.findImpl k (t.bucketFor (t.fns.hash k)) with
    | none => simp only [hf] at hr; cases hr
    | some q =>
      simp only [hf] at hr
      apply Out.Sat.bind
      apply findImplX_sat may hf
      · intro e2 h2
        have := hd e2 (h1.trans h2 (by omega) (by omega))
        cases q with
        | none => cases hr; exact this
        | some i => cases hr; exact this
      · intro e2 h2; exact ht e2 (h1.trans h2 (by omega) (by omega))
  · intro _ e1 h1; exact ht e1 h1

/-! ### rehash -/

theorem newX_sat {α σ : Type} (may : Call → Bool) (n al : Nat) (s : σ) (e : Env) {D : Env → Gba α → Prop} {T : Env → σ → Prop}
    (hd : ∀ e', Led e e' 0 (if (Gba.new n al : Gba α).size = 0 then 0 else 2) → D e' (Gba.new n al))
    (ht : may .alloc = true → n ≠ 0 → ∀ e', Led e e' 0 0 → T e' s) : (Gba.newX may n al s e : Out (Gba α) σ).Sat D T := by
  unfold Gba.newX
  by_cases h0 : n = 0
  · rw [if_pos h0]
    subst h0
    exact hd e (Led.refl e)
  · rw [if_neg h0]
    have hsz : (Gba.new n al : Gba α).size ≠ 0 := by rw [Gba.new_size]; exact le_bucketCountFor_pos (by omega)
    apply Out.Sat.bind
    apply ask_sat
    · intro e1 h1
      apply Out.Sat.bind
      apply Out.Sat.onThrow
      apply ask_sat
      · intro e2 h2
        refine hd _ ?_
        rw [if_neg hsz]
        exact ((h1.trans (led_blocks e1 1) rfl rfl).trans h2 rfl rfl).trans (led_blocks e2 1) (by omega) (by omega)
      · intro hm e2 h2
        refine ⟨_, _, rfl, ht hm h0 _ ?_⟩
        exact ((h1.trans (led_blocks e1 1) rfl rfl).trans h2 rfl rfl).trans (led_blocks e2 (-1)) (by omega) (by omega)
    · intro hm e1 h1; exact ht hm h0 e1 h1

theorem deallocX_eq {α : Type} {a : Gba α} {al : Nat} (h : a.dealloc al = some ()) (e : Env) :
    ∃ e', a.deallocX al e = some e' ∧ Led e e' 0 (-(if a.size = 0 then 0 else 2)) := by
  unfold Gba.deallocX
  rw [h]
  by_cases h0 : a.size = 0
  · exact ⟨e, by simp [h0], by rw [if_pos h0]; exact (Led.refl e).congr rfl (by omega)⟩
  · exact ⟨e.addBlocks (-2), by simp [h0], by rw [if_neg h0]; exact led_blocks e _⟩

/-- Relation between the original array `a`, the processed prefix of its contents and the two arrays of the transfer. -/
structure Mid (f : Fns K) (a n0 : Gba (K × V)) (pre : List (K × V)) (s : Gba (K × V) × Gba (K × V)) : Prop where
  old : ∃ c, s.1 = { a with chain := c } ∧ ∀ b, (c b).Sublist (a.chain b)
  new : Table.fillFront f pre n0 = some s.2

theorem fillFront_append (f : Fns K) : ∀ (xs ys : List (K × V)) (a b : Gba (K × V)), Table.fillFront f xs a = some b →
    Table.fillFront f (xs ++ ys) a = Table.fillFront f ys b := by
  intro xs
  induction xs with
  | nil => intro ys a b h; cases h; rfl
  | cons x xs ih =>
    intro ys a b h
    simp only [List.cons_append, Table.fillFront] at h ⊢
    cases hi : a.insertNode (a.at_ (a.position (f.hash x.1))) x with
    | none => rw [hi] at h; cases h
    | some a' =>
      rw [hi] at h
      exact ih ys a' b h

/-- one bucket: on return the bucket is empty; an exception leaves a suffix -/
theorem transferBucketX_sat (may : Call → Bool) (f : Fns K) (a n0 : Gba (K × V)) {L0 : List Nat} (hn0 : n0.Ginv L0) (b : Nat) :
    ∀ (xs pre : List (K × V)) (s : Gba (K × V) × Gba (K × V)) (e : Env),
    Mid f a n0 pre s → s.1.chain b = xs → xs.Sublist (a.chain b) →
    (Table.transferBucketX may f b xs s e).Sat
      (fun e' s' => Led e e' 0 0 ∧ Mid f a n0 (pre ++ xs) s' ∧ s'.1.chain = up s.1.chain b [])
      (fun e' s' => may .hash = true ∧ Led e e' 0 0 ∧ ∃ ys zs, xs = ys ++ zs ∧ zs ≠ [] ∧ Mid f a n0 (pre ++ ys) s' ∧
        s'.1.chain = up s.1.chain b zs) := by
  intro xs
  induction xs with
  | nil =>
    intro pre s e hm hc _
    refine ⟨Led.refl e, by rw [List.append_nil]; exact hm, ?_⟩
    funext x; rw [up_apply]; split
    · rename_i h; rw [h, hc]
    · rfl
  | cons x xs ih =>
    intro pre s e hm hc hs
    unfold Table.transferBucketX
    apply Out.Sat.bind
    apply ask_sat
    · intro e1 h1
      -- the insertion succeeds
      obtain ⟨n2, L2, k1, k2, k3, k4, k5, _, _⟩ := fillFront_spec f pre n0 L0 hn0
      have e2 : s.2 = n2 := by have := hm.new; rw [k1] at this; cases this; rfl
      have hpos : s.2.position (f.hash x.1) < s.2.size := by rw [e2]; exact Gba.position_lt k2 _
      have hat : s.2.at_ (s.2.position (f.hash x.1)) = ⟨s.2.position (f.hash x.1), some (s.2.position (f.hash x.1) / 64)⟩ :=
        Gba.at_eq (by rw [e2]; exact k2.pos) _
      have hg2 : s.2.Ginv L2 := by rw [e2]; exact k2
      obtain ⟨n3, L3, j1, _⟩ := Gba.insertNode_spec hg2 hpos x
      rw [← hat] at j1
      rw [j1]
      simp only []
      obtain ⟨c, hc1, hc2⟩ := hm.old
      have hchain : s.1.chain = c := by rw [hc1]
      have hxs : xs.Sublist (a.chain b) := (List.sublist_cons_self x xs).trans hs
      have hm' : Mid f a n0 (pre ++ [x]) ({ s.1 with chain := up s.1.chain b xs }, n3) := by
        refine ⟨⟨up c b xs, by rw [hc1], ?_⟩, ?_⟩
        · intro y; rw [up_apply]; split
          · rename_i h; rw [h]; exact hxs
          · exact hc2 y
        · rw [fillFront_append f pre [x] n0 s.2 hm.new]
          simp only [Table.fillFront, j1]
      refine (ih (pre ++ [x]) ({ s.1 with chain := up s.1.chain b xs }, n3) e1 hm' (by simp) hxs).mono ?_ ?_
      · rintro e' s' ⟨q1, q2, q3⟩
        refine ⟨h1.trans q1 (by omega) (by omega), by rw [List.append_assoc] at q2; exact q2, ?_⟩
        rw [q3]; exact Gba.up_up _ _ _ _
      · rintro e' s' ⟨q0, q1, ys, zs, q2, q3, q4, q5⟩
        refine ⟨q0, h1.trans q1 (by omega) (by omega), x :: ys, zs, by rw [q2]; rfl, q3, ?_, ?_⟩
        · rw [List.append_assoc] at q4; exact q4
        · rw [q5]; exact Gba.up_up _ _ _ _
    · intro hmay e1 h1
      refine ⟨hmay, h1, [], x :: xs, rfl, by simp, by rw [List.append_nil]; exact hm, ?_⟩
      funext y; rw [up_apply]; split
      · rename_i h; rw [h, hc]
      · rfl

theorem transferX_sat (may : Call → Bool) (f : Fns K) (a n0 : Gba (K × V)) {L0 : List Nat} (hn0 : n0.Ginv L0) :
    ∀ (bs : List Nat), bs.Nodup → ∀ (pre : List (K × V)) (s : Gba (K × V) × Gba (K × V)) (e : Env), Mid f a n0 pre s →
    (∀ b ∈ bs, s.1.chain b = a.chain b) →
    (Table.transferX may f bs s e).Sat
      (fun e' s' => Led e e' 0 0 ∧ Mid f a n0 (pre ++ bs.flatMap a.chain) s' ∧
        ∀ b, s'.1.chain b = if b ∈ bs then [] else s.1.chain b)
      (fun e' s' => may .hash = true ∧ Led e e' 0 0 ∧ ∃ ys, Mid f a n0 (pre ++ ys) s' ∧ ys ++ bs.flatMap s'.1.chain = bs.flatMap a.chain ∧
        ∀ b, b ∉ bs → s'.1.chain b = s.1.chain b) := by
  intro bs
  induction bs with
  | nil =>
    intro _ pre s e hm _
    exact ⟨Led.refl e, by simpa using hm, by simp⟩
  | cons b bs ih =>
    intro hnd pre s e hm hc
    rw [List.nodup_cons] at hnd
    unfold Table.transferX
    apply Out.Sat.bind
    have hcb := hc b (by simp)
    refine (transferBucketX_sat may f a n0 hn0 b (s.1.chain b) pre s e hm rfl (by rw [hcb])).mono ?_ ?_
    · rintro e1 s1 ⟨h1, h2, h3⟩
      have hne : ∀ x ∈ bs, x ≠ b := fun x hx hxb => hnd.1 (hxb ▸ hx)
      refine (ih hnd.2 (pre ++ s.1.chain b) s1 e1 h2 ?_).mono ?_ ?_
      · intro x hx
        rw [h3, up_ne _ _ (hne x hx)]; exact hc x (by simp [hx])
      · rintro e' s' ⟨q1, q2, q3⟩
        refine ⟨h1.trans q1 (by omega) (by omega), ?_, ?_⟩
        · rw [List.flatMap_cons, ← List.append_assoc, ← hcb]; exact q2
        · intro x
          rw [q3 x, h3, up_apply]
          by_cases e1 : x ∈ bs
          · rw [if_pos e1, if_pos (by simp [e1])]
          · rw [if_neg e1]
            by_cases e2 : x = b
            · rw [if_pos e2, if_pos (by simp [e2])]
            · rw [if_neg e2, if_neg (by simp [e1, e2])]
      · rintro e' s' ⟨q0, q1, ys, q2, q3, q4⟩
        refine ⟨q0, h1.trans q1 (by omega) (by omega), s.1.chain b ++ ys, by rw [← List.append_assoc]; exact q2, ?_, ?_⟩
        · rw [List.flatMap_cons, List.flatMap_cons, q4 b hnd.1, h3, up_same, List.nil_append, List.append_assoc, q3, hcb]
        · intro x hx
          rw [List.mem_cons, not_or] at hx
          rw [q4 x hx.2, h3, up_ne _ _ hx.1]
    · rintro e1 s1 ⟨h0, h1, ys, zs, h2, _, h3, h4⟩
      refine ⟨h0, h1, ys, h3, ?_, ?_⟩
      · rw [List.flatMap_cons, List.flatMap_cons, h4, up_same, ← List.append_assoc, ← h2, hcb]
        congr 1
        apply flatMap_congr_mem
        intro x hx
        have hxb : x ≠ b := fun hxb => hnd.1 (hxb ▸ hx)
        rw [up_ne _ _ hxb]; exact hc x (by simp [hx])
      · intro x hx
        rw [List.mem_cons, not_or] at hx
        rw [h4, up_ne _ _ hx.1]
where
  flatMap_congr_mem {β γ : Type} {l : List β} {f g : β → List γ} (h : ∀ x ∈ l, f x = g x) : l.flatMap f = l.flatMap g := by
    induction l with
    | nil => rfl
    | cons x xs ih => rw [List.flatMap_cons, List.flatMap_cons, h x (by simp), ih (fun y hy => h y (by simp [hy]))]

end Fca

namespace Fca
variable {K V : Type}

theorem transferX_nil (may : Call → Bool) (f : Fns K) : ∀ (bs : List Nat) (s : Gba (K × V) × Gba (K × V)) (e : Env),
    (∀ b ∈ bs, s.1.chain b = []) → Table.transferX may f bs s e = .done e s := by
  intro bs
  induction bs with
  | nil => intro s e _; rfl
  | cons b bs ih =>
    intro s e h
    unfold Table.transferX
    rw [h b (by simp)]
    exact ih s e (fun x hx => h x (by simp [hx]))

/-- the catch block deletes everything that hangs from the new array -/
theorem catchLoop_spec {nb : Gba (K × V)} {L : List Nat} (hg : nb.Ginv L) : ∀ (ys xs : List Nat) (b f size : Nat) (e : Env),
    nb.order L = xs ++ b :: ys → ys.length < f → ((b :: ys).flatMap nb.chain).length ≤ size →
    ∃ e', Table.catchLoop nb.mal nb f size ⟨b, some (b / 64)⟩ e = some (size - ((b :: ys).flatMap nb.chain).length, e') ∧
      Led e e' (-(((b :: ys).flatMap nb.chain).length : Int)) 0 := by
  intro ys
  induction ys with
  | nil =>
    intro xs b f size e ho hf hs
    obtain ⟨zs, hz⟩ := Gba.order_last hg
    have hb : b = nb.size := by
      rw [ho] at hz
      have := congrArg List.getLast? hz
      simpa using this
    cases f with
    | zero => simp at hf
    | succ f =>
      unfold Table.catchLoop
      rw [if_pos hb]
      have : ([b].flatMap nb.chain) = [] := by simp [hb, Gba.chain_size hg]
      rw [this]
      exact ⟨e, rfl, (Led.refl e).congr (by simp) rfl⟩
  | cons c ys ih =>
    intro xs b f size e ho hf hs
    cases f with
    | zero => simp at hf
    | succ f =>
      have hb : b ≠ nb.size := by
        intro hb
        obtain ⟨zs, hz⟩ := Gba.order_last hg
        have hnd := Gba.order_nodup hg
        rw [ho] at hz hnd
        have hlast : (c :: ys).getLast? = some nb.size := by
          have := congrArg List.getLast? hz
          rw [List.getLast?_append_of_ne_nil _ (by simp), List.getLast?_cons_cons] at this
          rw [this]; simp
        have hm : nb.size ∈ c :: ys := List.mem_of_getLast? hlast
        rw [List.nodup_append] at hnd
        rw [← hb] at hm
        exact (List.nodup_cons.1 hnd.2.1).1 hm
      have hle : b ≤ nb.size := Gba.order_le hg (b := b) (by rw [ho]; simp)
      unfold Table.catchLoop
      rw [if_neg hb, Gba.get_of_le hg (it := ⟨b, some (b / 64)⟩) hle, Gba.inc_order hg ho]
      rw [List.flatMap_cons, List.length_append] at hs
      dsimp only
      rw [if_neg (by simp; omega)]
      obtain ⟨e', h1, h2⟩ := ih (xs ++ [b]) c f (size - (nb.chain b).length) (e.addNodes (-(nb.chain b).length))
        (by rw [ho]; simp) (by simpa using hf) (by omega)
      refine ⟨e', ?_, ?_⟩
      · rw [h1]
        rw [List.flatMap_cons (x := b), List.length_append]
        congr 2
        omega
      · refine (led_nodes e _).trans h2 ?_ (by omega)
        rw [List.flatMap_cons (x := b), List.length_append]
        push_cast
        omega

/-- what an exception leaves behind when it may come out of `rehash_impl`: some elements are gone, everything else is as
before; the ledgers agree; if hashing cannot throw nothing changes at all -/
def Lost (may : Call → Bool) (e : Env) (t : Table K V) (e' : Env) (t' : Table K V) : Prop :=
  ∃ lost, Removed t lost t' ∧ Led e e' (-(lost.length : Int)) 0 ∧ (may .hash = false → t' = t)

theorem Lost.refl {may : Call → Bool} {e e' : Env} {t : Table K V} (h : SInv t) (hl : Led e e' 0 0) : Lost may e t e' t :=
  ⟨[], Removed.nil h, hl.congr (by simp) rfl, fun _ => rfl⟩

theorem rehashCatch_spec {t : Table K V} (h : SInv t) {n : Nat} (hn : n ≠ 0) {L : List Nat} (hg : t.b.Ginv L)
    {s : Gba (K × V) × Gba (K × V)} {ys : List (K × V)} (hm : Mid t.fns t.b (Gba.new n t.al) ys s)
    (hc : ys ++ (List.range t.b.size).flatMap s.1.chain = t.b.contents) (e : Env) :
    ∃ e' t', t.rehashCatch e s = some (e', t') ∧ Removed t ys t' ∧
      Led e e' (-(ys.length : Int)) (-(if (Gba.new n t.al : Gba (K × V)).size = 0 then 0 else 2)) := by
  obtain ⟨a', L', e1, e2, e3, e4, e5, e6, e7⟩ := fillFront_spec t.fns ys _ [] (Gba.new_ginv (α := K × V) (al := t.al) hn)
  have hs2 : s.2 = a' := by have := hm.new; rw [e1] at this; cases this; rfl
  rw [← hs2] at e2 e3 e4 e5 e6 e7
  rw [Gba.new_contents, List.append_nil] at e7
  obtain ⟨c, hc1, hc2⟩ := hm.old
  obtain ⟨b, os, ho⟩ : ∃ b os, s.2.order L' = b :: os := by
    obtain ⟨xs, hx⟩ := Gba.order_last e2
    cases xs with
    | nil => exact ⟨_, _, hx⟩
    | cons y ys => exact ⟨y, ys ++ [s.2.size], by rw [hx]; rfl⟩
  have hel : ((b :: os).flatMap s.2.chain).length = ys.length := by
    rw [← e7.length_eq, ← (Gba.elems_perm e2).length_eq]; unfold Gba.elems; rw [ho]
  have htl : t.size = ys.length + ((List.range t.b.size).flatMap s.1.chain).length := by
    rw [h.len]; unfold Table.contents; rw [← hc, List.length_append]
  have hmal : s.2.mal = t.al := e5.trans (Gba.new_mal _ _)
  have hol := order_length e2
  rw [ho] at hol
  obtain ⟨e1', k1, k2⟩ := catchLoop_spec e2 os [] b (s.2.size + 1) t.size e ho (by simp at hol; omega) (by rw [hel]; omega)
  rw [hmal] at k1
  obtain ⟨ob, Lo, u1, u2, u3, u4, u5, u6⟩ := Gba.unlinkEmpty_spec hg (c := c) (by
    intro x hx; have := hc2 x; rw [hx] at this; exact List.sublist_nil.1 this)
  have hdal : s.2.dealloc t.al = some () := by
    have := SInv.dealloc (t := ({ t with b := s.2, size := s.2.contents.length, maxLoad := 0 } : Table K V))
      ⟨Or.inr ⟨L', e2⟩, fun _ => hmal, rfl, fun _ => rfl⟩
    exact this
  obtain ⟨e2', d1, d2⟩ := deallocX_eq hdal e1'
  refine ⟨e2', { t with b := ob, size := t.size - ((b :: os).flatMap s.2.chain).length }, ?_, ?_, ?_⟩
  · unfold Table.rehashCatch
    rw [Gba.begin_order e2 ho]
    dsimp only
    rw [k1]
    dsimp only
    rw [hc1, u1, d1]
  · have hcont : ob.contents = (List.range t.b.size).flatMap s.1.chain := by
      unfold Gba.contents; rw [u3, u6, hc1]
    have hmalo : ob.mal = t.al := by rw [u5]; exact h.mal (Nat.pos_iff_ne_zero.1 hg.pos)
    refine ⟨⟨Or.inr ⟨Lo, u2⟩, fun _ => hmalo, ?_, ?_⟩, rfl, rfl, rfl, ?_, u3, rfl, ?_, ?_⟩
    · show t.size - _ = ob.contents.length
      rw [hcont, hel]; omega
    · intro h0
      exfalso; rw [show ob.size = t.b.size from u3] at h0; have := hg.pos; omega
    · show t.size = t.size - _ + _
      rw [hel]; omega
    · show t.b.contents.Perm (ys ++ ob.contents)
      rw [hcont, hc]
    · intro u f hl hsh
      refine shape_sublist hl hsh u4 ?_
      intro x
      show (ob.chain x).Sublist _
      rw [u6]; exact hc2 x
  · refine k2.trans d2 ?_ ?_
    · rw [hel]; omega
    · rw [e3]; omega

theorem rehashImplX_sat (may : Call → Bool) {t : Table K V} (h : SInv t) {n : Nat} (hn : n ≠ 0 ∨ t.size = 0) (e : Env) :
    (t.rehashImplX may n e).Sat (fun e' t' => t.rehashImpl n = some t' ∧ Led e e' 0 (t'.blocks - t.blocks)) (Lost may e t) := by
  unfold Table.rehashImplX
  apply Out.Sat.bind
  apply newX_sat
  · intro e1 h1
    by_cases hsz : t.size = 0
    · -- nothing to transfer
      have hc := h.contents_nil hsz
      have hcn := Gba.WF.chain_nil h.wf hc
      rw [transferX_nil may t.fns _ (t.b, Gba.new n t.al) e1 (fun b _ => hcn b)]
      apply Out.Sat.bind
      show Out.Sat (match t.b.deallocX t.al e1 with
        | none => .bad
        | some e => .done e _) _ _
      obtain ⟨e2, d1, d2⟩ := deallocX_eq h.dealloc e1
      rw [d1]
      refine ⟨?_, h1.trans d2 rfl ?_⟩
      · unfold Table.rehashImpl
        unfold Table.contents at hc
        rw [hc, fillFront_nil]
        dsimp only
        rw [h.dealloc]
      · unfold Table.blocks; dsimp only; omega
    · have hn' : n ≠ 0 := hn.resolve_right hsz
      obtain ⟨L, hg⟩ := h.ginv hsz
      apply Out.Sat.bind
      apply Out.Sat.onThrow
      refine (transferX_sat may t.fns t.b (Gba.new n t.al) (Gba.new_ginv hn') (List.range t.b.size) List.nodup_range []
        (t.b, Gba.new n t.al) e1 ⟨⟨t.b.chain, rfl, fun _ => List.Sublist.refl _⟩, rfl⟩ (fun _ _ => rfl)).mono ?_ ?_
      · rintro e2 s ⟨l2, m2, _⟩
        obtain ⟨e3, d1, d2⟩ := deallocX_eq h.dealloc e2
        rw [d1]
        have hm := m2.new
        rw [List.nil_append] at hm
        refine ⟨?_, (h1.trans l2 rfl rfl).trans d2 (by omega) ?_⟩
        · unfold Table.rehashImpl
          unfold Gba.contents
          rw [hm]
          dsimp only
          rw [h.dealloc]
        · obtain ⟨a', L', q1, q2, q3, _⟩ := fillFront_spec t.fns ((List.range t.b.size).flatMap t.b.chain) _ []
            (Gba.new_ginv (α := K × V) (al := t.al) hn')
          have : s.2 = a' := by rw [q1] at hm; cases hm; rfl
          unfold Table.blocks; dsimp only; rw [this, q3]; omega
      · rintro e2 s ⟨hmay, l2, ys, m2, hc, _⟩
        rw [List.nil_append] at m2
        obtain ⟨e3, t', r1, r2, r3⟩ := rehashCatch_spec h hn' hg m2 hc e2
        refine ⟨e3, t', r1, ys, r2, (h1.trans l2 rfl rfl).trans r3 (by omega) (by omega), ?_⟩
        intro hf; rw [hmay] at hf; cases hf
  · intro _ _ e1 h1
    exact Lost.refl h h1

/-- the ledgers moved by what the container gained -/
def Bal (e : Env) (t : Table K V) (e' : Env) (t' : Table K V) : Prop :=
  Led e e' ((t'.size : Int) - t.size) (t'.blocks - t.blocks)

theorem Removed.blocks {t t' : Table K V} {xs : List (K × V)} (h : Removed t xs t') : t'.blocks = t.blocks := by
  unfold Table.blocks; rw [h.bsize]

theorem Lost.bal {may : Call → Bool} {e e' : Env} {t t' : Table K V} (h : Lost may e t e' t') : Bal e t e' t' := by
  obtain ⟨l, h1, h2, _⟩ := h
  refine h2.congr ?_ ?_
  · have := h1.size; omega
  · rw [h1.blocks]; omega

theorem Bal.refl {e e' : Env} {t : Table K V} (h : Led e e' 0 0) : Bal e t e' t := h.congr (by omega) (by omega)

theorem Bal.trans {e e1 e2 : Env} {t t1 t2 : Table K V} (h1 : Bal e t e1 t1) (h2 : Bal e1 t1 e2 t2) : Bal e t e2 t2 :=
  Led.trans h1 h2 (by omega) (by omega)

theorem Bal.step {e e1 e2 : Env} {t t2 : Table K V} (h1 : Led e e1 0 0) (h2 : Bal e1 t e2 t2) : Bal e t e2 t2 :=
  Led.trans h1 h2 (by omega) (by omega)

theorem Lost.step {may : Call → Bool} {e e1 e2 : Env} {t t2 : Table K V} (h1 : Led e e1 0 0) (h2 : Lost may e1 t e2 t2) :
    Lost may e t e2 t2 := by
  obtain ⟨l, q1, q2, q3⟩ := h2
  exact ⟨l, q1, h1.trans q2 (by omega) (by omega), q3⟩

/-- a function that returns what `r` returns, or throws out of a rehash -/
def RSat (may : Call → Bool) (o : Out (Table K V) (Table K V)) (r : Option (Table K V)) (e : Env) (t : Table K V) : Prop :=
  o.Sat (fun e' t' => r = some t' ∧ Led e e' 0 (t'.blocks - t.blocks)) (Lost may e t)

theorem rehashX_sat (may : Call → Bool) {t : Table K V} (h : SInv t) (n : Nat) (e : Env) :
    RSat may (t.rehashX may n e) (t.rehash n) e t := by
  unfold Table.rehashX Table.rehash
  dsimp only
  split
  · refine rehashImplX_sat may h ?_ e
    by_cases hz : t.size = 0
    · exact Or.inr hz
    · left
      have := minBuckets_pos t.mlf (Nat.pos_of_ne_zero hz)
      exact le_bucketCountFor_pos (by omega)
  · exact ⟨rfl, (Led.refl e).congr rfl (by omega)⟩

theorem reserveX_sat (may : Call → Bool) {t : Table K V} (h : SInv t) (n : Nat) (e : Env) :
    RSat may (t.reserveX may n e) (t.reserve n) e t := rehashX_sat may h _ e

theorem reserveForInsertX_sat (may : Call → Bool) {t : Table K V} (h : SInv t) (n : Nat) (e : Env) :
    RSat may (t.reserveForInsertX may n e) (t.reserveForInsert n) e t := by
  unfold Table.reserveForInsertX Table.reserveForInsert
  split
  · rename_i hlt
    refine rehashImplX_sat may h (Or.inl ?_) e
    unfold insertBuckets; omega
  · exact ⟨rfl, (Led.refl e).congr rfl (by omega)⟩

theorem growForOneX_sat (may : Call → Bool) {t : Table K V} (h : SInv t) (e : Env) :
    RSat may (t.growForOneX may e) t.growForOne e t := by
  unfold Table.growForOneX Table.growForOne
  split
  · exact reserveX_sat may h _ e
  · exact ⟨rfl, (Led.refl e).congr rfl (by omega)⟩

end Fca

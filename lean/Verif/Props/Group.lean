/-
C13 (the three metadata-group implementations agree) and C14 (reduced hashes).
-/
import Verif.Foa.GroupSim

namespace Props.Group15
open Foa Foa.Impl

/-! ## Specification

The history of a metadata group is a sequence of writes.  The specification keeps, for every slot, what it was last set
to, and the set of hash residues for which overflow was recorded. -/

/-- Writes to a group (a fresh group starts initialized). -/
inductive Write where
  | init
  | set (pos h : Nat)
  | sentinel
  | reset (pos : Nat)
  | mark (h : Nat)

/-- The asserted precondition `pos<N` of the code. -/
def Write.ok : Write → Prop
  | .set p _ => p < 15
  | .reset p => p < 15
  | _ => True

/-- What a slot holds. -/
inductive Slot where
  | free
  | endMark
  | elem (h : Nat)
deriving DecidableEq

/-- Abstract group. -/
structure Abs where
  slot : Nat → Slot
  over : Nat → Bool

def Abs.start : Abs := ⟨fun _ => .free, fun _ => false⟩

def Abs.write (A : Abs) : Write → Abs
  | .init => .start
  | .set p h => { A with slot := fun j => if j = p then .elem h else A.slot j }
  | .sentinel => { A with slot := fun j => if j = 14 then .endMark else A.slot j }
  | .reset p => { A with slot := fun j => if j = p then .free else A.slot j }
  | .mark h => { A with over := fun r => A.over r || decide (r = h % 8) }

def Abs.run (ws : List Write) : Abs := ws.foldl Abs.write .start

/-- Two hashes a group cannot tell apart: equal low bytes, except that low bytes 0 and 1 are taken for 8 and 9. -/
def SameByte (h h' : Nat) : Prop :=
  h % 256 = h' % 256 ∨ (h % 256 = 0 ∧ h' % 256 = 8) ∨ (h % 256 = 8 ∧ h' % 256 = 0) ∨
  (h % 256 = 1 ∧ h' % 256 = 9) ∨ (h % 256 = 9 ∧ h' % 256 = 1)

instance (h h' : Nat) : Decidable (SameByte h h') := by unfold SameByte; infer_instance

/-- The answer to `match(hash)`: slots whose element was stored with an indistinguishable hash, ascending. -/
def Abs.match_ (A : Abs) (h : Nat) : List Nat :=
  (List.range 15).filter fun j => match A.slot j with | .elem h' => decide (SameByte h' h) | _ => false
def Abs.available (A : Abs) : List Nat := (List.range 15).filter fun j => A.slot j == .free
def Abs.occupied (A : Abs) : List Nat := (List.range 15).filter fun j => A.slot j != .free
/-- Overflow residue associated with a slot. -/
def Abs.residue : Slot → Nat
  | .elem h => h % 8
  | .endMark => 1
  | .free => 0

/-- All queries of a group, as answered by an implementation. Masks are given by the slots the code's mask loop visits. -/
structure Answers where
  match_ : Nat → List Nat
  available : List Nat
  occupied : List Nat
  isOccupied : Nat → Bool
  isSentinel : Nat → Bool
  isNotOverflowed : Nat → Bool
  maybeCausedOverflow : Nat → Bool

/-- The specified answers. -/
structure Answers.Meets (q : Answers) (A : Abs) : Prop where
  match_ : ∀ h, q.match_ h = A.match_ h
  available : q.available = A.available
  occupied : q.occupied = A.occupied
  isOccupied : ∀ p < 15, q.isOccupied p = (A.slot p != .free)
  isSentinel : ∀ p < 15, q.isSentinel p = (A.slot p == .endMark)
  isNotOverflowed : ∀ h, q.isNotOverflowed h = !A.over (h % 8)
  maybeCausedOverflow : ∀ p < 15, q.maybeCausedOverflow p = A.over (Abs.residue (A.slot p))

/-! ## The implementations driven by a history -/

def sse2Write (g : Sse2) : Write → Sse2
  | .init => .init
  | .set p h => g.set p h
  | .sentinel => g.setSentinel
  | .reset p => g.reset p
  | .mark h => g.markOverflow h
def neonWrite (g : Neon) : Write → Neon
  | .init => .init
  | .set p h => g.set p h
  | .sentinel => g.setSentinel
  | .reset p => g.reset p
  | .mark h => g.markOverflow h
def portWrite (be : Bool) (g : Port) : Write → Port
  | .init => .init
  | .set p h => g.set p h
  | .sentinel => g.setSentinel
  | .reset p => g.reset p
  | .mark h => g.markOverflow be h

def sse2Run (ws : List Write) : Sse2 := ws.foldl sse2Write .init
def neonRun (ws : List Write) : Neon := ws.foldl neonWrite .init
def portRun (be : Bool) (ws : List Write) : Port := ws.foldl (portWrite be) .init

def sse2Answers (g : Sse2) : Answers :=
  ⟨fun h => maskSlots (g.match_ h), maskSlots g.matchAvailable, maskSlots g.matchOccupied, g.isOccupied, g.isSentinel,
   g.isNotOverflowed, g.maybeCausedOverflow⟩
def neonAnswers (a64 : Bool) (g : Neon) : Answers :=
  ⟨fun h => maskSlots (g.match_ a64 h), maskSlots (g.matchAvailable a64), maskSlots (g.matchOccupied a64), g.isOccupied,
   g.isSentinel, g.isNotOverflowed, g.maybeCausedOverflow⟩
def portAnswers (be : Bool) (g : Port) : Answers :=
  ⟨fun h => maskSlots (g.match_ h), maskSlots g.matchAvailable, maskSlots g.matchOccupied, g.isOccupied, g.isSentinel,
   g.isNotOverflowed be, g.maybeCausedOverflow be⟩

/-! ## Helper lemmas -/

/-- Byte of a slot. -/
private def enc : Slot → Nat
  | .free => 0
  | .endMark => 1
  | .elem h => rhash h

private structure ARel (G : Group) (A : Abs) : Prop where
  md : ∀ j < 15, G.md j = enc (A.slot j)
  ov : ∀ r < 8, G.ofw.testBit r = A.over r

private def gWrite (G : Group) : Write → Group
  | .init => .empty
  | .set p h => G.set p h
  | .sentinel => G.setSentinel
  | .reset p => G.reset p
  | .mark h => G.markOverflow h

private theorem sameByte_iff (h h' : Nat) : SameByte h' h ↔ rhash h' = rhash h := by
  unfold SameByte rhash
  split <;> split <;> (try split) <;> (try split) <;> omega

private theorem ginv_empty : GInv Group.empty := ⟨fun _ => by simp [Group.empty], fun _ h => by simp [Group.empty] at h, by simp [Group.empty]⟩

private theorem ginv_write {G : Group} (h : GInv G) (w : Write) : GInv (gWrite G w) := by
  cases w with
  | init => exact ginv_empty
  | set p hh =>
    refine ⟨fun j => ?_, fun j => ?_, h.ofw⟩
    · simp only [gWrite, Group.set]; split
      · exact rhash_lt hh
      · exact h.byte j
    · simp only [gWrite, Group.set]; split
      · intro e; have := rhash_ge_two hh; omega
      · exact h.sent j
  | sentinel =>
    refine ⟨fun j => ?_, fun j => ?_, h.ofw⟩
    · simp only [gWrite, Group.setSentinel]; split
      · omega
      · exact h.byte j
    · simp only [gWrite, Group.setSentinel]; split
      · intro _; assumption
      · exact h.sent j
  | reset p =>
    refine ⟨fun j => ?_, fun j => ?_, h.ofw⟩
    · simp only [gWrite, Group.reset]; split
      · omega
      · exact h.byte j
    · simp only [gWrite, Group.reset]; split
      · omega
      · exact h.sent j
  | mark hh =>
    refine ⟨h.byte, h.sent, ?_⟩
    show G.ofw ||| (1 <<< (hh % 8)) < 2 ^ 8
    apply Nat.or_lt_two_pow h.ofw
    rw [Nat.one_shiftLeft]
    exact Nat.pow_lt_pow_right (by omega) (Nat.mod_lt _ (by omega))

private theorem arel_write {G : Group} {A : Abs} (h : ARel G A) (w : Write) : ARel (gWrite G w) (A.write w) := by
  cases w with
  | init => exact ⟨fun j _ => rfl, fun r _ => by simp [gWrite, Group.empty, Abs.write, Abs.start]⟩
  | set p hh =>
    refine ⟨fun j hj => ?_, h.ov⟩
    simp only [gWrite, Group.set, Abs.write]; split
    · rfl
    · exact h.md j hj
  | sentinel =>
    refine ⟨fun j hj => ?_, h.ov⟩
    simp only [gWrite, Group.setSentinel, Abs.write, N]; split
    · rfl
    · exact h.md j hj
  | reset p =>
    refine ⟨fun j hj => ?_, h.ov⟩
    simp only [gWrite, Group.reset, Abs.write]; split
    · rfl
    · exact h.md j hj
  | mark hh =>
    refine ⟨h.md, fun r hr => ?_⟩
    show (G.ofw ||| (1 <<< (hh % 8))).testBit r = (A.over r || decide (r = hh % 8))
    rw [testBit_mark, h.ov r hr]
    congr 1
    rw [decide_eq_decide]; omega

private theorem brel_put {m : Nat → Nat} {G : Group} (h : BRel m G) (p v : Nat) (hp : p < 15) :
    BRel (fun j => if j = p then v else m j) { G with md := fun j => if j = p then v else G.md j } := by
  refine ⟨fun j hj => ?_, ?_⟩
  · dsimp only; split
    · rfl
    · exact h.1 j hj
  · show (if 15 = p then v else m 15) = G.ofw
    rw [if_neg (by omega)]; exact h.2

private theorem brel_mark {m : Nat → Nat} {G : Group} (h : BRel m G) (hG : GInv G) (hh : Nat) :
    BRel (fun j => if j = 15 then (m 15 ||| (1 <<< (hh % 8))) % 256 else m j) (G.markOverflow hh) := by
  refine ⟨fun j hj => ?_, ?_⟩
  · dsimp only; rw [if_neg (by omega)]; exact h.1 j hj
  · dsimp only; rw [if_pos rfl, h.2]
    exact Nat.mod_eq_of_lt (ginv_write hG (.mark hh)).ofw

private theorem sse2_write {g : Sse2} {G : Group} (h : BRel g.m G) (hG : GInv G) (w : Write) (hw : w.ok) :
    BRel (sse2Write g w).m (gWrite G w) := by
  cases w with
  | init => exact ⟨fun _ _ => rfl, rfl⟩
  | set p hh =>
    show BRel (fun j => if j = p then Sse2.reducedHash hh else g.m j) (G.set p hh)
    rw [sse2_reducedHash]; exact brel_put h p _ hw
  | sentinel => exact brel_put h 14 1 (by omega)
  | reset p => exact brel_put h p 0 hw
  | mark hh => exact brel_mark h hG hh

private theorem neon_write {g : Neon} {G : Group} (h : BRel g.m G) (hG : GInv G) (w : Write) (hw : w.ok) :
    BRel (neonWrite g w).m (gWrite G w) := by
  cases w with
  | init => exact ⟨fun _ _ => rfl, rfl⟩
  | set p hh =>
    show BRel (fun j => if j = p then Neon.reducedHash hh else g.m j) (G.set p hh)
    rw [neon_reducedHash]; exact brel_put h p _ hw
  | sentinel => exact brel_put h 14 1 (by omega)
  | reset p => exact brel_put h p 0 hw
  | mark hh => exact brel_mark h hG hh

private theorem prel_init (be : Bool) : PRel be Port.init Group.empty :=
  ⟨fun j _ q _ => by simp [Port.init, Group.empty], fun j _ q _ => by simp [Port.init, Group.empty],
   fun r _ => by simp [Port.init, Group.empty]⟩

private theorem port_write {be : Bool} {g : Port} {G : Group} (h : PRel be g G) (w : Write) (hw : w.ok) :
    PRel be (portWrite be g w) (gWrite G w) := by
  cases w with
  | init => exact prel_init be
  | set p hh =>
    show PRel be (g.setImpl p (Port.reducedHash hh)) (G.set p hh)
    rw [port_reducedHash]; exact setImpl_rel h p _ hw (rhash_lt hh)
  | sentinel => exact setImpl_rel h 14 1 (by omega) (by omega)
  | reset p => exact setImpl_rel h p 0 hw (by omega)
  | mark hh => exact mark_rel h hh

private structure Joint (be : Bool) (s : Sse2) (n : Neon) (p : Port) (A : Abs) : Prop where
  ex : ∃ G : Group, GInv G ∧ ARel G A ∧ BRel s.m G ∧ BRel n.m G ∧ PRel be p G

private theorem joint_run (be : Bool) (ws : List Write) (hws : ∀ w ∈ ws, w.ok) :
    Joint be (sse2Run ws) (neonRun ws) (portRun be ws) (Abs.run ws) := by
  suffices H : ∀ (ws : List Write) s n p A, (∀ w ∈ ws, w.ok) → Joint be s n p A →
      Joint be (ws.foldl sse2Write s) (ws.foldl neonWrite n) (ws.foldl (portWrite be) p) (ws.foldl Abs.write A) from
    H ws _ _ _ _ hws ⟨.empty, ginv_empty, ⟨fun _ _ => rfl, fun r _ => by simp [Group.empty, Abs.start]⟩,
      ⟨fun _ _ => rfl, rfl⟩, ⟨fun _ _ => rfl, rfl⟩, prel_init be⟩
  intro ws
  induction ws with
  | nil => intro s n p A _ h; exact h
  | cons w ws ih =>
    intro s n p A hok h
    obtain ⟨G, hG, hA, hs, hn, hp⟩ := h.ex
    have hw := hok w (List.mem_cons_self ..)
    exact ih _ _ _ _ (fun w' hw' => hok w' (List.mem_cons_of_mem _ hw'))
      ⟨gWrite G w, ginv_write hG w, arel_write hA w, sse2_write hs hG w hw, neon_write hn hG w hw, port_write hp w hw⟩

private theorem ofw_and (o r : Nat) (hr : r < 8) : ((o &&& [1,2,4,8,16,32,64,128].getD r 0) == 0) = !o.testBit r := by
  have t : ∀ r < 8, [1,2,4,8,16,32,64,128].getD r 0 = 2 ^ r := by decide
  rw [t r hr, Bool.eq_iff_iff, beq_iff_eq]
  constructor
  · intro h
    have := congrArg (fun x => x.testBit r) h
    simp only [Nat.testBit_and, Nat.testBit_two_pow_self, Nat.zero_testBit, Bool.and_true] at this
    simp [this]
  · intro h
    apply Nat.eq_of_testBit_eq
    intro i
    rw [Nat.testBit_and, Nat.testBit_two_pow]
    by_cases e : r = i
    · subst e; simpa using h
    · simp [e]

private theorem enc_zero (s : Slot) : enc s = 0 ↔ s = .free := by
  cases s with
  | free => simp [enc]
  | endMark => simp [enc]
  | elem h => have := rhash_ge_two h; simp only [enc, reduceCtorEq, iff_false]; omega

private theorem enc_one (s : Slot) : enc s = 1 ↔ s = .endMark := by
  cases s with
  | free => simp [enc]
  | endMark => simp [enc]
  | elem h => have := rhash_ge_two h; simp only [enc, reduceCtorEq, iff_false]; omega

private theorem enc_match (s : Slot) (h : Nat) :
    (enc s == rhash h) = (match s with | .elem h' => decide (SameByte h' h) | _ => false) := by
  cases s with
  | free => have := rhash_ge_two h; simp only [enc]; rw [beq_eq_false_iff_ne]; omega
  | endMark => have := rhash_ge_two h; simp only [enc]; rw [beq_eq_false_iff_ne]; omega
  | elem h' => rw [Bool.eq_iff_iff]; simp only [enc, beq_iff_eq, decide_eq_true_iff]; exact (sameByte_iff h h').symm

private theorem enc_free (s : Slot) : (enc s == 0) = (s == .free) := by
  rw [Bool.eq_iff_iff]; simp only [beq_iff_eq]; exact enc_zero s

private theorem enc_end (s : Slot) : (enc s == 1) = (s == .endMark) := by
  rw [Bool.eq_iff_iff]; simp only [beq_iff_eq]; exact enc_one s

private theorem enc_mod8 (s : Slot) : enc s % 8 = Abs.residue s := by
  cases s with
  | free => rfl
  | endMark => rfl
  | elem h => exact rhash_mod8 h

private theorem residue_lt (s : Slot) : Abs.residue s < 8 := by
  cases s <;> simp [Abs.residue]; omega

/-- A group whose queries are those of a byte vector meets the specification. -/
private theorem meets_of {q : Answers} {G : Group} {A : Abs} (hA : ARel G A)
    (h1 : ∀ h, q.match_ h = (List.range 15).filter (fun j => G.md j == rhash h))
    (h2 : q.available = (List.range 15).filter (fun j => G.md j == 0))
    (h3 : q.occupied = (List.range 15).filter (fun j => G.md j != 0))
    (h4 : ∀ p < 15, q.isOccupied p = (G.md p != 0))
    (h5 : ∀ p < 15, q.isSentinel p = (G.md p == 1))
    (h6 : ∀ h, q.isNotOverflowed h = !G.ofw.testBit (h % 8))
    (h7 : ∀ p < 15, q.maybeCausedOverflow p = G.ofw.testBit (G.md p % 8)) : q.Meets A := by
  refine ⟨fun h => ?_, ?_, ?_, fun p hp => ?_, fun p hp => ?_, fun h => ?_, fun p hp => ?_⟩
  · rw [h1]; apply List.filter_congr
    intro j hj; rw [hA.md j (List.mem_range.1 hj), enc_match]
  · rw [h2]; apply List.filter_congr
    intro j hj; rw [hA.md j (List.mem_range.1 hj), enc_free]
  · rw [h3]; apply List.filter_congr
    intro j hj; simp only [bne]; rw [hA.md j (List.mem_range.1 hj), enc_free]
  · rw [h4 p hp]; simp only [bne]; rw [hA.md p hp, enc_free]
  · rw [h5 p hp, hA.md p hp, enc_end]
  · rw [h6, hA.ov _ (Nat.mod_lt _ (by omega))]
  · rw [h7 p hp, hA.md p hp, enc_mod8, hA.ov _ (residue_lt _)]

set_option maxRecDepth 100000 in
private theorem replicate_byte : ∀ r < 256, ∀ k < 4, ((r * 0x01010101) >>> (8 * k)) % 256 = r := by decide +kernel

private theorem sse2_word_byte (h j : Nat) : (Sse2.matchWord h >>> (8 * (j % 4))) % 256 = rhash h := by
  rw [matchWord_eq]; exact replicate_byte _ (rhash_lt h) _ (Nat.mod_lt _ (by omega))

private theorem filter_brel {m : Nat → Nat} {G : Group} (h : BRel m G) (f : Nat → Bool) :
    (List.range 15).filter (fun j => f (m j)) = (List.range 15).filter (fun j => f (G.md j)) := by
  apply List.filter_congr
  intro j hj; rw [h.1 j (List.mem_range.1 hj)]

private theorem sse2_meets {g : Sse2} {G : Group} {A : Abs} (hA : ARel G A) (h : BRel g.m G) :
    (sse2Answers g).Meets A := by
  have hav : ∀ j, g.matchAvailable.testBit j = (decide (j < 15) && (g.m j == 0)) := fun j => by
    unfold Sse2.matchAvailable; rw [movemask_and_testBit]
  have hno : ∀ hh, g.isNotOverflowed hh = !G.ofw.testBit (hh % 8) := fun hh => by
    unfold Sse2.isNotOverflowed Sse2.shift
    rw [ofw_and _ _ (Nat.mod_lt _ (by omega)), h.2]
  apply meets_of hA
  · intro hh
    show maskSlots (g.match_ hh) = _
    rw [maskSlots_eq (fun j => g.m j == rhash hh), filter_brel h (fun x => x == rhash hh)]
    intro j; unfold Sse2.match_; rw [movemask_and_testBit, sse2_word_byte]
  · show maskSlots g.matchAvailable = _
    rw [maskSlots_eq (fun j => g.m j == 0) hav, filter_brel h (fun x => x == 0)]
  · show maskSlots g.matchOccupied = _
    rw [maskSlots_eq (fun j => g.m j != 0), filter_brel h (fun x => x != 0)]
    intro j
    unfold Sse2.matchOccupied
    rw [BitVec.testBit_toNat, BitVec.getLsbD_and, BitVec.getLsbD_not, BitVec.getLsbD_ofNat, hav]
    have h7 : (0x7FFF#32).getLsbD j = decide (j < 15) := by
      by_cases hj : j < 32
      · have : ∀ j < 32, (0x7FFF#32).getLsbD j = decide (j < 15) := by decide
        exact this j hj
      · rw [BitVec.getLsbD_of_ge _ _ (by omega)]; simp; omega
    rw [h7]
    by_cases hj : j < 15
    · simp [hj, show j < 32 by omega, bne]
    · simp [hj]
  · intro p hp; show (g.m p != 0) = _; rw [h.1 p hp]
  · intro p hp; show (g.m p == 1) = _; rw [h.1 p hp]
  · exact hno
  · intro p hp; show (!g.isNotOverflowed (g.m p)) = _; rw [hno, h.1 p hp, Bool.not_not]

private theorem neon_meets (a64 : Bool) {g : Neon} {G : Group} {A : Abs} (hA : ARel G A) (hG : GInv G) (h : BRel g.m G) :
    (neonAnswers a64 g).Meets A := by
  have hno : ∀ hh, g.isNotOverflowed hh = !G.ofw.testBit (hh % 8) := fun hh => by
    unfold Neon.isNotOverflowed
    rw [ofw_and _ _ (Nat.mod_lt _ (by omega)), h.2]
  apply meets_of hA
  · intro hh
    show maskSlots (g.match_ a64 hh) = _
    rw [maskSlots_eq (fun j => g.m j == rhash hh), filter_brel h (fun x => x == rhash hh)]
    intro j; unfold Neon.match_; rw [neon_and_testBit, neon_reducedHash]
  · show maskSlots (g.matchAvailable a64) = _
    unfold Neon.matchAvailable
    rw [maskSlots_eq (fun j => g.m j == 0) (fun j => neon_and_testBit a64 _ j), filter_brel h (fun x => x == 0)]
  · show maskSlots (g.matchOccupied a64) = _
    rw [maskSlots_eq (fun j => g.m j != 0), filter_brel h (fun x => x != 0)]
    intro j; unfold Neon.matchOccupied; rw [neon_and_testBit]
    congr 1
    rw [Bool.eq_iff_iff]; simp; omega
  · intro p hp; show (g.m p != 0) = _; rw [h.1 p hp]
  · intro p hp
    show (p == 14 && g.m 14 == 1) = _
    rw [h.1 14 (by omega)]
    by_cases e : p = 14
    · subst e; simp
    · have h1 : (G.md p == 1) = false := by
        rw [beq_eq_false_iff_ne]; exact fun hh => e (hG.sent p hh)
      rw [h1]; simp [e]
  · exact hno
  · intro p hp; show (!g.isNotOverflowed (g.m p)) = _; rw [hno, h.1 p hp, Bool.not_not]

private theorem port_meets {be : Bool} {g : Port} {G : Group} {A : Abs} (hA : ARel G A) (hG : GInv G) (h : PRel be g G) :
    (portAnswers be g).Meets A := by
  apply meets_of hA
  · intro hh
    show maskSlots (g.match_ hh) = _
    refine maskSlots_eq (fun j => G.md j == rhash hh) fun j => ?_
    unfold Port.match_; rw [port_reducedHash, port_matchImpl h hG _ (rhash_lt hh)]
  · exact maskSlots_eq (fun j => G.md j == 0) (port_matchAvailable h hG)
  · exact maskSlots_eq (fun j => G.md j != 0) (port_matchOccupied h hG)
  · intro p hp; exact port_isOccupied h hG p hp
  · intro p _; exact port_isSentinel h hG p
  · intro hh; exact port_isNotOverflowed h hh
  · intro p hp
    show g.maybeCausedOverflow be p = _
    rw [port_maybeCausedOverflow h p hp]; unfold Group.maybeCausedOverflow Group.isNotOverflowed; rw [Bool.not_not]

/-! ## Properties -/

/-- **C13.** After any sequence of writes, the SSE2, the NEON (both movemask variants) and the portable (either byte order)
implementation of the metadata group all give the specified answers to every query. -/
theorem C13_group_implementations_meet_spec (ws : List Write) (hws : ∀ w ∈ ws, w.ok) :
    (sse2Answers (sse2Run ws)).Meets (Abs.run ws) ∧
    (∀ a64, (neonAnswers a64 (neonRun ws)).Meets (Abs.run ws)) ∧
    (∀ be, (portAnswers be (portRun be ws)).Meets (Abs.run ws)) := by
  refine ⟨?_, fun a64 => ?_, fun be => ?_⟩
  · obtain ⟨G, hG, hA, hs, hn, hp⟩ := (joint_run false ws hws).ex
    exact sse2_meets hA hs
  · obtain ⟨G, hG, hA, hs, hn, hp⟩ := (joint_run false ws hws).ex
    exact neon_meets a64 hA hG hn
  · obtain ⟨G, hG, hA, hs, hn, hp⟩ := (joint_run be ws hws).ex
    exact port_meets hA hG hp

/-- A history with a sentinel, indistinguishable hashes (0 and 8), an erased slot and overflow marks. -/
private def sampleWrites : List Write :=
  [.set 0 0, .set 1 264, .sentinel, .set 5 77, .reset 5, .mark 8, .mark 6]

example : (∀ w ∈ sampleWrites, w.ok) ∧ (Abs.run sampleWrites).match_ 8 = [0, 1] ∧
    (Abs.run sampleWrites).occupied = [0, 1, 14] ∧ (Abs.run sampleWrites).over 6 = true := by
  refine ⟨?_, by decide, by decide, by decide⟩
  intro w hw
  simp only [sampleWrites, List.mem_cons, List.not_mem_nil, or_false] at hw
  rcases hw with rfl | rfl | rfl | rfl | rfl | rfl | rfl <;> simp [Write.ok]

/-- **C13.** The masks themselves (not only the slots they deliver) coincide across implementations, and so does every
Boolean query. -/
theorem C13_group_implementations_agree (ws : List Write) (hws : ∀ w ∈ ws, w.ok) (a64 be : Bool) :
    (∀ h, (neonRun ws).match_ a64 h = (sse2Run ws).match_ h ∧ (portRun be ws).match_ h = (sse2Run ws).match_ h) ∧
    ((neonRun ws).matchAvailable a64 = (sse2Run ws).matchAvailable ∧
      (portRun be ws).matchAvailable = (sse2Run ws).matchAvailable) ∧
    ((neonRun ws).matchOccupied a64 = (sse2Run ws).matchOccupied ∧
      (portRun be ws).matchOccupied = (sse2Run ws).matchOccupied) ∧
    (∀ p < 15, (neonRun ws).isOccupied p = (sse2Run ws).isOccupied p ∧
      (portRun be ws).isOccupied p = (sse2Run ws).isOccupied p) ∧
    (∀ p < 15, (neonRun ws).isSentinel p = (sse2Run ws).isSentinel p ∧
      (portRun be ws).isSentinel p = (sse2Run ws).isSentinel p ∧ (neonRun ws).isSentinelPc p = (sse2Run ws).isSentinel p) ∧
    (∀ h, (neonRun ws).isNotOverflowed h = (sse2Run ws).isNotOverflowed h ∧
      (portRun be ws).isNotOverflowed be h = (sse2Run ws).isNotOverflowed h) ∧
    (∀ p < 15, (neonRun ws).maybeCausedOverflow p = (sse2Run ws).maybeCausedOverflow p ∧
      (portRun be ws).maybeCausedOverflow be p = (sse2Run ws).maybeCausedOverflow p) := by
  obtain ⟨m1, m2, m3⟩ := C13_group_implementations_meet_spec ws hws
  replace m2 := m2 a64; replace m3 := m3 be
  obtain ⟨G, hG, hA, hs, hn, hp⟩ := (joint_run be ws hws).ex
  have cong : ∀ (f : Nat → Bool) (m : Nat → Nat), BRel m G → ∀ j, (decide (j < 15) && f (m j)) = (decide (j < 15) && f (G.md j)) := by
    intro f m hm j
    by_cases hj : j < 15
    · rw [hm.1 j hj]
    · simp [hj]
  have sOcc : ∀ j, (sse2Run ws).matchOccupied.testBit j = (decide (j < 15) && (G.md j != 0)) := by
    intro j
    unfold Sse2.matchOccupied
    have hav : ∀ j, (sse2Run ws).matchAvailable.testBit j = (decide (j < 15) && ((sse2Run ws).m j == 0)) := fun j => by
      unfold Sse2.matchAvailable; rw [movemask_and_testBit]
    rw [BitVec.testBit_toNat, BitVec.getLsbD_and, BitVec.getLsbD_not, BitVec.getLsbD_ofNat, hav]
    have h7 : (0x7FFF#32).getLsbD j = decide (j < 15) := by
      by_cases hj : j < 32
      · have : ∀ j < 32, (0x7FFF#32).getLsbD j = decide (j < 15) := by decide
        exact this j hj
      · rw [BitVec.getLsbD_of_ge _ _ (by omega)]; simp; omega
    rw [h7, cong (fun x => x == 0) _ hs]
    by_cases hj : j < 15
    · simp [hj, show j < 32 by omega, bne]
    · simp [hj]
  have sAv : ∀ j, (sse2Run ws).matchAvailable.testBit j = (decide (j < 15) && (G.md j == 0)) := fun j => by
    unfold Sse2.matchAvailable; rw [movemask_and_testBit, cong (fun x => x == 0) _ hs]
  have sM : ∀ h j, ((sse2Run ws).match_ h).testBit j = (decide (j < 15) && (G.md j == rhash h)) := fun h j => by
    unfold Sse2.match_; rw [movemask_and_testBit, sse2_word_byte, cong (fun x => x == rhash h) _ hs]
  refine ⟨fun h => ⟨mask_ext fun j => ?_, mask_ext fun j => ?_⟩, ⟨mask_ext fun j => ?_, mask_ext fun j => ?_⟩,
    ⟨mask_ext fun j => ?_, mask_ext fun j => ?_⟩, fun p hpp => ⟨?_, ?_⟩, fun p hpp => ⟨?_, ?_, ?_⟩, fun h => ⟨?_, ?_⟩,
    fun p hpp => ⟨?_, ?_⟩⟩
  · rw [sM]; unfold Neon.match_; rw [neon_and_testBit, neon_reducedHash, cong (fun x => x == rhash h) _ hn]
  · rw [sM]; unfold Port.match_; rw [port_reducedHash, port_matchImpl hp hG _ (rhash_lt h)]
  · rw [sAv]; unfold Neon.matchAvailable; rw [neon_and_testBit, cong (fun x => x == 0) _ hn]
  · rw [sAv, port_matchAvailable hp hG]
  · rw [sOcc]; unfold Neon.matchOccupied; rw [neon_and_testBit, cong (fun x => decide (0 < x)) _ hn]
    congr 1; rw [Bool.eq_iff_iff]; simp; omega
  · rw [sOcc, port_matchOccupied hp hG]
  · exact (m2.isOccupied p hpp).trans (m1.isOccupied p hpp).symm
  · exact (m3.isOccupied p hpp).trans (m1.isOccupied p hpp).symm
  · exact (m2.isSentinel p hpp).trans (m1.isSentinel p hpp).symm
  · exact (m3.isSentinel p hpp).trans (m1.isSentinel p hpp).symm
  · show ((neonRun ws).m p == 1) = ((sse2Run ws).m p == 1); rw [hn.1 p hpp, hs.1 p hpp]
  · exact (m2.isNotOverflowed h).trans (m1.isNotOverflowed h).symm
  · exact (m3.isNotOverflowed h).trans (m1.isNotOverflowed h).symm
  · exact (m2.maybeCausedOverflow p hpp).trans (m1.maybeCausedOverflow p hpp).symm
  · exact (m3.maybeCausedOverflow p hpp).trans (m1.maybeCausedOverflow p hpp).symm

set_option maxRecDepth 100000 in
example : (portRun true sampleWrites).match_ 8 = 3 ∧ (sse2Run sampleWrites).matchOccupied = 0x4003 ∧
    (portRun false sampleWrites).maybeCausedOverflow false 0 = true ∧
    (portRun false sampleWrites).maybeCausedOverflow false 5 = true := by decide +kernel

/-- **C13.** The shared dummy group of a container without capacity answers like a freshly initialized group with the
end marker set: lookups find nothing and stop at once, in every implementation. -/
theorem C13_dummy_group (h : Nat) (be a64 : Bool) :
    Sse2.dummy.match_ h = 0 ∧ Neon.dummy.match_ a64 h = 0 ∧ Port.dummy.match_ h = 0 ∧
    Sse2.dummy.isNotOverflowed h = true ∧ Neon.dummy.isNotOverflowed h = true ∧
    Port.dummy.isNotOverflowed be h = true ∧
    Sse2.dummy.isSentinel 14 = true ∧ Neon.dummy.isSentinel 14 = true ∧ Port.dummy.isSentinel 14 = true := by
  have e := C13_group_implementations_meet_spec [.sentinel] (by intro w hw; simp at hw; subst hw; trivial)
  have dP : Port.dummy = portRun be [.sentinel] := by cases be <;> rfl
  have nomatch_ : ∀ (m : Nat → Nat), (∀ j < 15, m j = 0 ∨ m j = 1) → ∀ j, (decide (j < 15) && (m j == rhash h)) = false := by
    intro m hm j
    by_cases hj : j < 15
    · have := rhash_ge_two h
      simp only [hj, decide_true, Bool.true_and]; rw [beq_eq_false_iff_ne]
      rcases hm j hj with e | e <;> omega
    · simp [hj]
  have t1 : ∀ j < 15, Sse2.dummy.m j = 0 ∨ Sse2.dummy.m j = 1 := by decide
  have t2 : ∀ j < 15, Neon.dummy.m j = 0 ∨ Neon.dummy.m j = 1 := by decide
  refine ⟨mask_ext fun j => ?_, mask_ext fun j => ?_, mask_ext fun j => ?_, ?_, ?_, ?_, by decide, by decide, by decide⟩
  · unfold Sse2.match_; rw [movemask_and_testBit, sse2_word_byte, nomatch_ _ t1]; simp
  · unfold Neon.match_; rw [neon_and_testBit, neon_reducedHash, nomatch_ _ t2]; simp
  · rw [dP]
    have a := (C13_group_implementations_agree [.sentinel] (by intro w hw; simp at hw; subst hw; trivial) a64 be).1 h
    rw [a.2]
    unfold Sse2.match_; rw [movemask_and_testBit, sse2_word_byte]
    have t3 : ∀ j < 15, (sse2Run [.sentinel]).m j = 0 ∨ (sse2Run [.sentinel]).m j = 1 := by decide
    rw [nomatch_ _ t3]; simp
  · unfold Sse2.isNotOverflowed; rw [show Sse2.dummy.m 15 = 0 from rfl, Nat.zero_and]; rfl
  · unfold Neon.isNotOverflowed; rw [show Neon.dummy.m 15 = 0 from rfl, Nat.zero_and]; rfl
  · rw [dP]; exact ((e.2.2 be).isNotOverflowed h).trans rfl

/-- **C14.** In every implementation the one-byte reduced hash of any hash is a byte, is neither the free marker 0 nor the
end marker 1, and is congruent to the hash modulo 8. -/
theorem C14_reduced_hash (h : Nat) :
    (∀ r ∈ [Sse2.reducedHash h, Neon.reducedHash h, Port.reducedHash h],
      r < 256 ∧ r ≠ 0 ∧ r ≠ 1 ∧ r % 8 = h % 8) ∧
    Sse2.reducedHash h = Neon.reducedHash h ∧ Neon.reducedHash h = Port.reducedHash h := by
  rw [sse2_reducedHash, neon_reducedHash, port_reducedHash]
  have a := rhash_lt h; have b := rhash_ge_two h; have c := rhash_mod8 h
  refine ⟨fun r hr => ?_, rfl, rfl⟩
  simp only [List.mem_cons, List.not_mem_nil, or_false, or_self] at hr
  subst hr
  exact ⟨a, by omega, by omega, c⟩

example : Sse2.reducedHash 0x1234567812345601 = 9 ∧ Port.reducedHash 0x100 = 8 := by decide +kernel

/-- **C14.** Erasing an element computes the overflow bit its insertion marked: if overflow was recorded for the hash of a
stored element, the erasing code sees it. -/
theorem C14_erase_sees_overflow (ws : List Write) (hws : ∀ w ∈ ws, w.ok) (p h : Nat) (hp : p < 15)
    (hslot : (Abs.run ws).slot p = .elem h) (be : Bool) :
    (sse2Run ws).maybeCausedOverflow p = !(sse2Run ws).isNotOverflowed h ∧
    (neonRun ws).maybeCausedOverflow p = !(neonRun ws).isNotOverflowed h ∧
    (portRun be ws).maybeCausedOverflow be p = !(portRun be ws).isNotOverflowed be h := by
  obtain ⟨m1, m2, m3⟩ := C13_group_implementations_meet_spec ws hws
  have r : Abs.residue ((Abs.run ws).slot p) = h % 8 := by rw [hslot]; rfl
  refine ⟨?_, ?_, ?_⟩
  · rw [show (sse2Run ws).maybeCausedOverflow p = _ from m1.maybeCausedOverflow p hp,
      show (sse2Run ws).isNotOverflowed h = _ from m1.isNotOverflowed h, r, Bool.not_not]
  · rw [show (neonRun ws).maybeCausedOverflow p = _ from (m2 true).maybeCausedOverflow p hp,
      show (neonRun ws).isNotOverflowed h = _ from (m2 true).isNotOverflowed h, r, Bool.not_not]
  · rw [show (portRun be ws).maybeCausedOverflow be p = _ from (m3 be).maybeCausedOverflow p hp,
      show (portRun be ws).isNotOverflowed be h = _ from (m3 be).isNotOverflowed h, r, Bool.not_not]

example : (Abs.run sampleWrites).slot 1 = .elem 264 := by decide

end Props.Group15

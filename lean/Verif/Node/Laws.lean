/-
What the refinement proof needs of a container of node pointers; proved for both libraries in `Verif/Node/FoaCont.lean` and
`Verif/Node/FcaCont.lean`.
-/
import Verif.Node.Machine

namespace Node
variable {K V C : Type}

/-- the effect of an insertion of `x`: `b` says whether it took place -/
def Ins (uniq : Bool) (contents : C → List (K × Nat)) (Inv : C → Prop) (eq : C → K → K → Bool) (al : C → Nat)
    (t : C) (x : K × Nat) (r : Option (C × Bool)) : Prop :=
  ∃ t' b, r = some (t', b) ∧ Inv t' ∧ eq t' = eq t ∧ al t' = al t ∧
    ((b = false ∧ uniq = true ∧ (contents t').Perm (contents t) ∧ ∃ e ∈ contents t, eq t x.1 e.1 = true) ∨
     (b = true ∧ (contents t').Perm (x :: contents t) ∧ (uniq = true → ∀ e ∈ contents t, eq t x.1 e.1 = false)))

structure Laws (I : ContImpl K C) (uniq keep : Bool) where
  contents : C → List (K × Nat)
  Inv : C → Prop
  eq : C → K → K → Bool
  new_ : ∀ hash e al, Spec.Lawful hash e →
    Inv (I.new_ hash e al) ∧ eq (I.new_ hash e al) = e ∧ I.al (I.new_ hash e al) = al ∧ contents (I.new_ hash e al) = []
  distinct : uniq = true → ∀ t, Inv t → (contents t).Pairwise (fun a b => eq t a.1 b.1 = false)
  symm : ∀ t, Inv t → ∀ a b, eq t a b = true → eq t b a = true
  emplace : ∀ t x, Inv t → Ins uniq contents Inv eq I.al t x (I.emplace t x)
  insertNode : ∀ t x, Inv t → Ins uniq contents Inv eq I.al t x (I.insertNode t x)
  insertHint : ∀ t i x, Inv t → i ≤ (contents t).length → Ins uniq contents Inv eq I.al t x (I.insertHint t i x)
  extract : ∀ t k, Inv t → ∃ t' r, I.extract t k = some (t', r) ∧ Inv t' ∧ eq t' = eq t ∧ I.al t' = I.al t ∧
    ((∃ e, r = some e ∧ (contents t).Perm (e :: contents t') ∧ eq t k e.1 = true) ∨
     (r = none ∧ (contents t').Perm (contents t) ∧ ∀ e ∈ contents t, eq t k e.1 = false))
  erase : ∀ t k, Inv t → ∃ t' l, I.erase t k = some (t', l) ∧ Inv t' ∧ eq t' = eq t ∧ I.al t' = I.al t ∧
    (contents t).Perm (l ++ contents t') ∧ (∀ e ∈ l, eq t k e.1 = true) ∧ ∀ e ∈ contents t', eq t k e.1 = false
  clear : ∀ t, Inv t → ∃ t' l, I.clear t = some (t', l) ∧ Inv t' ∧ eq t' = eq t ∧ I.al t' = I.al t ∧
    (contents t).Perm l ∧ contents t' = []
  destroy : ∀ t, Inv t → ∃ l, I.destroy t = some l ∧ (contents t).Perm l
  merge : ∀ t x, Inv t → Inv x → I.al t = I.al x → (keep = false → eq t = eq x) →
    ∃ t' x' took, I.merge t x = some (t', x') ∧ Inv t' ∧ Inv x' ∧ eq t' = eq t ∧ eq x' = eq x ∧
      I.al t' = I.al t ∧ I.al x' = I.al x ∧
      (contents x).Perm (took ++ contents x') ∧ (contents t').Perm (took ++ contents t) ∧
      (uniq = true → (∀ e ∈ took, ∀ y ∈ contents t, eq t e.1 y.1 = false) ∧
        took.Pairwise (fun a b => eq t a.1 b.1 = false) ∧
        ∀ e ∈ contents x', (∃ y ∈ contents t, eq t e.1 y.1 = true) ∨ ∃ y ∈ took, eq t e.1 y.1 = true) ∧
      (uniq = false → contents x' = [])
  swap : ∀ pocs t x, Inv t → Inv x → (pocs = true ∨ I.al t = I.al x) →
    ∃ t' x', I.swap pocs t x = some (t', x') ∧ Inv t' ∧ Inv x' ∧ eq t' = eq x ∧ eq x' = eq t ∧ I.al t' = I.al x ∧
      I.al x' = I.al t ∧ (contents t').Perm (contents x) ∧ (contents x').Perm (contents t)
  moveAssign : ∀ pocma t x, Inv t → Inv x → (pocma = true ∨ I.al t = I.al x) →
    ∃ t' x' l, I.moveAssign pocma t x = some (t', x', l) ∧ Inv t' ∧ Inv x' ∧ eq t' = eq x ∧
      (eq x' = eq t ∨ eq x' = eq x) ∧ I.al t' = I.al x ∧ I.al x' = I.al x ∧
      (contents t').Perm (contents x) ∧ contents x' = [] ∧ (contents t).Perm l

end Node

import Verif.Model.SpMat
import Verif.Spec.SpMat

/-! # Specification: generations of fill-in of ILU(n) -/

namespace Istl
variable {R : Type}

/-- Row `k` may create fill at `(i,j)` with generation one above that of `(k,j)`: `k` lies left of both, both couplings are in the
pattern and both have generation below `n`. -/
def Couples (n : Nat) (G : Nat → Nat → Option Nat) (i j k g : Nat) : Prop :=
  k < i ∧ k < j ∧ (∃ h, G i k = some h ∧ h < n) ∧ G k j = some g ∧ g < n

/-- `G` assigns generations to the positions of the ILU(n) pattern (`none`: not in the pattern): entries of `A` have generation 0;
any other position is in the pattern exactly when some row couples, and the generation is decided by the first such row. -/
structure FillGenerations (n : Nat) (A : SpMat R) (G : Nat → Nat → Option Nat) : Prop where
  stored : ∀ i j, A.Has i j → G i j = some 0
  fill : ∀ i j k g, i < A.n → ¬ A.Has i j → Couples n G i j k g → (∀ k' g', k' < k → ¬ Couples n G i j k' g') →
    G i j = some (g + 1)
  none : ∀ i j, i < A.n → ¬ A.Has i j → (∀ k g, ¬ Couples n G i j k g) → G i j = none

end Istl

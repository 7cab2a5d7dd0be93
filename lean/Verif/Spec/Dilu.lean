import Verif.Model.Dilu
import Verif.Spec.Gsetc

/-! # Specification of the DILU preconditioner -/

namespace Istl
variable {R : Type} [Ring R]

/-- The lower triangular matrix `D + L_A`. -/
def dLower (A : SpMat R) (D : Nat → R) (i k : Nat) : R := if k < i then A.entry i k else if k = i then D i else 0

/-- The upper triangular matrix `D + U_A`. -/
def dUpper (A : SpMat R) (D : Nat → R) (k j : Nat) : R := if k < j then A.entry k j else if k = j then D k else 0

/-- `Dinv` holds the inverses of a diagonal `D` for which `(D + L) D^{-1} (D + U)` has the diagonal of `A`. -/
structure IsDILU (A : SpMat R) (D Dinv : Nat → R) : Prop where
  inverse : ∀ i, i < A.n → D i * Dinv i = 1 ∧ Dinv i * D i = 1
  diagonal : ∀ i, i < A.n → ∑ k ∈ Finset.range A.n, dLower A D i k * Dinv k * dUpper A D k i = A.entry i i

end Istl

import Verif.Spec.SpMat
import Mathlib.Algebra.Module.BigOperators
import Mathlib.Algebra.BigOperators.Group.Finset.Basic

/-! # Specification of tridiagonal systems -/

namespace Istl
namespace Btd

/-- The sparsity pattern is exactly the tridiagonal one. -/
def TriPattern {B : Type} (A : SpMat B) : Prop :=
  A.m = A.n ∧ ∀ i < A.n, (A.row i).Asc ∧ ∀ j, (A.row i).Has j ↔ j < A.n ∧ (j + 1 = i ∨ j = i ∨ j = i + 1)

/-- The sparsity pattern is exactly the diagonal. -/
def DiagPattern {B : Type} (A : SpMat B) : Prop :=
  A.m = A.n ∧ ∀ i < A.n, (A.row i).Asc ∧ ∀ j, (A.row i).Has j ↔ j = i

variable {R V : Type} [Ring R] [AddCommGroup V] [Module R V]

/-- `A x = b`. -/
def Solves (A : SpMat R) (x b : Nat → V) : Prop := ∀ i < A.n, ∑ j ∈ Finset.range A.m, A.entry i j • x j = b i

/-- `u 0, ..., u k` are two-sided inverses of the pivot blocks of block elimination without pivoting:
`p_0 = a_00`, `p_{i+1} = a_{i+1,i+1} - a_{i+1,i} p_i^{-1} a_{i,i+1}`. -/
def Pivots (A : SpMat R) (u : Nat → R) (k : Nat) : Prop :=
  (A.entry 0 0 * u 0 = 1 ∧ u 0 * A.entry 0 0 = 1) ∧
  ∀ i < k, (A.entry (i + 1) (i + 1) - A.entry (i + 1) i * (u i * A.entry i (i + 1))) * u (i + 1) = 1 ∧
    u (i + 1) * (A.entry (i + 1) (i + 1) - A.entry (i + 1) i * (u i * A.entry i (i + 1))) = 1

end Btd
end Istl

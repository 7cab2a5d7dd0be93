import Mathlib.Algebra.BigOperators.Group.Finset.Basic
import Verif.Spec.Adjoint
import Verif.Spec.Gsetc

/-! Specification: symmetric and positive definite block matrices, and the energy they measure errors with. -/

namespace Istl
variable {K V R : Type} [CommRing K] [AddCommGroup V] [Module K V]

/-- The scalar product of two block vectors with `n` blocks; `B` is the scalar product of two blocks. -/
def blockDot (B : V → V → K) (n : Nat) (x y : Nat → V) : K := ∑ i ∈ Finset.range n, B (x i) (y i)

/-- `A` equals its transpose: `(A x)^T y = x^T (A y)`. -/
def SpMat.Symmetric (B : V → V → K) (act : R → V →+ V) (A : SpMat R) : Prop :=
  ∀ x y : Nat → V, blockDot B A.n (A.apply act x) y = blockDot B A.n x (A.apply act y)

/-- `x^T A x > 0` for every vector that does not vanish. -/
def SpMat.PosDef [LT K] (B : V → V → K) (act : R → V →+ V) (A : SpMat R) : Prop :=
  ∀ x : Nat → V, (∃ i, i < A.n ∧ x i ≠ 0) → 0 < blockDot B A.n (A.apply act x) x

/-- The quadratic functional `x^T A x - 2 b^T x`, whose minimiser solves `A x = b`. -/
def SpMat.functional (B : V → V → K) (act : R → V →+ V) (A : SpMat R) (b x : Nat → V) : K :=
  blockDot B A.n (A.apply act x) x - 2 * blockDot B A.n b x

/-- The energy `e^T A e` of an error. -/
def SpMat.energy (B : V → V → K) (act : R → V →+ V) (A : SpMat R) (e : Nat → V) : K :=
  blockDot B A.n (A.apply act e) e

end Istl

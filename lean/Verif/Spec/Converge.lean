import Verif.Spec.Solver
import Mathlib.LinearAlgebra.BilinearForm.Basic
import Mathlib.Analysis.Real.Sqrt

/-! # Specification: linear convergence of a solver in exact real arithmetic -/

namespace Istl
namespace Solver
variable {X : Type} [AddCommGroup X] [Module ℝ X]

/-- The solver works with real numbers, the scalar product `g`, the norm that belongs to it and the operator `A`, which is symmetric and
positive definite. -/
structure RealSpd (E : Env ℝ ℝ X) (g : LinearMap.BilinForm ℝ X) (A : X →ₗ[ℝ] X) : Prop where
  dot : ∀ x y, E.dot x y = g x y
  norm : ∀ x, E.norm x = √(g x x)
  op : ∀ x, E.op x = A x
  sub : ∀ x b, E.subOp x b = b - A x
  lt : ∀ a b, E.lt a b = true ↔ a < b
  finite : ∀ a, E.finite a = true
  isZero : ∀ a, E.isZero a = true ↔ a = 0
  tiny : 0 < E.tiny
  comm : ∀ x y, g x y = g y x
  pos : ∀ x, x ≠ 0 → 0 < g x x
  symm : ∀ x y, g (A x) y = g x (A y)
  posA : ∀ x, x ≠ 0 → 0 < g (A x) x

/-- `run red maxit x b` converges linearly: there are `q < 1` and `C`, the same for all start vectors, right hand sides, reductions and bounds on
the number of iterations, so that the run ends normally, the defect recorded for step `k` is at most `C q^k` times the initial one, the energy
`g (A e) e` of the error of the iterate has shrunk at least by `q^(2k)` after the reported number `k` of iterations, and for each required
reduction there is a number of iterations that suffices for all of them. -/
structure Converges (E : Env ℝ ℝ X) (g : LinearMap.BilinForm ℝ X) (A : X →ₗ[ℝ] X) (run : ℝ → Nat → X → X → Exit X ℝ) (q C : ℝ) : Prop where
  rate : 0 ≤ q ∧ q < 1
  normal : ∀ red maxit x b, (run red maxit x b).exc = none
  defects : ∀ red maxit x b, ∀ t ∈ (run red maxit x b).it.trace, t.2 ≤ C * q ^ t.1 * E.norm (defect0 E x b)
  energy : ∀ red maxit x b, ∃ x', (run red maxit x b).x = E.post x' ∧ ∀ z, A z = (E.pre x b).2 →
    g (A (z - x')) (z - x') ≤ q ^ (2 * ((run red maxit x b).it.finalize E red).iterations) * g (A (z - (E.pre x b).1)) (z - (E.pre x b).1)
  enough : ∀ red : ℝ, 0 < red → ∃ N, ∀ maxit x b, N ≤ maxit →
    ((run red maxit x b).it.finalize E red).converged = true ∧ ((run red maxit x b).it.finalize E red).iterations ≤ N

end Solver
end Istl

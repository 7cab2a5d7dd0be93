import Verif.Model.Krylov
import Verif.Spec.Adjoint
import Mathlib.LinearAlgebra.Span.Basic

/-! # Specification: the run of `GeneralizedPCGSolver` before its first restart -/

namespace Istl
namespace Solver
variable {K Rl X : Type} [Field K] [AddCommGroup X] [Module K X] [Zero Rl] [Mul Rl]

/-- The state after step `k + 1` if no restart happens: `x`, defect `b`, directions `p 0, …, p k`. -/
def gpState (E : Env K Rl X) (x b : X) (d : Rl) : Nat → GpSt K X Rl
  | 0 => gpMinimise E 0 { x := x, b := b, p := fun _ => E.prec 0 b, pp := fun _ => 0, d := d }
  | k + 1 => gpMinimise E (k + 1) (gpDirection E (k + 1) (k + 1) (gpState E x b d k))

/-- What the solver is given: a scalar product `B`, a symmetric operator `A` that is positive definite on the vectors `W`, and a preconditioner
that may be nonlinear and differ from call to call. -/
structure SpdProblem [LT K] (B : X → X → K) (W : Submodule K X) (A : Module.End K X) (E : Env K Rl X) : Prop where
  prod : ScalarProd B
  dot : ∀ x y, E.dot x y = B x y
  op : ∀ x, E.op x = A x
  sub : ∀ x b, E.subOp x b = b - A x
  symm : Adjoint B A A
  mem : ∀ x ∈ W, A x ∈ W
  pos : ∀ x ∈ W, x ≠ 0 → 0 < B (A x) x
  prec : ∀ k, ∀ b ∈ W, E.prec k b ∈ W

/-- The functional `x^T A x - 2 b^T x` minimised by the solution of `A x = b`. -/
def quad (B : X → X → K) (A : Module.End K X) (b x : X) : K := B (A x) x - 2 * B b x

end Solver
end Istl

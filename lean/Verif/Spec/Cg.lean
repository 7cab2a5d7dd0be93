import Verif.Model.Solver
import Mathlib.LinearAlgebra.BilinearForm.Basic
import Mathlib.LinearAlgebra.FiniteDimensional.Defs

/-!
# Exact-arithmetic setting of the conjugate gradient method
-/

namespace Istl
namespace Solver

variable {K Rl X : Type} [Field K] [AddCommGroup X] [Module K X]

/-- Symmetric setting: the scalar product is the symmetric bilinear form `g`, the operator the linear map `A`, every preconditioner call
the linear map `B`, both self-adjoint with respect to `g`; the test `def == 0` recognises the zero defect. -/
structure Symmetric (E : Env K Rl X) (g : LinearMap.BilinForm K X) (A B : X →ₗ[K] X) : Prop where
  dot : ∀ x y, E.dot x y = g x y
  comm : ∀ x y, g x y = g y x
  op : ∀ x, E.op x = A x
  sub : ∀ x b, E.subOp x b = b - A x
  prec : ∀ k b, E.prec k b = B b
  adjA : ∀ x y, g (A x) y = g x (A y)
  adjB : ∀ x y, g (B x) y = g x (B y)

/-- The state of CG after `k` complete passes of the loop that do not stop: `(x_k, r_k, p_k)`. -/
def cgState [Mul Rl] [Zero Rl] (E : Env K Rl X) (x b : X) (d : Rl) : Nat → CgSt K X Rl
  | 0 => cgInit E x b d
  | k + 1 => cgAfter E (k + 1) (cgAdvance E (k + 1) (cgState E x b d k))

end Solver
end Istl

import Verif.Spec.Cg
import Verif.Spec.Rotation

/-!
# Exact-arithmetic setting of MINRES
-/

namespace Istl
namespace Solver

variable {X : Type} [AddCommGroup X] [Module ℝ X]

/-- Real exact arithmetic: `g` is the scalar product, `A` the operator (self-adjoint, possibly indefinite), `B` the preconditioner
(self-adjoint and positive definite). -/
structure MinExact (E : Env ℝ ℝ X) (g : LinearMap.BilinForm ℝ X) (A B : X →ₗ[ℝ] X) : Prop extends Symmetric E g A B where
  scalars : ExactScalars E
  sqrt : ∀ a, E.sqrt a = Real.sqrt a
  isZero : ∀ d, E.isZero d = true ↔ d = 0
  posB : ∀ x, x ≠ 0 → 0 < g (B x) x
  regular : ∀ x, A x = 0 → x = 0

/-- The state of MINRES after `k` passes of the loop, started from the iterate `x`, the defect `b` and its measured size `d`. -/
noncomputable def minState (E : Env ℝ ℝ X) (x b : X) (d : ℝ) : Nat → MinSt ℝ X ℝ
  | 0 => minInit E x b d
  | k + 1 => minAdvance E (k + 1) (minState E x b d k)

/-- The arguments of the plane rotation generated in pass `i` are zero or not below the threshold `1e-15` of the code; otherwise the code
replaces the rotation by an inexact one. -/
def RotOk (E : Env ℝ ℝ X) (i : Nat) (st : MinSt ℝ X ℝ) : Prop :=
  let alpha := (minLanczos E i st).1
  let beta := (minLanczos E i st).2.2.2
  let t := (minColumn E i st alpha).2.2
  (t = 0 ∨ E.rotEps ≤ |t|) ∧ (beta = 0 ∨ E.rotEps ≤ |beta|)

/-- The subspace `span {c, T c, ..., T^(k-1) c}`. -/
def krylovSpace (T : X →ₗ[ℝ] X) (c : X) (k : Nat) : Submodule ℝ X := Submodule.span ℝ {y | ∃ j, j < k ∧ y = (T ^ j) c}

end Solver
end Istl

import Verif.Spec.Rotation
import Mathlib.Analysis.InnerProductSpace.Basic

/-!
# Exact-arithmetic setting of GMRes
-/

namespace Istl
namespace Solver

variable {𝕜 X : Type} [RCLike 𝕜] [NormedAddCommGroup X] [InnerProductSpace 𝕜 X]

/-- Vectors live in an inner product space whose scalar product and norm the solver uses; the operator is the linear map `A`. -/
structure GmExact (E : Env 𝕜 ℝ X) (A : X →ₗ[𝕜] X) : Prop where
  scalars : ExactScalars E
  dot : ∀ x y, E.dot x y = inner 𝕜 x y
  norm : ∀ x, E.norm x = ‖x‖
  op : ∀ x, E.op x = A x
  sub : ∀ x b, E.subOp x b = b - A x
  isZero : ∀ d, E.isZero d = true ↔ d = 0
  tiny : 0 < E.tiny
  eps : 0 < E.eps

/-- The loop body with an additional abort if the new plane rotation did not annihilate the entry below the diagonal exactly (which
happens only if one of its arguments is non-zero but smaller than `1e-15`, see C32). -/
def strict [DecidableEq 𝕜] (stp : Nat → GmSt 𝕜 X ℝ → Option (GmSt 𝕜 X ℝ)) (i : Nat) (st : GmSt 𝕜 X ℝ) : Option (GmSt 𝕜 X ℝ) :=
  match stp i st with
  | none => none
  | some st' => if st'.H (i + 1) i = 0 then some st' else none

/-- `k` passes of the inner loop from the state `st`. -/
def passes (stp : Nat → GmSt 𝕜 X ℝ → Option (GmSt 𝕜 X ℝ)) : Nat → GmSt 𝕜 X ℝ → Option (GmSt 𝕜 X ℝ)
  | 0, st => some st
  | k + 1, st => (passes stp k st).bind (stp k)

end Solver
end Istl

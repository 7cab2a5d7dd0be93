import Verif.Model.Krylov
import Mathlib.Analysis.RCLike.Basic
import Mathlib.Analysis.SpecialFunctions.Sqrt

/-!
# Exact complex (or real) arithmetic for the solvers

`𝕜` is `ℝ` or `ℂ`.
-/

namespace Istl
namespace Solver

/-- The scalar operations an environment offers are those of `𝕜` and `ℝ`. -/
structure ExactScalars {𝕜 X : Type} [RCLike 𝕜] (E : Env 𝕜 ℝ X) : Prop where
  abs : ∀ z, E.abs z = ‖z‖
  ofReal : ∀ r : ℝ, E.ofReal r = (r : 𝕜)
  conj : ∀ z, E.conj z = starRingEnd 𝕜 z
  rsqrt : ∀ r, E.rsqrt r = Real.sqrt r
  lt : ∀ a b, E.lt a b = true ↔ a < b
  rotEps : 0 < E.rotEps

/-- The matrix `((c, s), (-conj s, c))` is unitary. -/
def UnitaryRot {𝕜 : Type} [RCLike 𝕜] (c : ℝ) (s : 𝕜) : Prop := c ^ 2 + ‖s‖ ^ 2 = 1

end Solver
end Istl

import Verif.Model.PowerIt
import Mathlib.Analysis.InnerProductSpace.Basic
import Mathlib.Analysis.InnerProductSpace.Spectrum
import Mathlib.Analysis.InnerProductSpace.PiL2

/-!
# Vocabulary of the eigenvalue algorithms

Vectors are elements of a real inner product space, the matrix is a linear map on it, arithmetic is exact.
-/

namespace Istl

open scoped InnerProductSpace

variable {E : Type} [NormedAddCommGroup E] [InnerProductSpace ℝ E]

/-- Exact arithmetic on a real inner product space with the matrix `A`; `big` is `numeric_limits<Real>::max()`. -/
noncomputable def realEnv (A : E →ₗ[ℝ] E) (big : ℝ) : PEnv ℝ E where
  mv := A
  smul a x := a • x
  axpy a x y := y + a • x
  dot x y := ⟪x, y⟫_ℝ
  norm x := ‖x‖
  gt a b := by classical exact decide (b < a)
  ge a b := by classical exact decide (b ≤ a)
  eq a b := by classical exact decide (a = b)
  abs a := |a|
  sqrt a := Real.sqrt a
  maxv := big

/-- `v` scaled to length one. -/
noncomputable def unitVec (v : E) : E := (1 / ‖v‖) • v

/-- What the caller is promised about `(x,lambda)`: `x` has length one, `lambda` is its Rayleigh quotient and the
residual is at most `eps`. -/
def ApproxPair (A : E →ₗ[ℝ] E) (eps : ℝ) (x : E) (lam : ℝ) : Prop :=
  ‖x‖ = 1 ∧ lam = ⟪x, A x⟫_ℝ ∧ ‖A x - lam • x‖ ≤ eps

/-- `lam` is an eigenvalue of `A`. -/
def IsEigenvalue (A : E →ₗ[ℝ] E) (lam : ℝ) : Prop := ∃ v, v ≠ 0 ∧ A v = lam • v

/-- `A` is symmetric. -/
def SymMap (A : E →ₗ[ℝ] E) : Prop := ∀ x y, ⟪A x, y⟫_ℝ = ⟪x, A y⟫_ℝ

/-- `A` is symmetric and positive semidefinite. -/
def PsdMap (A : E →ₗ[ℝ] E) : Prop := SymMap A ∧ ∀ x, 0 ≤ ⟪x, A x⟫_ℝ

/-- Norm of the residual of the Rayleigh quotient of the direction `v`. -/
noncomputable def residual (A : E →ₗ[ℝ] E) (v : E) : ℝ :=
  ‖A (unitVec v) - ⟪unitVec v, A (unitVec v)⟫_ℝ • unitVec v‖

/-- The matrix `C` has the entries of `m - mu*I`; `b` is the size of the blocks. -/
def IsShifted {K : Type} [Sub K] (m : SpMat (PBlock K)) (b : Nat) (mu : K) (C : SpMat (PBlock K)) : Prop :=
  C.n = m.n ∧ C.m = m.m ∧ ∀ i < m.n,
    (C.row i).map Prod.fst = (m.row i).map Prod.fst ∧
    ∀ j e, (j, e) ∈ m.row i → ∃ e', (j, e') ∈ C.row i ∧
      ∀ k < b, ∀ l < b, e' k l = if i = j ∧ k = l then e k l - mu else e k l

/-- The iteration matrix, if there is one, agrees with the shift. -/
def InSync {K : Type} [Sub K] (m : SpMat (PBlock K)) (b : Nat) (o : PObj K) : Prop :=
  ∀ C, o.itMat = some C → IsShifted m b o.mu C

/-- `sol` is an exact solver for the iteration operator (or the iteration matrix, when that agrees with the shift):
whenever it returns a vector, that vector solves `(A - mu*I) z = x`. -/
def ExactEigSolver (A : E →ₗ[ℝ] E) (m : SpMat (PBlock ℝ)) (b : Nat) (sol : PObj ℝ → E → E → Res E) : Prop :=
  ∀ o y x z, InSync m b o → sol o y x = .ok z → A z - o.mu • z = x

end Istl

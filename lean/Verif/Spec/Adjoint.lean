import Mathlib.LinearAlgebra.BilinearForm.Basic
import Mathlib.Algebra.Module.LinearMap.End
import Mathlib.Algebra.Order.Field.Basic
import Verif.Spec.AmgCycle

/-! Specification: adjoint operators with respect to a symmetric bilinear form (the scalar product). -/

namespace Istl

variable {K V : Type} [CommRing K] [AddCommGroup V] [Module K V]

/-- `Y` is the adjoint (transpose) of `X`. -/
def Adjoint (B : V → V → K) (X Y : Module.End K V) : Prop := ∀ x y, B (X x) y = B x (Y y)

/-- A symmetric scalar product. -/
structure ScalarProd (B : V → V → K) : Prop where
  symm : ∀ x y, B x y = B y x
  add : ∀ x y z, B (x + y) z = B x z + B y z
  smul : ∀ (c : K) x z, B (c • x) z = c * B x z

/-- A multigrid hierarchy for symmetric problems: the operators of all levels are linear, the matrices symmetric, the post-smoother is the
transpose of the pre-smoother, the restriction the transpose of the prolongation, the coarse solver symmetric, and the numbers of smoothing
steps agree. -/
structure SymHierarchy (B : V → V → K) (S : Amg.Setup K V) (A S1 S2 R P : Nat → Module.End K V) (C : Module.End K V) : Prop where
  mat : ∀ l, S.mat l = A l
  pre : ∀ l, S.pre l 0 = S1 l
  post : ∀ l, S.post l 0 = S2 l
  restr : ∀ l, S.restr l = R l
  prol : ∀ l, S.prol l = P l
  solve : ∀ b, (S.solve 0 b).1 = C b
  steps : S.preSteps = S.postSteps
  A_symm : ∀ l, Adjoint B (A l) (A l)
  smoothers : ∀ l, Adjoint B (S1 l) (S2 l)
  transfer : ∀ l, Adjoint B (R l) (P l)

/-- In addition, on the vectors `W l` of level `l`: the matrices are positive definite and regular, the coarse ones are the Galerkin products, the
coarse solver is exact, the pre-smoother reduces the energy of every non-zero error, and the correction is not over-damped. -/
structure SpdHierarchy [LinearOrder K] [IsStrictOrderedRing K] (B : V → V → K) (S : Amg.Setup K V) (W : Nat → Submodule K V)
    (A S1 S2 R P : Nat → Module.End K V) (C : Module.End K V) : Prop extends SymHierarchy B S A S1 S2 R P C where
  mem_A : ∀ l, ∀ x ∈ W l, A l x ∈ W l
  mem_S1 : ∀ l, ∀ x ∈ W l, S1 l x ∈ W l
  mem_S2 : ∀ l, ∀ x ∈ W l, S2 l x ∈ W l
  mem_R : ∀ l, ∀ x ∈ W l, R l x ∈ W (l + 1)
  mem_P : ∀ l, ∀ x ∈ W (l + 1), P l x ∈ W l
  pos : ∀ l, ∀ x ∈ W l, x ≠ 0 → 0 < B (A l x) x
  regular : ∀ l, ∀ r ∈ W l, ∃ z ∈ W l, A l z = r
  galerkin : ∀ l, ∀ x ∈ W (l + 1), A (l + 1) x = R l (A l (P l x))
  coarse : ∀ r ∈ W S.coarsest, C r ∈ W S.coarsest ∧ A S.coarsest (C r) = r
  smoothing : ∀ l, ∀ x ∈ W l, x ≠ 0 → B (A l (x - S1 l (A l x))) (x - S1 l (A l x)) < B (A l x) x
  damp : 0 ≤ S.damp ∧ S.damp ≤ 1

end Istl

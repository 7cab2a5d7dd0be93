import Verif.Model.Ildl
import Verif.Spec.Ilu

/-! # Specification of the incomplete LDL^T factorisation -/

namespace Istl
variable {R : Type} [Ring R]

/-- Block transposition: an involutive anti-automorphism of the block ring. -/
structure IsTranspose (tr : R → R) : Prop where
  one : tr 1 = 1
  add : ∀ a b, tr (a + b) = tr a + tr b
  mul : ∀ a b, tr (a * b) = tr b * tr a
  tr_tr : ∀ a, tr (tr a) = a

/-- Entry `(i,j)` of `L D L^T`, where `L` is the unit lower factor stored in `F`. -/
def ldlt (tr : R → R) (F : SpMat R) (D : Nat → R) (i j : Nat) : R :=
  ∑ k ∈ Finset.range F.n, lowerFactor F i k * D k * tr (lowerFactor F j k)

/-- `F` holds an incomplete `L D L^T` factorisation of the lower triangle of `A`: `L` left of the diagonal, the inverses of `D` on
it, entries right of it as in `A`. -/
structure IsLDL (tr : R → R) (A F : SpMat R) (D : Nat → R) : Prop where
  n : F.n = A.n
  m : F.m = A.m
  pattern : ∀ i, i < A.n → (F.row i).map Prod.fst = (A.row i).map Prod.fst
  pivot : ∀ i, i < A.n → D i * F.entry i i = 1 ∧ F.entry i i * D i = 1
  product : ∀ i j, j ≤ i → A.Has i j → ldlt tr F D i j = A.entry i j
  upper : ∀ i j, i < j → A.Has i j → F.entry i j = A.entry i j

end Istl
